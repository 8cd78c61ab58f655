import Verif.Spec.NetSpec
import Verif.Model.Network
import Mathlib.Algebra.Order.Field.Basic

/-! # What the cycle ratio search in floating point needs -/
namespace Verif
variable {V α : Type _} [Field α] [LinearOrder α]

/-- Sums of at most `n` terms are accurate to `γ` times the sum of the absolute values; no order of summation is prescribed. -/
def SumErr (γ : α) (n : ℕ) (sum : List α → α) : Prop := ∀ l : List α, l.length ≤ n → |sum l - l.sum| ≤ γ * (l.map abs).sum

/-- Every edge takes at least the time `s0`, `0 < s0 ≤ 1`, and its own ratio of cost and time is at most `ρ` in absolute value. -/
structure RatioData (E : List (V × V)) (cost time : V × V → α) (ρ s0 : α) : Prop where
  pos : 0 < s0
  one : s0 ≤ 1
  htime : ∀ e ∈ E, s0 ≤ time e
  hcost : ∀ e ∈ E, |cost e| ≤ ρ * time e

/-- A finder that works up to rounding: it only lowers the distances; if it finds nothing, they are a potential up to rounding; a cycle it finds is a
closed walk of at most `n` edges and negative up to rounding.  It may raise. -/
def FinderUpTo (u : α) (n : ℕ) (E : List (V × V)) (find : Finder V α) : Prop :=
  ∀ d w d' r, find d w = .ok (d', r) → (∀ v, d' v ≤ d v) ∧ (r = none → ∀ e ∈ E, d' e.2 ≤ d' e.1 + w e + u * |d' e.1 + w e|) ∧
    ∀ c, r = some c → ClosedWalk E c.reverse ∧ c.length ≤ n ∧ (c.map w).sum ≤ (c.map fun e => u * |d' e.1 + w e|).sum

/-- How far a finder can lower the distances: at most by `m` additions of a weight. -/
def FinderDrop (u : α) (m : ℕ) (E : List (V × V)) (find : Finder V α) : Prop :=
  ∀ d w d' r, find d w = .ok (d', r) → ∀ B W, 0 ≤ B → 0 ≤ W → (∀ v, -B ≤ d v) → (∀ e ∈ E, -W ≤ w e) →
    ∀ v, -((1 + u) ^ m * (B + m * W)) ≤ d' v

end Verif
