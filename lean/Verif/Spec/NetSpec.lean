import Mathlib.Algebra.BigOperators.Group.List.Basic
import Mathlib.Algebra.Order.Ring.Defs
import Mathlib.Tactic.Linarith

/-! # Walks and potentials, independent of the finder -/
namespace Verif

variable {V α : Type _}

/-- `Walk E u x l`: the edges `l` lead from `u` to `x`. -/
inductive Walk (E : List (V × V)) : V → V → List (V × V) → Prop
  | nil (u : V) : Walk E u u []
  | cons {u v x : V} {l : List (V × V)} : (u, v) ∈ E → Walk E v x l → Walk E u x ((u, v) :: l)

/-- A nonempty closed walk. -/
def ClosedWalk (E : List (V × V)) (l : List (V × V)) : Prop := l ≠ [] ∧ ∃ v, Walk E v v l

/-- `p` is a feasible potential: `p[j] - p[i] ≤ w(i,j)` on every edge (`network_oracle.py:12-14`). -/
def Potential [CommRing α] [LinearOrder α] (E : List (V × V)) (w : V × V → α) (p : V → α) : Prop :=
  ∀ e ∈ E, p e.2 - p e.1 ≤ w e

variable [CommRing α] [LinearOrder α] [IsStrictOrderedRing α]

theorem Walk.telescope {E : List (V × V)} {w : V × V → α} {p : V → α} (hp : Potential E w p) {u x : V}
    {l : List (V × V)} (h : Walk E u x l) : p x - p u ≤ (l.map w).sum := by
  induction h with
  | nil u => simp
  | cons he _ ih =>
    have := hp _ he
    simp only [List.map_cons, List.sum_cons] at this ⊢
    linarith

/-- A potential rules out negative closed walks. -/
theorem ClosedWalk.nonneg {E : List (V × V)} {w : V × V → α} {p : V → α} (hp : Potential E w p)
    {l : List (V × V)} (h : ClosedWalk E l) : 0 ≤ (l.map w).sum := by
  obtain ⟨-, v, hv⟩ := h
  have := hv.telescope hp
  linarith

omit [LinearOrder α] [IsStrictOrderedRing α] in
theorem Walk.append {E : List (V × V)} {u v x : V} {l l' : List (V × V)} (h : Walk E u v l)
    (h' : Walk E v x l') : Walk E u x (l ++ l') := by
  induction h with
  | nil u => exact h'
  | cons he _ ih => exact .cons he (ih h')

/-- `x` is a feasible cycle ratio: potentials exist for the weights `cost - time·x`
(`cycle_ratio_oracle.py:17-19`). -/
def RatioFeasible (E : List (V × V)) (cost time : V × V → α) (x : α) : Prop :=
  ∃ p, Potential E (fun e => cost e - time e * x) p

/-- `(π, ψ)` in log scale admits a scaling: `cost(i,j) + p_j - p_i ≤ π` for edges with `i < j` and
`ψ ≤ cost(i,j) + p_i - p_j` for edges with `i > j` (`optscaling_oracle.py:18-21`). -/
def ScalingFeasible [LinearOrder V] (E : List (V × V)) (cost : V × V → α) (π ψ : α) : Prop :=
  ∃ p : V → α, ∀ e ∈ E, (e.1 < e.2 → cost e + p e.2 - p e.1 ≤ π) ∧ (e.2 < e.1 → ψ ≤ cost e + p e.1 - p e.2)

end Verif
