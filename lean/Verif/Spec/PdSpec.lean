import Mathlib.Algebra.BigOperators.Intervals
import Mathlib.Order.Interval.Finset.Nat
import Mathlib.Algebra.Order.Field.Basic

/-! # Positive definiteness of a diagonal block `A[s:e, s:e]` (specification) -/
namespace Verif
open Finset
variable {α : Type _} [Field α] [LinearOrder α]

/-- `x[s:e]' A[s:e, s:e] x[s:e]` -/
def quadOn (A : ℕ → ℕ → α) (s e : ℕ) (x : ℕ → α) : α :=
  ∑ i ∈ Ico s e, ∑ j ∈ Ico s e, x i * A i j * x j

/-- The block is positive definite. -/
def PDon (A : ℕ → ℕ → α) (s e : ℕ) : Prop :=
  ∀ x : ℕ → α, (∃ i, s ≤ i ∧ i < e ∧ x i ≠ 0) → 0 < quadOn A s e x

/-- The block is positive semidefinite. -/
def PSDon (A : ℕ → ℕ → α) (s e : ℕ) : Prop := ∀ x : ℕ → α, 0 ≤ quadOn A s e x

/-- Symmetric on indices below `n`. -/
def SymOn (A : ℕ → ℕ → α) (n : ℕ) : Prop := ∀ i j, i < n → j < n → A i j = A j i

/-- `B - Σ_q z_q F_q` -/
def pencil {k : ℕ} (F : Fin k → ℕ → ℕ → α) (B : ℕ → ℕ → α) (z : Fin k → α) (i j : ℕ) : α :=
  B i j - ∑ q, z q * F q i j

/-- `Σ_q z_q F_q` -/
def combo {k : ℕ} (F : Fin k → ℕ → ℕ → α) (z : Fin k → α) (i j : ℕ) : α := ∑ q, z q * F q i j

/-- `t·I - M' M` for an `nr × _` array `M` -/
def tiMinusGram (nr : ℕ) (t : α) (M : ℕ → ℕ → α) (i j : ℕ) : α :=
  (if i = j then t else 0) - ∑ l ∈ range nr, M l i * M l j

/-- `B ⪰ lam·I` on indices below `m` -/
def AtLeast (lam : α) (A : ℕ → ℕ → α) (m : ℕ) : Prop :=
  ∀ y : ℕ → α, lam * (∑ i ∈ range m, y i ^ 2) ≤ quadOn A 0 m y

end Verif
