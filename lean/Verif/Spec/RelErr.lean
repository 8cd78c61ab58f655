import Mathlib.Algebra.BigOperators.Intervals
import Mathlib.Order.Interval.Finset.Nat
import Mathlib.Algebra.Order.Field.Basic

/-!
# The standard error model of floating point

Overflow and underflow are left out.
-/
namespace Verif
open Finset
variable {α : Type _} [Field α] [LinearOrder α]

/-- Every operation is accurate to the relative error `u`. -/
def RelErr (u : α) (fl : α → α) : Prop := ∀ x, |fl x - x| ≤ u * |x|

/-- Dot products of length at most `n` are accurate to `γ` times the sum of the absolute products; no order of summation
is prescribed. -/
def DotErr (γ : α) (n : ℕ) (dot : ℕ → ℕ → (ℕ → α) → (ℕ → α) → α) : Prop :=
  ∀ s e x y, e ≤ n → |dot s e x y - ∑ m ∈ Ico s e, x m * y m| ≤ γ * ∑ m ∈ Ico s e, |x m * y m|

/-- A dot product depends on nothing but the two slices. -/
def DotLocal (dot : ℕ → ℕ → (ℕ → α) → (ℕ → α) → α) : Prop :=
  ∀ s e x x' y y', (∀ i, s ≤ i → i < e → x i = x' i ∧ y i = y' i) → dot s e x y = dot s e x' y'

end Verif
