import Mathlib.Algebra.BigOperators.Group.Finset.Basic
import Mathlib.Algebra.Order.Field.Basic

/-! # Monotone vectors -/
namespace Verif
variable {α : Type _} [Field α] [LinearOrder α]

/-- A list that never increases. -/
def NonIncr (x : List α) : Prop := ∀ i, (h : i + 1 < x.length) → x[i + 1] ≤ x[i]

/-- The inner product of two lists of the same length. -/
def ldot (g x : List α) : α := ∑ i ∈ Finset.range g.length, g.getD i 0 * x.getD i 0

end Verif
