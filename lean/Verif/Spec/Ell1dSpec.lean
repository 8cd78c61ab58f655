import Verif.Model.Ell1d
import Mathlib.Data.Set.Basic

/-! # Point sets for one-dimensional search spaces -/
namespace Verif
variable {α : Type _} [Field α] [LinearOrder α]

/-- The interval an `ell1d` denotes. -/
def Ell1d.pts (E : Ell1d α) : Set α := {x | E.xc - E.r ≤ x ∧ x ≤ E.xc + E.r}

/-- The half-line of a cut `(g, beta)` issued at `c`: `g * (x - c) + beta ≤ 0`. -/
def halfLine (c : α) (cut : α × α) : Set α := {x | cut.1 * (x - c) + cut.2 ≤ 0}

end Verif
