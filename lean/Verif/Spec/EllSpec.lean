import Verif.Model.Ell
import Mathlib.LinearAlgebra.Matrix.PosDef
import Mathlib.Analysis.Matrix.PosDef

/-! # Point sets for ellipsoids -/
namespace Verif
open Matrix
variable {n : ℕ}

/-- The ellipsoid denoted by an `ell`, by its supporting slabs: `x` belongs to it iff for every
direction `y`, `(y·(x - xc))² ≤ κ · y'Qy`.  This makes sense for a singular `Q` as well; for a positive
definite `Q` it is the set of the docstring, `Ell.region` (`Ell.pts_eq_region`). -/
def Ell.pts (E : Ell n) : Set (Fin n → ℝ) :=
  {x | ∀ y, (y ⬝ᵥ (x - E.xc)) ^ 2 ≤ E.kappa * (y ⬝ᵥ E.Q *ᵥ y)}

/-- The docstring of class `ell`: `{x | (x − xc)' Q^−1 (x − xc) ≤ κ}`. -/
noncomputable def Ell.region (E : Ell n) : Set (Fin n → ℝ) :=
  {x | (x - E.xc) ⬝ᵥ E.Q⁻¹ *ᵥ (x - E.xc) ≤ E.kappa}

/-- Points satisfying a cut `(g, beta)` issued at `c`: `g·(x-c) + beta ≤ 0` for a single right-hand
side; `g·(x-c) + b0 ≤ 0 ≤ g·(x-c) + b1` for a parallel cut. -/
def cutSet (c : Fin n → ℝ) (cut : (Fin n → ℝ) × Beta) : Set (Fin n → ℝ) :=
  {x | match cut.2 with
    | .scalar b => cut.1 ⬝ᵥ (x - c) + b ≤ 0
    | .seq [] => True
    | .seq [b] => cut.1 ⬝ᵥ (x - c) + b ≤ 0
    | .seq (b0 :: b1 :: _) => cut.1 ⬝ᵥ (x - c) + b0 ≤ 0 ∧ 0 ≤ cut.1 ⬝ᵥ (x - c) + b1}

/-- Well-formedness kept by every successful update, even degenerate ones. -/
structure Ell.WF (E : Ell n) : Prop where
  dim : 2 ≤ n
  psd : E.Q.PosSemidef
  kappa : 0 ≤ E.kappa

/-- Proper (full-dimensional) ellipsoids. -/
structure Ell.Proper (E : Ell n) : Prop where
  dim : 2 ≤ n
  pd : E.Q.PosDef
  kappa : 0 < E.kappa

end Verif
