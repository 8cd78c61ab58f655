import Mathlib.Algebra.Order.Ring.Rat
import Mathlib.Data.Rat.Floor
import Verif.Model.CuttingPlane

/-!
# `bsearch` in floating point

`bsearch` (`cutting_plane.py:156-190`) again, with the arithmetic of lines 179 and 183 left open: `half upper lower` computes
`tau` and `mid lower tau` the next point.  Below, `fl` is the rounding after every floating-point operation.
-/
namespace Verif
variable {W : Type _}

/-- Loop body of `bsearch`, `cutting_plane.py:179-187`. -/
def bsearchBodyF (half mid : ℚ → ℚ → ℚ) (Ω : ℚ → W → Except PyErr (W × Bool)) (tol : ℚ) (_niter : Nat) (s : BsSt W ℚ) :
    Except PyErr (Step (BsSt W ℚ)) :=
  let tau := half s.upper s.lower                                 -- 179
  if tau < tol then .ok (.brk { s with status := .smallenough })  -- 180-182
  else
    let t := mid s.lower tau                                      -- 183
    match Ω t s.w with                                            -- 184
    | .error e => .error e
    | .ok (w1, true) => .ok (.cont { s with w := w1, upper := t })    -- 185
    | .ok (w1, false) => .ok (.cont { s with w := w1, lower := t })   -- 187

/-- `bsearch`, `cutting_plane.py:156-190`. -/
def bsearchF (half mid : ℚ → ℚ → ℚ) (Ω : ℚ → W → Except PyErr (W × Bool)) (lower upper : ℚ) (o : Options ℚ) (w : W) :
    Except PyErr (W × ℚ × CInfo) :=
  match forRange o.maxIt (bsearchBodyF half mid Ω o.tol) ⟨w, lower, upper, .success⟩ with
  | .error e => .error e
  | .ok (s, last) =>
    match readVar last with
    | .error e => .error e
    | .ok niter => .ok (s.w, s.upper, ⟨decide (s.upper ≠ upper), niter, s.status⟩)   -- 189-190

/-- Line 179 on floats: the difference is rounded, then the quotient. -/
def tauF (fl : ℚ → ℚ) (upper lower : ℚ) : ℚ := fl (fl (upper - lower) / 2)

/-- Line 183 on floats: `T` is `float`, so only the sum is rounded. -/
def midF (fl : ℚ → ℚ) (lower tau : ℚ) : ℚ := fl (lower + tau)

/-- Python's `int(x)`: truncation towards zero. -/
def pyInt (x : ℚ) : ℚ := ((if 0 ≤ x then ⌊x⌋ else ⌈x⌉ : ℤ) : ℚ)

/-- Line 179 on integers: the difference is exact, the true division gives a correctly rounded float. -/
def tauI (fl : ℚ → ℚ) (upper lower : ℚ) : ℚ := fl ((upper - lower) / 2)

/-- Line 183 on integers: `lower` is converted to float, the sum is rounded, and `T` is `int`. -/
def midI (fl : ℚ → ℚ) (lower tau : ℚ) : ℚ := pyInt (fl (fl lower + tau))

end Verif
