import Verif.Spec.EllFloatSpec
import Mathlib.Analysis.SpecialFunctions.Exp

/-! # What a run with rounded ellipsoids needs -/
namespace Verif
open Matrix
variable {n : ℕ}

/-- The numbers that describe the arithmetic: `l` bounds the inflation of a step, `q` the ratio of the volumes. -/
structure StepBounds (n : ℕ) (C ε η b l q : ℝ) : Prop where
  b0 : 0 < b
  b1 : b ≤ 1
  C1 : 1 ≤ C
  eta : 0 ≤ η
  eps : 1000 * (C ^ 4 * ε) ≤ b ^ 2
  infl : 1 + 350 * (C ^ 4 * ε / b ^ 2) + 2 * η * C / b ≤ l
  ratio : √((1 + 400 * (C ^ 4 * ε / b ^ 2)) ^ n) * Real.exp (-(1 / (2 * ((n : ℝ) + 1)))) ≤ q

/-- The same for cuts of any kind; `θ` bounds the depth of a cut and the width of a slab. -/
structure CutBounds (n : ℕ) (C ε η θ l q : ℝ) : Prop where
  t0 : 0 < θ
  t1 : θ ≤ 1
  C1 : 1 ≤ C
  eta : 0 ≤ η
  eps : 100000000 * (C ^ 4 * ε) ≤ θ ^ 4
  infl : 1 + 3000000 * (C ^ 4 * ε / θ ^ 4) + 6 * η * C / θ ≤ l
  ratio : √((1 + 3000000 * (C ^ 4 * ε / θ ^ 4)) ^ n) * Real.exp (-(1 / (2 * ((n : ℝ) + 1)))) ≤ q

/-- The part of an ellipsoid that a cut deeper than `(1 - θ)τ` or a slab thinner than `θτ` can leave. -/
noncomputable def thinF (n : ℕ) (θ : ℝ) : ℝ := √((8 / 3 * θ) ^ n * θ) + √(3 * n / 4) * θ

/-- An ellipsoid on which the arithmetic is accurate: it is not ill-conditioned, and the coordinates of its centre are known to `η` times its
half-width. -/
def Resolved (C η u : ℝ) (E : Ell n) : Prop := CondBound C E.Q ∧ ∀ i, u * |E.xc i| ≤ η * √(E.kappa * E.Q i i)

end Verif
