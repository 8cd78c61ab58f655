import Mathlib.Analysis.SpecialFunctions.Pow.Real

/-! # The profit maximisation problem of Aliabadi and Salahi (`profit_oracle.py:11-27,77-94`) -/
namespace Verif

/-- `p (A x1^α x2^β) - v1 x1 - v2 x2`. -/
noncomputable def profit (p A : ℝ) (a v x : Fin 2 → ℝ) : ℝ :=
  p * (A * x 0 ^ a 0 * x 1 ^ a 1) - v 0 * x 0 - v 1 * x 1

/-- Input quantities from their logarithms. -/
noncomputable def qty (y : Fin 2 → ℝ) : Fin 2 → ℝ := fun i => Real.exp (y i)

/-- Half widths of the uncertainty of `α, β, p, k, v`. -/
structure Unc where
  e1 : ℝ
  e2 : ℝ
  e3 : ℝ
  e4 : ℝ
  e5 : ℝ

/-- The perturbed data `(a', p', v')` within the uncertainty. -/
def Unc.Within (e : Unc) (p : ℝ) (a v : Fin 2 → ℝ) (p' : ℝ) (a' v' : Fin 2 → ℝ) : Prop :=
  |a' 0 - a 0| ≤ e.e1 ∧ |a' 1 - a 1| ≤ e.e2 ∧ |p' - p| ≤ e.e3 ∧ ∀ i, |v' i - v i| ≤ e.e5

/-- `t` is a guaranteed profit at quantities `x`: attained for all data within the uncertainty. -/
def Guaranteed (e : Unc) (p A : ℝ) (a v x : Fin 2 → ℝ) (t : ℝ) : Prop :=
  ∀ p' a' v', e.Within p a v p' a' v' → t ≤ profit p' A a' v' x

end Verif
