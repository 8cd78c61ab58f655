import Verif.Spec.NetSpec
import Verif.Spec.NetFloatSpec
import Mathlib.Data.Real.Basic
import Mathlib.LinearAlgebra.Matrix.Notation
import Mathlib.Data.Matrix.Mul
import Mathlib.Order.WithBot

/-! # What the answers of `optscaling_oracle` mean when the operations are rounded -/
namespace Verif
open Matrix
variable {V : Type _} [LinearOrder V]

/-- The value `s` found at `x` is right up to `Δ`: `(x[0] + Δ, x[1] - Δ)` admits a scaling and `s` is `x[0] - x[1]` up to `Δ`. -/
structure ScalingFound (G : List (V × V)) (cost : V × V → ℝ) (Δ : ℝ) (x : Fin 2 → ℝ) (s : ℝ) : Prop where
  value : |s - (x 0 - x 1)| ≤ Δ
  scales : ScalingFeasible G cost (x 0 + Δ) (x 1 - Δ)

/-- An answer at `x` with the best-so-far value `t` that is right up to `Δ`.  A value is reported only if it is better.  The cut is shallow by at most `Δ`.  It keeps the `(π, ψ)` of the box of size `R` that
admit a scaling and beat the new best-so-far value, both with room `δ`, with room `δ - Δ`. -/
structure ScalingAnswer (G : List (V × V)) (cost : V × V → ℝ) (R Δ : ℝ) (x : Fin 2 → ℝ) (t : WithTop ℝ) (cut : (Fin 2 → ℝ) × ℝ) (t1 : Option (WithTop ℝ)) : Prop where
  found : ∀ v, t1 = some v → v < t ∧ ∃ s : ℝ, v = s ∧ ScalingFound G cost Δ x s
  near : -Δ ≤ cut.2
  keeps : ∀ (z : Fin 2 → ℝ) (δ : ℝ), (∀ i, |z i| ≤ R) → 0 ≤ δ → ScalingFeasible G cost (z 0 - δ) (z 1 + δ) → ((z 0 - z 1 + δ : ℝ) : WithTop ℝ) ≤ t1.getD t →
    cut.1 ⬝ᵥ (z - x) + cut.2 ≤ -δ + Δ

/-- The error: `u` is the unit roundoff, `γ` bounds the relative error of a sum of `n` terms, `D` the distances and `W` the weights. -/
noncomputable def scaleUnit (u γ : ℝ) (n : ℕ) (D W : ℝ) : ℝ := u * (n + 1) * (D + 8 * W) + 6 * γ * n * W

end Verif
