import Mathlib.Analysis.InnerProductSpace.PiL2
import Mathlib.Analysis.SpecialFunctions.Log.Basic
import Mathlib.LinearAlgebra.Matrix.NonsingularInverse
import Mathlib.Algebra.Polynomial.Eval.Degree

/-! # What fitting a correlation function means -/
namespace Verif
open Polynomial

/-- The matrix `p(‖s_i - s_j‖)` of a polynomial correlation function on the sites `s`. -/
noncomputable def corrMat {n d : ℕ} (s : Fin n → Fin d → ℝ) (p : ℝ[X]) : Matrix (Fin n) (Fin n) ℝ :=
  Matrix.of fun i j => p.eval (dist (WithLp.toLp 2 (s i) : EuclideanSpace ℝ (Fin d)) (WithLp.toLp 2 (s j)))

/-- `log det Ω + tr(Ω⁻¹ Y)`. -/
noncomputable def negLogLik {n : ℕ} (Y Ω : Matrix (Fin n) (Fin n) ℝ) : ℝ := Real.log Ω.det + (Ω⁻¹ * Y).trace

/-- The squared spectral norm of `A` is below `u`. -/
def SpecBelow {n : ℕ} (A : Matrix (Fin n) (Fin n) ℝ) (u : ℝ) : Prop :=
  ∀ v : Fin n → ℝ, v ≠ 0 → ∑ i, (A.mulVec v) i ^ 2 < u * ∑ i, v i ^ 2

/-- The squared spectral norm of `A` is at most `u`. -/
def SpecAtMost {n : ℕ} (A : Matrix (Fin n) (Fin n) ℝ) (u : ℝ) : Prop :=
  ∀ v : Fin n → ℝ, ∑ i, (A.mulVec v) i ^ 2 ≤ u * ∑ i, v i ^ 2

end Verif
