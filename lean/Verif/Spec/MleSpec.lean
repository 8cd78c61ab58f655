import Mathlib.Analysis.SpecialFunctions.Log.Basic
import Mathlib.LinearAlgebra.Matrix.NonsingularInverse
import Mathlib.LinearAlgebra.Matrix.PosDef
import Verif.Spec.PdSpec

/-! # The likelihood objective, in Mathlib terms -/
namespace Verif

open Matrix

/-- `Ω(z) = ∑ z_q Σ_q`. -/
noncomputable def omegaOf {k m : ℕ} (Sig : Fin k → Matrix (Fin m) (Fin m) ℝ) (z : Fin k → ℝ) :
    Matrix (Fin m) (Fin m) ℝ := ∑ q, z q • Sig q

/-- `log det Ω(z) + tr(Ω(z)⁻¹ Y)`. -/
noncomputable def mleObj {k m : ℕ} (Sig : Fin k → Matrix (Fin m) (Fin m) ℝ) (Y : Matrix (Fin m) (Fin m) ℝ)
    (z : Fin k → ℝ) : ℝ :=
  Real.log (omegaOf Sig z).det + ((omegaOf Sig z)⁻¹ * Y).trace

/-- `z` satisfies `0 ≺ Ω(z)`, and `δI ⪯ Ω(z) ⪯ 2Y - δI`. -/
def MleRoom {k m : ℕ} (Sig : Fin k → Matrix (Fin m) (Fin m) ℝ) (Y : Matrix (Fin m) (Fin m) ℝ) (z : Fin k → ℝ) (δ : ℝ) : Prop :=
  (omegaOf Sig z).PosDef ∧ (omegaOf Sig z - δ • 1).PosSemidef ∧ ((2 : ℝ) • Y - omegaOf Sig z - δ • 1).PosSemidef

end Verif
