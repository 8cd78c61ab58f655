import Mathlib.Analysis.Matrix.PosDef
import Mathlib.Analysis.SpecialFunctions.Log.Basic
import Mathlib.Analysis.SpecialFunctions.Trigonometric.DerivHyp
import Mathlib.LinearAlgebra.Matrix.NonsingularInverse

/-!
# The subgradient inequality behind `mle_oracle`

`f(Ω) = log det Ω + tr(Ω⁻¹Y)` lies above its tangent at `A` at every `B` when `0 ≺ A, B ⪯ 2Y`.
-/
namespace Verif

open Matrix

theorem mle_scalar {b y : ℝ} (hb : 0 < b) (h1 : 1 / 2 ≤ y) (h2 : b / 2 ≤ y) :
    0 ≤ Real.log b - (b - 1) + y * ((b - 1) ^ 2 / b) := by
  have hsq : 0 ≤ (b - 1) ^ 2 / b := div_nonneg (sq_nonneg _) hb.le
  rcases le_total 1 b with h | h
  · have hl := Real.le_log_one_add_of_nonneg (x := b - 1) (by linarith)
    rw [add_sub_cancel] at hl
    have h3 : b / 2 * ((b - 1) ^ 2 / b) = (b - 1) ^ 2 / 2 := by field_simp
    have h4 := mul_le_mul_of_nonneg_right h2 hsq
    rw [h3] at h4
    have h5 : (b - 1) - (b - 1) ^ 2 / 2 ≤ 2 * (b - 1) / (b - 1 + 2) := by
      rw [le_div_iff₀ (by linarith)]
      nlinarith [pow_nonneg (show 0 ≤ b - 1 by linarith) 3]
    linarith
  · have h3 : 0 ≤ -Real.log b := by linarith [Real.log_nonpos hb.le h]
    have h4 := Real.self_le_sinh_iff.2 h3
    rw [Real.sinh_eq, neg_neg, Real.exp_log hb, Real.exp_neg, Real.exp_log hb] at h4
    have h5 := mul_le_mul_of_nonneg_right h1 hsq
    have h6 : 1 / 2 * ((b - 1) ^ 2 / b) = (b⁻¹ - b) / 2 + (b - 1) := by field_simp; ring
    rw [h6] at h5
    linarith

variable {m : ℕ}

/-- Simultaneous diagonalisation by congruence. -/
theorem simul_diag {A B R : Matrix (Fin m) (Fin m) ℝ} (hR : IsUnit R.det) (hA : A = Rᵀ * R) (hB : B.PosDef) :
    ∃ (M : Matrix (Fin m) (Fin m) ℝ) (b : Fin m → ℝ), IsUnit M.det ∧ (∀ i, 0 < b i) ∧ A = M * Mᵀ ∧
      B = M * diagonal b * Mᵀ := by
  have hRi : R⁻¹ * R = 1 := nonsing_inv_mul R hR
  have hRi' : R * R⁻¹ = 1 := mul_nonsing_inv R hR
  set K := (R⁻¹)ᵀ * B * R⁻¹ with hK
  have hKp : K.PosDef := by
    have := hB.conjTranspose_mul_mul_same (B := R⁻¹) ?_
    · simpa [conjTranspose_eq_transpose_of_trivial] using this
    · intro x y h
      have := congrArg (R *ᵥ ·) h
      simpa [mulVec_mulVec, hRi'] using this
  have hs := hKp.1.spectral_theorem
  set U : Matrix (Fin m) (Fin m) ℝ := (hKp.1.eigenvectorUnitary).1 with hU
  have hUU : U * Uᵀ = 1 := by
    have := Unitary.coe_mul_star_self hKp.1.eigenvectorUnitary
    simpa [star_eq_conjTranspose, conjTranspose_eq_transpose_of_trivial] using this
  have hK2 : K = U * diagonal hKp.1.eigenvalues * Uᵀ := by
    rw [Unitary.conjStarAlgAut_apply] at hs
    simpa [star_eq_conjTranspose, conjTranspose_eq_transpose_of_trivial, Function.comp_def] using hs
  refine ⟨Rᵀ * U, hKp.1.eigenvalues, ?_, fun i => hKp.eigenvalues_pos i, ?_, ?_⟩
  · rw [det_mul, det_transpose]
    refine hR.mul ?_
    have := congrArg det hUU
    rw [det_mul, det_one] at this
    exact IsUnit.of_mul_eq_one _ this
  · rw [transpose_mul, transpose_transpose]
    calc A = Rᵀ * (U * Uᵀ) * R := by rw [hUU, mul_one, hA]
      _ = _ := by simp only [Matrix.mul_assoc]
  · rw [transpose_mul, transpose_transpose]
    calc B = (R⁻¹ * R)ᵀ * B * (R⁻¹ * R) := by rw [hRi]; simp
      _ = Rᵀ * K * R := by rw [hK, transpose_mul]; simp only [Matrix.mul_assoc]
      _ = Rᵀ * (U * diagonal hKp.1.eigenvalues * Uᵀ) * R := congrArg (fun X => Rᵀ * X * R) hK2
      _ = _ := by simp only [Matrix.mul_assoc]

/-- Tangent inequality for the likelihood objective on `{0 ≺ Ω ⪯ 2Y}`. -/
theorem mle_subgrad {A B R Y : Matrix (Fin m) (Fin m) ℝ} (hR : IsUnit R.det) (hA : A = Rᵀ * R) (hB : B.PosDef)
    (hYA : ((2 : ℝ) • Y - A).PosSemidef) (hYB : ((2 : ℝ) • Y - B).PosSemidef) :
    (A⁻¹ * (B - A)).trace - (A⁻¹ * (B - A) * (A⁻¹ * Y)).trace ≤
      (Real.log B.det + (B⁻¹ * Y).trace) - (Real.log A.det + (A⁻¹ * Y).trace) := by
  obtain ⟨M, b, hM, hb, hAM, hBM⟩ := simul_diag hR hA hB
  set N := M⁻¹ with hN
  have hNM : N * M = 1 := nonsing_inv_mul M hM
  have hMN : M * N = 1 := mul_nonsing_inv M hM
  have hMNt : Mᵀ * Nᵀ = 1 := by rw [← transpose_mul, hNM, transpose_one]
  have hNMt : Nᵀ * Mᵀ = 1 := by rw [← transpose_mul, hMN, transpose_one]
  have hAi : A⁻¹ = Nᵀ * N := by
    refine inv_eq_left_inv ?_
    rw [hAM, Matrix.mul_assoc, ← Matrix.mul_assoc N, hNM, Matrix.one_mul, hNMt]
  have hdd : diagonal (fun i => (b i)⁻¹) * diagonal b = 1 := by
    rw [diagonal_mul_diagonal, ← diagonal_one]
    congr 1; funext i; exact inv_mul_cancel₀ (hb i).ne'
  have hBi : B⁻¹ = Nᵀ * diagonal (fun i => (b i)⁻¹) * N := by
    refine inv_eq_left_inv ?_
    calc _ = Nᵀ * (diagonal (fun i => (b i)⁻¹) * ((N * M) * diagonal b)) * Mᵀ := by
          rw [hBM]; simp only [Matrix.mul_assoc]
      _ = 1 := by rw [hNM, Matrix.one_mul, hdd, Matrix.mul_one, hNMt]
  set y := N * Y * Nᵀ with hy
  -- the traces
  have t1 : (A⁻¹ * (B - A)).trace = ∑ i, (b i - 1) := by
    have : (A⁻¹ * (B - A)).trace = (diagonal b - 1).trace := by
      have e : A⁻¹ * (B - A) = Nᵀ * ((diagonal b - 1) * Mᵀ) := by
        rw [hAi, hAM, hBM]
        calc _ = Nᵀ * ((N * M) * diagonal b * Mᵀ - (N * M) * Mᵀ) := by
              simp only [Matrix.mul_assoc, Matrix.mul_sub]
          _ = _ := by rw [hNM]; simp only [Matrix.one_mul, Matrix.sub_mul]
      rw [e, trace_mul_comm, Matrix.mul_assoc, hMNt, Matrix.mul_one]
    rw [this, trace_sub, trace_diagonal, trace_one, Finset.sum_sub_distrib]; simp
  have t2 : (A⁻¹ * Y).trace = ∑ i, y i i := by
    rw [hAi, Matrix.mul_assoc, trace_mul_comm, hy]; rfl
  have t3 : (B⁻¹ * Y).trace = ∑ i, (b i)⁻¹ * y i i := by
    have : (B⁻¹ * Y).trace = (diagonal (fun i => (b i)⁻¹) * y).trace := by
      rw [hBi, Matrix.mul_assoc, Matrix.mul_assoc, trace_mul_comm, hy]
      simp only [Matrix.mul_assoc]
    rw [this]; simp [trace, diag]
  have t4 : (A⁻¹ * (B - A) * (A⁻¹ * Y)).trace = ∑ i, (b i - 1) * y i i := by
    have : (A⁻¹ * (B - A) * (A⁻¹ * Y)).trace = ((diagonal b - 1) * y).trace := by
      have e : A⁻¹ * (B - A) * (A⁻¹ * Y) = Nᵀ * ((diagonal b - 1) * (N * Y)) := by
        rw [hAi, hAM, hBM]
        calc _ = Nᵀ * (((N * M) * diagonal b * (Mᵀ * Nᵀ) - (N * M) * (Mᵀ * Nᵀ)) * (N * Y)) := by
              simp only [Matrix.mul_assoc, Matrix.mul_sub, Matrix.sub_mul]
          _ = _ := by rw [hNM, hMNt]; simp only [Matrix.one_mul, Matrix.mul_one]
      rw [e, trace_mul_comm, hy]; simp only [Matrix.mul_assoc]
    rw [this]; simp [trace, diag, sub_mul]
  have hMd : M.det ≠ 0 := hM.ne_zero
  have t5 : Real.log B.det = Real.log A.det + ∑ i, Real.log (b i) := by
    have : B.det = A.det * ∏ i, b i := by
      rw [hAM, hBM]; simp only [det_mul, det_transpose, det_diagonal]; ring
    rw [this, Real.log_mul, Real.log_prod]
    · exact fun i _ => (hb i).ne'
    · rw [hAM, det_mul, det_transpose]; exact mul_ne_zero hMd hMd
    · exact Finset.prod_ne_zero_iff.2 fun i _ => (hb i).ne'
  -- the diagonal of `y`
  have y1 : ∀ i, 1 / 2 ≤ y i i := by
    intro i
    have h := (hYA.mul_mul_conjTranspose_same N).diag_nonneg (i := i)
    have e : N * ((2 : ℝ) • Y - A) * Nᴴ = (2 : ℝ) • y - 1 := by
      rw [conjTranspose_eq_transpose_of_trivial, hAM, hy]
      calc _ = (2 : ℝ) • (N * Y * Nᵀ) - (N * M) * (Mᵀ * Nᵀ) := by
            simp only [Matrix.mul_sub, Matrix.sub_mul, Matrix.mul_assoc, Matrix.mul_smul, Matrix.smul_mul]
        _ = _ := by rw [hNM, hMNt, Matrix.one_mul]
    rw [e] at h
    simp at h
    linarith
  have y2 : ∀ i, b i / 2 ≤ y i i := by
    intro i
    have h := (hYB.mul_mul_conjTranspose_same N).diag_nonneg (i := i)
    have e : N * ((2 : ℝ) • Y - B) * Nᴴ = (2 : ℝ) • y - diagonal b := by
      rw [conjTranspose_eq_transpose_of_trivial, hBM, hy]
      calc _ = (2 : ℝ) • (N * Y * Nᵀ) - (N * M) * diagonal b * (Mᵀ * Nᵀ) := by
            simp only [Matrix.mul_sub, Matrix.sub_mul, Matrix.mul_assoc, Matrix.mul_smul, Matrix.smul_mul]
        _ = _ := by rw [hNM, hMNt, Matrix.one_mul, Matrix.mul_one]
    rw [e] at h
    simp at h
    linarith
  rw [t1, t2, t3, t4, t5]
  have key : 0 ≤ ∑ i, (Real.log (b i) - (b i - 1) + y i i * ((b i - 1) ^ 2 / b i)) :=
    Finset.sum_nonneg fun i _ => mle_scalar (hb i) (y1 i) (y2 i)
  have e : ∑ i, (Real.log (b i) - (b i - 1) + y i i * ((b i - 1) ^ 2 / b i)) =
      ∑ i, Real.log (b i) - ∑ i, (b i - 1) + (∑ i, (b i)⁻¹ * y i i - ∑ i, y i i + ∑ i, (b i - 1) * y i i) := by
    rw [← Finset.sum_sub_distrib, ← Finset.sum_sub_distrib, ← Finset.sum_add_distrib, ← Finset.sum_add_distrib]
    refine Finset.sum_congr rfl fun i _ => ?_
    have := (hb i).ne'
    field_simp
    ring
  rw [e] at key
  linarith

end Verif
