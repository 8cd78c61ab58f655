import Verif.Proofs.EllUpdate
import Mathlib.Analysis.Matrix.Order
import Mathlib.MeasureTheory.Measure.Lebesgue.EqHaar
import Mathlib.LinearAlgebra.Matrix.SchurComplement

/-! # Lebesgue volume of an ellipsoid -/
namespace Verif
open Matrix MeasureTheory
variable {n : ℕ}

/-- The closed Euclidean ball of radius `r` in `ℝⁿ` (as a set of coordinate vectors). -/
def euclBall (c : Fin n → ℝ) (r : ℝ) : Set (Fin n → ℝ) := {x | ∑ i, (x i - c i) ^ 2 ≤ r ^ 2}

open scoped MatrixOrder in
theorem exists_sym_sqrt {Q : Matrix (Fin n) (Fin n) ℝ} (h : Q.PosSemidef) :
    ∃ B : Matrix (Fin n) (Fin n) ℝ, Bᵀ = B ∧ B * B = Q := by
  refine ⟨CFC.sqrt Q, ?_, CFC.sqrt_mul_sqrt_self Q (Matrix.nonneg_iff_posSemidef.2 h)⟩
  have : (CFC.sqrt Q).PosSemidef := Matrix.nonneg_iff_posSemidef.1 (CFC.sqrt_nonneg Q)
  exact (psd_iff.1 this).1

namespace Ell

theorem det_shape {Q : Matrix (Fin n) (Fin n) ℝ} {g : Fin n → ℝ}
    (hω : g ⬝ᵥ Q *ᵥ g ≠ 0) (σ : ℝ) : (shape Q g σ).det = (1 - σ) * Q.det := by
  have h1 : shape Q g σ = Q * (1 + vecMulVec g ((-(σ / (g ⬝ᵥ Q *ᵥ g))) • Q *ᵥ g)) := by
    unfold shape
    rw [Matrix.mul_add, Matrix.mul_one, Matrix.mul_vecMulVec, Matrix.vecMulVec_smul, sub_eq_add_neg]
    simp [neg_smul]
  rw [h1, det_mul, vecMulVec_eq Unit, det_one_add_replicateCol_mul_replicateRow, smul_dotProduct,
    dotProduct_comm _ g, smul_eq_mul]
  field_simp; ring

/-- `det (κ Q)`, the square of the volume relative to the unit ball. -/
noncomputable def vsq (E : Ell n) : ℝ := E.kappa ^ n * E.Q.det

theorem vsq_pos {E : Ell n} (hE : E.Proper) : 0 < E.vsq :=
  mul_pos (pow_pos hE.kappa _) hE.pd.det_pos

theorem vsq_nonneg {E : Ell n} (hE : E.WF) : 0 ≤ E.vsq :=
  mul_nonneg (pow_nonneg hE.kappa _) hE.psd.det_nonneg

theorem vsq_after {E : Ell n} {g : Fin n → ℝ} (hω : g ⬝ᵥ E.Q *ᵥ g ≠ 0) (ρ σ δ : ℝ) :
    (after E g ρ σ δ).vsq = δ ^ n * (1 - σ) * E.vsq := by
  unfold after vsq
  by_cases hd : E.noDefer
  · simp only [hd, if_true, det_smul, Fintype.card_fin, det_shape hω]; ring
  · simp only [hd, det_shape hω, mul_pow, Bool.false_eq_true, if_false]; ring

/-- Image of a ball under a symmetric factor of `κ Q`. -/
theorem pts_eq_image {E : Ell n} (hE : E.Proper) {B : Matrix (Fin n) (Fin n) ℝ}
    (hB : Bᵀ = B) (hBB : B * B = E.Q) :
    E.pts = (fun z => E.xc + z) '' ((Matrix.toLin' (√E.kappa • B)) '' euclBall 0 1) := by
  have hκ := hE.kappa
  have hsκ : 0 < √E.kappa := Real.sqrt_pos.2 hκ
  have hquad : ∀ y, y ⬝ᵥ E.Q *ᵥ y = (B *ᵥ y) ⬝ᵥ (B *ᵥ y) := fun y => by
    rw [← hBB, ← mulVec_mulVec, dotProduct_mulVec, ← mulVec_transpose, hB]
  have hdet : IsUnit B.det := by
    have : B.det * B.det = E.Q.det := by rw [← det_mul, hBB]
    have h2 := hE.pd.det_pos
    refine isUnit_iff_ne_zero.2 fun h0 => ?_
    rw [h0, mul_zero] at this; linarith
  have hinv : ∀ z, B *ᵥ (B⁻¹ *ᵥ z) = z := fun z => by
    rw [mulVec_mulVec, Matrix.mul_nonsing_inv _ hdet, one_mulVec]
  have hsym : ∀ x y : Fin n → ℝ, x ⬝ᵥ B *ᵥ y = (B *ᵥ x) ⬝ᵥ y := fun x y => by
    rw [dotProduct_mulVec, ← mulVec_transpose, hB]
  ext x
  simp only [Set.mem_image, exists_exists_and_eq_and]
  constructor
  · intro hx
    refine ⟨(√E.kappa)⁻¹ • B⁻¹ *ᵥ (x - E.xc), ?_, ?_⟩
    · set z := x - E.xc
      set w := B⁻¹ *ᵥ z with hw
      have h1 := hx (B⁻¹ *ᵥ w)
      rw [hquad, hinv] at h1
      have h2 : (B⁻¹ *ᵥ w) ⬝ᵥ z = w ⬝ᵥ w := by
        conv_lhs => rw [← hinv z, hsym, hinv]
      change ((B⁻¹ *ᵥ w) ⬝ᵥ z) ^ 2 ≤ _ at h1
      rw [h2] at h1
      have h3 : w ⬝ᵥ w ≤ E.kappa := by
        by_contra hc; nlinarith
      change ∑ i, (((√E.kappa)⁻¹ • w) i - (0 : Fin n → ℝ) i) ^ 2 ≤ 1 ^ 2
      have : ∑ i, (((√E.kappa)⁻¹ • w) i - (0 : Fin n → ℝ) i) ^ 2 = (E.kappa)⁻¹ * (w ⬝ᵥ w) := by
        simp only [dotProduct, Finset.mul_sum, Pi.smul_apply, smul_eq_mul, Pi.zero_apply, sub_zero]
        refine Finset.sum_congr rfl fun i _ => ?_
        rw [mul_pow, inv_pow, Real.sq_sqrt hκ.le]; ring
      rw [this, one_pow, inv_mul_le_iff₀ hκ]; linarith
    · rw [toLin'_apply, mulVec_smul, smul_mulVec, smul_smul, inv_mul_cancel₀ hsκ.ne', one_smul, hinv]
      abel
  · rintro ⟨u, hu, rfl⟩ y
    have hu' : u ⬝ᵥ u ≤ 1 := by
      have : ∑ i, (u i - (0 : Fin n → ℝ) i) ^ 2 ≤ 1 ^ 2 := hu
      simpa [dotProduct, sq] using this
    rw [add_sub_cancel_left, toLin'_apply, smul_mulVec, dotProduct_smul, smul_eq_mul, mul_pow,
      Real.sq_sqrt hκ.le, hsym, hquad]
    have h1 := psd_cauchy (Matrix.PosSemidef.one (n := Fin n) (R := ℝ)) (B *ᵥ y) u
    simp only [one_mulVec] at h1
    have h2 : 0 ≤ (B *ᵥ y) ⬝ᵥ (B *ᵥ y) := by
      simpa using dotProduct_star_self_nonneg (B *ᵥ y)
    apply mul_le_mul_of_nonneg_left _ hκ.le
    nlinarith

theorem volume_pts {E : Ell n} (hE : E.Proper) :
    volume E.pts = ENNReal.ofReal (√E.vsq) * volume (euclBall (0 : Fin n → ℝ) 1) := by
  obtain ⟨B, hB, hBB⟩ := exists_sym_sqrt hE.pd.posSemidef
  rw [pts_eq_image hE hB hBB, Set.image_add_left, measure_preimage_add, Measure.addHaar_image_linearMap,
    LinearMap.det_toLin', det_smul, Fintype.card_fin]
  congr 2
  have hdet : E.Q.det = B.det ^ 2 := by rw [← hBB, det_mul, sq]
  rw [vsq, hdet, abs_mul, Real.sqrt_mul (pow_nonneg hE.kappa.le _), Real.sqrt_sq_eq_abs]
  congr 1
  rw [abs_of_nonneg (pow_nonneg (Real.sqrt_nonneg _) _), eq_comm,
    Real.sqrt_eq_iff_mul_self_eq (pow_nonneg hE.kappa.le _) (pow_nonneg (Real.sqrt_nonneg _) _),
    ← mul_pow, Real.mul_self_sqrt hE.kappa.le]

end Ell
end Verif
