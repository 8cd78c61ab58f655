import Mathlib.LinearAlgebra.Matrix.PosDef
import Mathlib.Analysis.Matrix.PosDef
import Mathlib.Algebra.Order.Star.Real
import Mathlib.Tactic

/-! # Real positive (semi)definite matrices as quadratic forms -/
namespace Verif
open Matrix
variable {ι : Type _} [Fintype ι]

theorem psd_iff {Q : Matrix ι ι ℝ} : Q.PosSemidef ↔ Qᵀ = Q ∧ ∀ x, 0 ≤ x ⬝ᵥ Q *ᵥ x := by
  rw [posSemidef_iff_dotProduct_mulVec]
  simp [IsHermitian, conjTranspose_eq_transpose_of_trivial]

theorem pd_iff {Q : Matrix ι ι ℝ} : Q.PosDef ↔ Qᵀ = Q ∧ ∀ x, x ≠ 0 → 0 < x ⬝ᵥ Q *ᵥ x := by
  rw [posDef_iff_dotProduct_mulVec]
  simp [IsHermitian, conjTranspose_eq_transpose_of_trivial]

theorem dot_sym {Q : Matrix ι ι ℝ} (h : Qᵀ = Q) (x y : ι → ℝ) :
    x ⬝ᵥ Q *ᵥ y = y ⬝ᵥ Q *ᵥ x := by
  rw [dotProduct_mulVec, ← mulVec_transpose, h, dotProduct_comm]

/-- Quadratic form of a combination. -/
theorem quad_comb {Q : Matrix ι ι ℝ} (h : Qᵀ = Q) (x y : ι → ℝ) (s t : ℝ) :
    (s • x + t • y) ⬝ᵥ Q *ᵥ (s • x + t • y) =
      s ^ 2 * (x ⬝ᵥ Q *ᵥ x) + 2 * s * t * (x ⬝ᵥ Q *ᵥ y) + t ^ 2 * (y ⬝ᵥ Q *ᵥ y) := by
  simp only [mulVec_add, mulVec_smul, add_dotProduct, dotProduct_add, smul_dotProduct,
    dotProduct_smul, smul_eq_mul]
  rw [dot_sym h y x]; ring

/-- Cauchy-Schwarz for a positive semidefinite form. -/
theorem psd_cauchy {Q : Matrix ι ι ℝ} (h : Q.PosSemidef) (x y : ι → ℝ) :
    (x ⬝ᵥ Q *ᵥ y) ^ 2 ≤ (x ⬝ᵥ Q *ᵥ x) * (y ⬝ᵥ Q *ᵥ y) := by
  obtain ⟨hs, hp⟩ := psd_iff.1 h
  have h1 := hp ((y ⬝ᵥ Q *ᵥ y) • x + (-(x ⬝ᵥ Q *ᵥ y)) • y)
  rw [quad_comb hs] at h1
  set a := x ⬝ᵥ Q *ᵥ x
  set b := x ⬝ᵥ Q *ᵥ y
  set c := y ⬝ᵥ Q *ᵥ y with hc
  have hc0 : 0 ≤ c := hp y
  rcases eq_or_lt_of_le hc0 with h0 | h0
  · -- degenerate direction
    have hb : b = 0 := by
      by_contra hb
      have h3 := hp ((1 : ℝ) • x + (-(a + 1) / (2 * b)) • y)
      rw [quad_comb hs] at h3
      change 0 ≤ 1 ^ 2 * a + 2 * 1 * (-(a + 1) / (2 * b)) * b + (-(a + 1) / (2 * b)) ^ 2 * c at h3
      rw [← h0] at h3
      have : 2 * 1 * (-(a + 1) / (2 * b)) * b = -(a + 1) := by field_simp
      rw [this] at h3
      linarith
    rw [hb, ← h0]; simp
  · have h4 : 0 ≤ c * (a * c - b ^ 2) := by
      have : c * (a * c - b ^ 2) = c ^ 2 * a + 2 * c * -b * b + (-b) ^ 2 * c := by ring
      rw [this]; exact h1
    have := nonneg_of_mul_nonneg_right h4 h0
    linarith

/-- A null direction of a positive semidefinite form is in the kernel. -/
theorem psd_null {Q : Matrix ι ι ℝ} (h : Q.PosSemidef) {x : ι → ℝ} (hx : x ⬝ᵥ Q *ᵥ x = 0) :
    Q *ᵥ x = 0 := by
  have h1 := psd_cauchy h (Q *ᵥ x) x
  rw [hx, mul_zero] at h1
  have : (Q *ᵥ x) ⬝ᵥ (Q *ᵥ x) = 0 := by nlinarith [sq_nonneg ((Q *ᵥ x) ⬝ᵥ (Q *ᵥ x))]
  exact dotProduct_self_eq_zero.1 this

end Verif
