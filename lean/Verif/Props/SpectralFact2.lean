import Verif.Proofs.FejerRiesz

/-!
# C86: `spectral_fact` on every positive spectrum

The designer's use of `spectral_fact`: `r` is the result of a filter design with `R(w) > 0` for every frequency `w`, and nobody knows
an impulse response beforehand.
-/
namespace Verif
open Finset Complex

/-- Bound of C78 on the error of each tap. -/
noncomputable def sfErr (n : ℕ) (s ρ : ℝ) : ℝ := s * (((n - 1 : ℕ) : ℝ) * (2 / (50 * n : ℕ) * (ρ ^ (50 * n) * (1 - ρ)⁻¹)))

theorem norm_transfer_sub {n : ℕ} {h h0 : Fin n → ℝ} {B : ℝ} (hB : ∀ j, |h j - h0 j| ≤ B) (w : ℝ) :
    ‖transfer h (exp (w * I)) - transfer h0 (exp (w * I))‖ ≤ n * B := by
  rw [transfer, transfer, ← sum_sub_distrib]
  refine (norm_sum_le _ _).trans ?_
  calc ∑ j : Fin n, ‖(h j : ℂ) * exp (w * I) ^ (j : ℕ) - (h0 j : ℂ) * exp (w * I) ^ (j : ℕ)‖ ≤ ∑ _j : Fin n, B := by
        refine sum_le_sum fun j _ => ?_
        rw [← sub_mul, norm_mul, norm_pow, Complex.norm_exp_ofReal_mul_I, one_pow, mul_one, ← Complex.ofReal_sub,
          Complex.norm_real]
        exact hB j
    _ = n * B := by simp

theorem norm_transfer_le {n : ℕ} (h : Fin n → ℝ) (w : ℝ) : ‖transfer h (exp (w * I))‖ ≤ ∑ j, |h j| := by
  refine (norm_sum_le _ _).trans (sum_le_sum fun j _ => ?_)
  rw [norm_mul, norm_pow, Complex.norm_exp_ofReal_mul_I, one_pow, mul_one, Complex.norm_real, Real.norm_eq_abs]

/-- **C86**.  For every `r` of length `n ≥ 1` whose power spectrum `R(w) = r[0] + 2 Σ r[t] cos(tw)` is positive at every frequency:
there is an impulse response `h0` with `|H0(e^{jw})|² = R(w)` for all `w`, `h0[0] > 0` and all zeros in `|z| ≤ ρ < 1` (minimum phase), and
`h = spectral_fact(r)` differs from `h0` in each tap by at most `E = sfErr n (Σ|h0|) ρ`; hence `| |H(e^{jw})|² - R(w) | ≤ nE (2 Σ|h0| + nE)`
at every frequency, not only on the grid. -/
theorem C86_spectral_fact_positive {n : ℕ} (hn : 0 < n) {r : Fin n → ℝ} (hR : ∀ w, 0 < powerSpectrum r w) :
    ∃ (h h0 : Fin n → ℝ) (ρ : ℝ), spectralFact r = .ok h ∧ 0 ≤ ρ ∧ ρ < 1 ∧ 0 < h0 ⟨0, hn⟩ ∧
      (∀ z : ℂ, ∑ j : Fin n, (h0 j : ℂ) * z ^ (j : ℕ) = 0 → 1 ≤ ρ * ‖z‖) ∧
      (∀ w, (∑ k : Fin n, h0 k * Real.cos (k * w)) ^ 2 + (∑ k : Fin n, h0 k * Real.sin (k * w)) ^ 2 = powerSpectrum r w) ∧
      (∀ j, |h j - h0 j| ≤ sfErr n (∑ j, |h0 j|) ρ) ∧
      ∀ w, |(∑ k : Fin n, h k * Real.cos (k * w)) ^ 2 + (∑ k : Fin n, h k * Real.sin (k * w)) ^ 2 - powerSpectrum r w| ≤
        n * sfErr n (∑ j, |h0 j|) ρ * (2 * (∑ j, |h0 j|) + n * sfErr n (∑ j, |h0 j|) ρ) := by
  obtain ⟨h0, ρ, h1, h2, h3, h4, h5⟩ := fejer_riesz hn hR
  obtain ⟨h, h6, h7⟩ := C78_spectral_fact_min_phase hn h1 h2 h3 h4
  rw [h5] at h6
  have hmag : ∀ w, (∑ k : Fin n, h0 k * Real.cos (k * w)) ^ 2 + (∑ k : Fin n, h0 k * Real.sin (k * w)) ^ 2 = powerSpectrum r w :=
    fun w => by rw [← h5, C52_power_spectrum]
  refine ⟨h, h0, ρ, h6, h2, h3, h1, h4, hmag, h7, fun w => ?_⟩
  rw [← hmag, ← norm_transfer_sq, ← norm_transfer_sq]
  set a := ‖transfer h (exp (w * I))‖ with ha
  set b := ‖transfer h0 (exp (w * I))‖ with hb
  have k1 : |a - b| ≤ n * sfErr n (∑ j, |h0 j|) ρ := (abs_norm_sub_norm_le _ _).trans (norm_transfer_sub h7 w)
  have k2 : b ≤ ∑ j, |h0 j| := norm_transfer_le h0 w
  have k3 : 0 ≤ b := norm_nonneg _
  have k4 : 0 ≤ a := norm_nonneg _
  have k5 := abs_le.1 k1
  rw [show a ^ 2 - b ^ 2 = (a - b) * (a + b) by ring, abs_mul, abs_of_nonneg (add_nonneg k4 k3)]
  exact mul_le_mul k1 (by linarith) (add_nonneg k4 k3) ((abs_nonneg _).trans k1)

/-- C86 applies: `r = (3, 1)`, `R(w) = 3 + 2 cos w ≥ 1`. -/
example : ∀ w, 0 < powerSpectrum (![3, 1] : Fin 2 → ℝ) w := fun w => by
  rw [powerSpectrum, Fin.sum_univ_two]
  simp only [Fin.val_zero, if_true, Fin.val_one, one_ne_zero, if_false, Matrix.cons_val_zero, Matrix.cons_val_one]
  have := Real.neg_one_le_cos (((1 : ℕ) : ℝ) * w)
  push_cast at this ⊢
  linarith

end Verif
