import Mathlib.Analysis.SpecialFunctions.Complex.LogBounds
import Verif.Proofs.Dft
import Verif.Props.Spectral

/-! # Symmetry of the sequences inside `spectral_fact` -/
namespace Verif
open Finset Complex
variable {N n : ℕ}

theorem sum_range_neg {A : Type _} [AddCommGroup A] (f : ℕ → A) (h : f N = f 0) :
    ∑ l ∈ range N, f (N - l) = ∑ l ∈ range N, f l := by
  have h1 : ∑ l ∈ range N, f (N - l) = ∑ l ∈ range N, f (l + 1) := by
    rw [← sum_range_reflect]
    refine sum_congr rfl fun l hl => ?_
    have := mem_range.1 hl
    congr 1; omega
  have h2 := sum_range_succ f N
  have h3 := sum_range_succ' f N
  rw [h1]
  rw [h3, h] at h2
  exact add_right_cancel h2

theorem cis_N (hN : 0 < N) (t : ℤ) : cis N (t * N) = 1 := by rw [mul_comm]; exact cis_mul_N hN t

/-- A Hermitian sequence has a real inverse transform. -/
theorem npIfft_hermitian (hN : 0 < N) {a : ℕ → ℂ} (h : ∀ l ≤ N, a (N - l) = (starRingEnd ℂ) (a l))
    (h0 : a N = a 0) (k : ℕ) : ((npIfft N a k).re : ℂ) = npIfft N a k := by
  rw [← Complex.conj_eq_iff_re]
  rw [npIfft, map_div₀, map_sum, Complex.conj_natCast]
  congr 1
  rw [← sum_range_neg (fun l => a l * cis N (l * k))]
  · refine sum_congr rfl fun l hl => ?_
    have hl := (mem_range.1 hl).le
    rw [map_mul, h l hl, ← cis_neg]
    congr 1
    refine cis_congr hN ⟨-k, ?_⟩
    rw [Nat.cast_sub hl]; ring
  · simp only [h0]
    rw [show ((0 : ℕ) : ℤ) * k = 0 by simp, cis_zero, cis_mul_N hN]

namespace SpecFact

/-- The Hilbert transform of an even sequence is odd. -/
theorem hilbert_odd {m M : ℕ} (hm : m = 2 * M) (hM : 0 < M) {al : ℕ → ℝ} (h : ∀ j ≤ m, al (m - j) = al j)
    {k : ℕ} (hk : k ≤ m) : hilbert m al (m - k) = -hilbert m al k := by
  have hm0 : 0 < m := by omega
  have hreal : ∀ q, (starRingEnd ℂ) (npFft m (fun j => (al j : ℂ)) q) = npFft m (fun j => (al j : ℂ)) q := by
    intro q
    rw [npFft, map_sum, ← sum_range_neg (fun j => (al j : ℂ) * cis m (-(j * q)))]
    · refine sum_congr rfl fun j hj => ?_
      have hj := (mem_range.1 hj).le
      rw [map_mul, Complex.conj_ofReal, h j hj, ← cis_neg]
      congr 1
      refine cis_congr hm0 ⟨q, ?_⟩
      rw [Nat.cast_sub hj]; ring
    · have := h 0 (by omega)
      simp only [Nat.sub_zero] at this
      rw [this, show (-(((0 : ℕ) : ℤ) * q) : ℤ) = 0 by simp, cis_zero,
        show (-((m : ℤ) * q)) = m * (-q) by ring, cis_mul_N hm0]
  have hexp : ∀ j < m, al j = ∑ q ∈ range m, (npFft m (fun j => (al j : ℂ)) q / m * cis m (-(j * q))).re := by
    intro j hj
    have h1 := npIfft_npFft hm0 (fun j => (al j : ℂ)) hj
    have h2 : (starRingEnd ℂ) (npIfft m (npFft m fun j => (al j : ℂ)) j) =
        ∑ q ∈ range m, npFft m (fun j => (al j : ℂ)) q / m * cis m (-(j * q)) := by
      rw [npIfft, map_div₀, map_sum, Complex.conj_natCast, sum_div]
      refine sum_congr rfl fun q _ => ?_
      rw [map_mul, hreal, ← cis_neg, show (-((q : ℤ) * j)) = -(j * q) by ring]; ring
    rw [h1, Complex.conj_ofReal] at h2
    have := congrArg Complex.re h2
    rwa [Complex.ofReal_re, Complex.re_sum] at this
  have key : ∀ k, hilbert m al k = ∑ q ∈ range m, sgn m (q % m) * (npFft m (fun j => (al j : ℂ)) q / m * cis m (-(q * k))).im := by
    intro k
    rw [hilbert_congr hexp, hilbert_sum]
    exact sum_congr rfl fun q _ => hilbert_char hm hM _ q k
  rw [key, key, ← sum_neg_distrib]
  refine sum_congr rfl fun q _ => ?_
  have e1 : cis m (-((q : ℤ) * ((m - k : ℕ) : ℤ))) = (starRingEnd ℂ) (cis m (-(q * k))) := by
    rw [← cis_neg, neg_neg]
    refine cis_congr hm0 ⟨-q, ?_⟩
    rw [Nat.cast_sub hk]; ring
  have e2 : npFft m (fun j => (al j : ℂ)) q / m * (starRingEnd ℂ) (cis m (-(q * k))) =
      (starRingEnd ℂ) (npFft m (fun j => (al j : ℂ)) q / m * cis m (-(q * k))) := by
    rw [map_mul, map_div₀, hreal, Complex.conj_natCast]
  rw [e1, e2, Complex.conj_im, mul_neg]

theorem hilbert_periodic {m : ℕ} (hm : 0 < m) (al : ℕ → ℝ) : hilbert m al m = hilbert m al 0 := by
  rw [hilbert, hilbert]
  congr 1
  rw [npIfft, npIfft]
  congr 1
  refine sum_congr rfl fun l _ => ?_
  rw [cis_N hm]; simp [cis_zero]

theorem alpha_even {m : ℕ} (hm : 0 < m) (r : Fin n → ℝ) {j : ℕ} (hj : j ≤ m) : alpha m r (m - j) = alpha m r j := by
  have hm' : (m : ℝ) ≠ 0 := by exact_mod_cast hm.ne'
  have : bigR m r (m - j) = bigR m r j := by
    refine sum_congr rfl fun t _ => ?_
    have : Real.cos (omega m (m - j) * t) = Real.cos (omega m j * t) := by
      rw [omega, omega, Nat.cast_sub hj,
        show 2 * Real.pi * ((m : ℝ) - j) / m * (t : ℕ) = (t : ℕ) * (2 * Real.pi) - 2 * Real.pi * j / m * (t : ℕ) by
          field_simp]
      exact Real.cos_nat_mul_two_pi_sub _ _
    rw [this]
  rw [alpha, alpha, this]

theorem omega_mult (k : ℕ) : omega (mult * n) (mult * k) = omega n k := by
  rw [omega, omega, mult]; push_cast
  rcases Nat.eq_zero_or_pos n with rfl | hn
  · simp
  have : (n : ℝ) ≠ 0 := by exact_mod_cast hn.ne'
  field_simp

theorem bigR_mult (r : Fin n → ℝ) (k : ℕ) : bigR (mult * n) r (mult * k) = powerSpectrum r (2 * Real.pi * k / n) := by
  rw [bigR, powerSpectrum]
  refine sum_congr rfl fun t _ => ?_
  rw [omega_mult, omega, mul_comm (_ / _)]

theorem response_hermitian (hn : 0 < n) (r : Fin n → ℝ) {k : ℕ} (hk : k ≤ n) :
    response r (n - k) = (starRingEnd ℂ) (response r k) := by
  have hm : mult * n = 2 * (50 * n) := by rw [mult]; ring
  have hm0 : 0 < mult * n := by omega
  have hk' : mult * k ≤ mult * n := Nat.mul_le_mul_left _ hk
  simp only [response]
  rw [Nat.mul_sub, hilbert_odd hm (by omega) (fun j hj => alpha_even hm0 r hj) hk', alpha_even hm0 r hk', ← Complex.exp_conj]
  congr 1
  simp

theorem response_periodic (hn : 0 < n) (r : Fin n → ℝ) : response r n = response r 0 := by
  have hm0 : 0 < mult * n := by rw [mult]; omega
  have h1 := alpha_even hm0 r (Nat.zero_le _)
  simp only [response]
  rw [Nat.mul_zero, ← hilbert_periodic hm0, ← h1]; simp

theorem norm_response (r : Fin n → ℝ) (k : ℕ) (h : powerSpectrum r (2 * Real.pi * k / n) ≠ 0) :
    ‖response r k‖ ^ 2 = |powerSpectrum r (2 * Real.pi * k / n)| := by
  have h1 : ‖response r k‖ = Real.exp (alpha (mult * n) r (mult * k)) := by
    simp only [response]
    rw [Complex.norm_exp]
    simp
  rw [h1, ← Real.exp_nat_mul, alpha, bigR_mult]
  rw [show ((2 : ℕ) : ℝ) * (0.5 * Real.log |powerSpectrum r (2 * Real.pi * k / n)|) =
    Real.log |powerSpectrum r (2 * Real.pi * k / n)| by push_cast; ring]
  exact Real.exp_log (abs_pos.2 h)

/-- The transform of the returned impulse response is the computed response: nothing is lost by the `np.real` calls. -/
theorem fft_spectralFact (hn : 0 < n) (r : Fin n → ℝ) {h : Fin n → ℝ} (hh : spectralFact r = .ok h) {k : ℕ} (hk : k < n) :
    npFft n (fun j => ((zext h j : ℝ) : ℂ)) k = response r k := by
  rw [spectralFact, if_neg hn.ne', Except.ok.injEq] at hh
  rw [← npFft_npIfft hn (response r) hk]
  refine npFft_congr (fun j hj => ?_) k
  rw [zext, dif_pos hj, ← hh, npIfft_hermitian hn (fun l hl => response_hermitian hn r hl) (response_periodic hn r)]

end SpecFact
end Verif
