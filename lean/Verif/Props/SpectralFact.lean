import Mathlib.Analysis.Complex.Polynomial.Basic
import Mathlib.Analysis.SpecificLimits.Normed
import Verif.Proofs.SpectralFact

/-!
# C77, C78: `spectral_fact`

C77: what the code guarantees for any autocorrelation sequence.  C78: for the autocorrelation of a minimum-phase impulse
response it returns that impulse response, up to an explicit, exponentially small error (exact arithmetic).
-/
namespace Verif
open Finset Complex SpecFact
variable {n : ℕ}

theorem cis_re (N : ℕ) (t : ℤ) : (cis N t).re = Real.cos (2 * Real.pi * t / N) := by
  rw [cis, show (2 * Real.pi * I * t / N : ℂ) = ((2 * Real.pi * t / N : ℝ) : ℂ) * I by push_cast; ring]
  exact Complex.exp_ofReal_mul_I_re _

theorem cis_im (N : ℕ) (t : ℤ) : (cis N t).im = Real.sin (2 * Real.pi * t / N) := by
  rw [cis, show (2 * Real.pi * I * t / N : ℂ) = ((2 * Real.pi * t / N : ℝ) : ℂ) * I by push_cast; ring]
  exact Complex.exp_ofReal_mul_I_im _

theorem npFft_zext (h : Fin n → ℝ) (k : ℕ) :
    npFft n (fun j => ((zext h j : ℝ) : ℂ)) k = ∑ j : Fin n, (h j : ℂ) * cis n (-((j : ℕ) * k)) := by
  rw [npFft, Finset.sum_range]
  exact sum_congr rfl fun j _ => by rw [zext, dif_pos j.2]

/-- Squared magnitude of the frequency response of `h` on the `m`-point grid, in cosines and sines. -/
theorem normSq_response (m : ℕ) (h : Fin n → ℝ) (k : ℕ) :
    ‖∑ j : Fin n, (h j : ℂ) * cis m (-((j : ℕ) * k))‖ ^ 2 =
      (∑ j : Fin n, h j * Real.cos (j * (2 * Real.pi * k / m))) ^ 2 +
      (∑ j : Fin n, h j * Real.sin (j * (2 * Real.pi * k / m))) ^ 2 := by
  rw [← Complex.normSq_eq_norm_sq, Complex.normSq_apply, Complex.re_sum, Complex.im_sum, ← sq, ← sq]
  congr 1
  · congr 1
    refine sum_congr rfl fun j _ => ?_
    rw [Complex.re_ofReal_mul, cis_re]
    congr 1
    rw [← Real.cos_neg]; congr 1; push_cast; ring
  · rw [← neg_sq, ← sum_neg_distrib]
    congr 1
    refine sum_congr rfl fun j _ => ?_
    rw [Complex.im_ofReal_mul, cis_im, ← mul_neg]
    congr 1
    rw [← Real.sin_neg]; congr 1; push_cast; ring

/-- **C77** (magnitude).  For every `r` of length `n ≥ 1`, `h = spectral_fact(r)` is returned, and at each of the `n` grid
frequencies `w = 2πk/n` where the power spectrum `R(w) = r[0] + 2 Σ r[t] cos(tw)` is not zero,
`|H(e^{jw})|² = |R(w)|`. -/
theorem C77_spectral_fact_magnitude (hn : 0 < n) (r : Fin n → ℝ) :
    ∃ h, spectralFact r = .ok h ∧ ∀ k < n, powerSpectrum r (2 * Real.pi * k / n) ≠ 0 →
      (∑ j : Fin n, h j * Real.cos (j * (2 * Real.pi * k / n))) ^ 2 +
      (∑ j : Fin n, h j * Real.sin (j * (2 * Real.pi * k / n))) ^ 2 = |powerSpectrum r (2 * Real.pi * k / n)| := by
  refine ⟨_, by rw [spectralFact, if_neg hn.ne'], fun k hk hR => ?_⟩
  rw [← normSq_response, ← npFft_zext, fft_spectralFact hn r (by rw [spectralFact, if_neg hn.ne']) hk, norm_response r k hR]

/-- **C77** (the empty sequence).  `spectral_fact` of a vector without entries raises `ValueError`, and nothing else does. -/
theorem C77_spectral_fact_empty (r : Fin n → ℝ) (err : PyErr) : spectralFact r = .error err ↔ n = 0 ∧ err = .valueError := by
  by_cases hn : n = 0
  · rw [spectralFact, if_pos hn]; simp [hn, eq_comm]
  · rw [spectralFact, if_neg hn]; simp [hn]

/-- **C77** (realness).  The `np.real` of line 48 and the one of line 57 discard nothing but zeros: both inverse transforms
are real, so the returned `h` is the whole inverse transform of the constructed frequency response. -/
theorem C77_spectral_fact_real (hn : 0 < n) (r : Fin n → ℝ) :
    (∀ k, (npIfft (mult * n) (fun l => Complex.I * mask (mult * n)
      (npFft (mult * n) fun j => ((alpha (mult * n) r j : ℝ) : ℂ)) l) k).im = 0) ∧
    (∀ j, (npIfft n (response r) j).im = 0) ∧
    ∃ h, spectralFact r = .ok h ∧ ∀ j, ((h j : ℝ) : ℂ) = npIfft n (response r) j := by
  have h2 := fun j => npIfft_hermitian hn (fun l hl => response_hermitian hn r hl) (response_periodic hn r) j
  refine ⟨fun k => ?_, fun j => ?_, _, by rw [spectralFact, if_neg hn.ne'], fun j => h2 j⟩
  · have hm0 : 0 < mult * n := by rw [mult]; omega
    have hm : mult * n = 2 * (50 * n) := by rw [mult]; ring
    generalize mult * n = m at hm hm0
    generalize alpha m r = al
    set f := npFft m fun j => (al j : ℂ) with hf
    have hc : ∀ l ≤ m, f (m - l) = (starRingEnd ℂ) (f l) := by
      intro l hl
      rw [hf, npFft, npFft, map_sum]
      refine sum_congr rfl fun j _ => ?_
      rw [map_mul, Complex.conj_ofReal, ← cis_neg]
      congr 1
      refine cis_congr hm0 ⟨-j, ?_⟩
      rw [Nat.cast_sub hl]; ring
    have e : npIfft m (fun l => Complex.I * mask m f l) k =
        npIfft m (fun l => if l = m then 0 else Complex.I * mask m f l) k := by
      rw [npIfft, npIfft]
      congr 1
      refine sum_congr rfl fun l hl => ?_
      rw [if_neg (mem_range.1 hl).ne]
    rw [e, ← npIfft_hermitian hm0 (a := fun l => if l = m then 0 else Complex.I * mask m f l) ?_ ?_ k, Complex.ofReal_im]
    · intro l hl
      have hh : m / 2 = 50 * n := by omega
      simp only [mask, hh]
      rcases Nat.eq_zero_or_pos l with rfl | h0
      · simp
      rcases eq_or_lt_of_le hl with h1 | h1
      · rw [if_pos h1, h1, Nat.sub_self, if_neg hm0.ne]; simp
      rw [if_neg (show ¬ m - l = m by omega), if_neg h1.ne, hc l hl, if_neg (show ¬ m - l = 0 by omega), if_neg h0.ne']
      rcases lt_trichotomy l (50 * n) with h3 | h3 | h3
      · rw [if_neg (show ¬ m - l = 50 * n by omega), if_pos (show 50 * n ≤ m - l by omega), if_neg h3.ne,
          if_neg (show ¬ 50 * n ≤ l by omega)]
        simp
      · rw [if_pos (show m - l = 50 * n by omega), if_pos h3]; simp
      · rw [if_neg (show ¬ m - l = 50 * n by omega), if_neg (show ¬ 50 * n ≤ m - l by omega), if_neg h3.ne', if_pos h3.le]
        simp
    · simp only [if_true, if_neg hm0.ne, mask]
      split_ifs <;> simp
  · rw [← h2 j, Complex.ofReal_im]

/-- Coefficients whose power spectrum vanishes on the grid. -/
theorem fold_eq_zero (hn : 0 < n) (d : Fin n → ℝ) (h : ∀ k < n, powerSpectrum d (2 * Real.pi * k / n) = 0) :
    d ⟨0, hn⟩ = 0 ∧ ∀ t, (h0 : 0 < t) → (h1 : t < n) → d ⟨t, h1⟩ + d ⟨n - t, by omega⟩ = 0 := by
  have key : ∀ k < n, npFft n (fun t => if t = 0 then ((zext d 0 : ℝ) : ℂ) else ((zext d t + zext d (n - t) : ℝ) : ℂ)) k = 0 := by
    intro k hk
    have h1 := h k hk
    have e1 : powerSpectrum d (2 * Real.pi * k / n) =
        ∑ t ∈ range n, (if t = 0 then 1 else 2 * Real.cos (t * (2 * Real.pi * k / n))) * zext d t := by
      rw [powerSpectrum, Finset.sum_range]
      exact sum_congr rfl fun t _ => by rw [zext, dif_pos t.2]
    obtain ⟨N, rfl⟩ : ∃ N, n = N + 1 := ⟨n - 1, by omega⟩
    rw [e1, sum_range_succ'] at h1
    rw [npFft, sum_range_succ']
    simp only [if_true, Nat.succ_ne_zero, if_false, one_mul, CharP.cast_eq_zero, zero_mul, neg_zero, cis_zero, mul_one] at h1 ⊢
    have e2 : ∑ t ∈ range N, ((zext d (t + 1) + zext d (N + 1 - (t + 1)) : ℝ) : ℂ) * cis (N + 1) (-((t + 1 : ℕ) * k)) =
        ((∑ t ∈ range N, 2 * Real.cos ((t + 1 : ℕ) * (2 * Real.pi * k / (N + 1 : ℕ))) * zext d (t + 1) : ℝ) : ℂ) := by
      rw [Complex.ofReal_sum]
      have e3 : ∑ t ∈ range N, ((zext d (N + 1 - (t + 1)) : ℝ) : ℂ) * cis (N + 1) (-(((t + 1 : ℕ) : ℤ) * k)) =
          ∑ t ∈ range N, ((zext d (t + 1) : ℝ) : ℂ) * cis (N + 1) (((t + 1 : ℕ) : ℤ) * k) := by
        rw [← sum_range_reflect]
        refine sum_congr rfl fun t ht => ?_
        have ht := mem_range.1 ht
        congr 1
        · congr 2; omega
        · refine cis_congr hn ⟨-k, ?_⟩
          rw [show N - 1 - t + 1 = N - t by omega, Nat.cast_sub ht.le]; push_cast; ring
      have e4 : ∀ t : ℕ, ((zext d (t + 1) + zext d (N + 1 - (t + 1)) : ℝ) : ℂ) * cis (N + 1) (-(((t + 1 : ℕ) : ℤ) * k)) =
          ((zext d (t + 1) : ℝ) : ℂ) * cis (N + 1) (-(((t + 1 : ℕ) : ℤ) * k)) +
          ((zext d (N + 1 - (t + 1)) : ℝ) : ℂ) * cis (N + 1) (-(((t + 1 : ℕ) : ℤ) * k)) := fun t => by
        rw [Complex.ofReal_add]; ring
      rw [sum_congr rfl fun t _ => e4 t, sum_add_distrib, e3, ← sum_add_distrib]
      refine sum_congr rfl fun t _ => ?_
      have e5 : cis (N + 1) (-(((t + 1 : ℕ) : ℤ) * k)) + cis (N + 1) (((t + 1 : ℕ) : ℤ) * k) =
          ((2 * Real.cos ((t + 1 : ℕ) * (2 * Real.pi * k / (N + 1 : ℕ))) : ℝ) : ℂ) := by
        rw [cis_neg, add_comm, Complex.add_conj, cis_re]
        congr 3
        push_cast; ring
      rw [← mul_add, e5, ← Complex.ofReal_mul, mul_comm]
    rw [e2, ← Complex.ofReal_add, h1, Complex.ofReal_zero]
  have hz : ∀ t < n, (if t = 0 then ((zext d 0 : ℝ) : ℂ) else ((zext d t + zext d (n - t) : ℝ) : ℂ)) = 0 := by
    intro t ht
    rw [← npIfft_npFft hn (fun t => if t = 0 then ((zext d 0 : ℝ) : ℂ) else ((zext d t + zext d (n - t) : ℝ) : ℂ)) ht,
      npIfft, sum_congr rfl fun l hl => by rw [key l (mem_range.1 hl), zero_mul]]
    simp
  refine ⟨?_, fun t h0 h1 => ?_⟩
  · have := hz 0 hn
    rw [if_pos rfl, zext, dif_pos hn] at this
    exact_mod_cast this
  · have := hz t h1
    rw [if_neg h0.ne', zext, zext, dif_pos h1, dif_pos (by omega : n - t < n)] at this
    exact_mod_cast this

/-- **C77** (round trip).  If the power spectrum of `r` is positive on the `n`-point grid, then
`r' = inverse_spectral_fact(spectral_fact(r))` has `r'[0] = r[0]` and
`r'[t] + r'[n-t] = r[t] + r[n-t]` for `0 < t < n`: the round trip is exact up to folding. -/
theorem C77_spectral_fact_round_trip (hn : 0 < n) (r : Fin n → ℝ)
    (hR : ∀ k < n, 0 < powerSpectrum r (2 * Real.pi * k / n)) :
    ∃ h, spectralFact r = .ok h ∧ inverseSpectralFact h ⟨0, hn⟩ = r ⟨0, hn⟩ ∧
      ∀ t, (h0 : 0 < t) → (h1 : t < n) → inverseSpectralFact h ⟨t, h1⟩ + inverseSpectralFact h ⟨n - t, by omega⟩ =
        r ⟨t, h1⟩ + r ⟨n - t, by omega⟩ := by
  obtain ⟨h, hh, hm⟩ := C77_spectral_fact_magnitude hn r
  have key := fold_eq_zero hn (fun t => inverseSpectralFact h t - r t) fun k hk => by
    have h1 : powerSpectrum (fun t => inverseSpectralFact h t - r t) (2 * Real.pi * k / n) =
        powerSpectrum (inverseSpectralFact h) (2 * Real.pi * k / n) - powerSpectrum r (2 * Real.pi * k / n) := by
      simp only [powerSpectrum, mul_sub, sum_sub_distrib]
    rw [h1, C52_power_spectrum, hm k hk (hR k hk).ne', abs_of_pos (hR k hk), sub_self]
  refine ⟨h, hh, by linarith [key.1], fun t h0 h1 => by linarith [key.2 t h0 h1]⟩

/-- **C77** (short filters).  For `n ≤ 2` the round trip is exact. -/
theorem C77_spectral_fact_exact_two (r : Fin 2 → ℝ) (h0 : 2 * |r 1| < r 0) :
    ∃ h, spectralFact r = .ok h ∧ inverseSpectralFact h = r := by
  obtain ⟨h, hh, h1, h2⟩ := C77_spectral_fact_round_trip (by norm_num) r fun k _ => by
    rw [powerSpectrum, Fin.sum_univ_two]
    simp only [Fin.val_zero, if_true, Fin.val_one, one_ne_zero, if_false, one_mul]
    have a1 := Real.neg_one_le_cos ((1 : ℕ) * (2 * Real.pi * k / (2 : ℕ)))
    have a2 := Real.cos_le_one ((1 : ℕ) * (2 * Real.pi * k / (2 : ℕ)))
    have a3 := abs_le.1 (le_refl |r 1|)
    have a4 : |Real.cos ((1 : ℕ) * (2 * Real.pi * k / (2 : ℕ))) * r 1| ≤ |r 1| := by
      rw [abs_mul]
      exact mul_le_of_le_one_left (abs_nonneg _) (abs_le.2 ⟨a1, a2⟩)
    have := (abs_le.1 a4).1
    linarith
  refine ⟨h, hh, funext fun t => ?_⟩
  fin_cases t
  · exact h1
  · have := h2 1 (by norm_num) (by norm_num)
    simp only [show (2 : ℕ) - 1 = 1 from rfl] at this
    change inverseSpectralFact h 1 = r 1
    have e : (⟨1, by norm_num⟩ : Fin 2) = 1 := rfl
    rw [e] at this
    linarith

/-! ### Recovery of a minimum-phase response -/

theorem cis_pow (m : ℕ) (j q : ℕ) : cis m (-(j : ℤ)) ^ q = cis m (-(j * q)) := by
  rw [← cis_mul]; congr 1; ring

/-- Tail bound. -/
theorem hasSum_tail {ρ : ℝ} (h0 : 0 ≤ ρ) (h1 : ρ < 1) (M : ℕ) (C : ℝ) :
    HasSum (fun q : ℕ => if q < M then 0 else C * ρ ^ q) (C * (ρ ^ M * (1 - ρ)⁻¹)) := by
  have h : HasSum (fun q : ℕ => (if q + M < M then 0 else C * ρ ^ (q + M))) (C * (ρ ^ M * (1 - ρ)⁻¹)) := by
    have := ((hasSum_geometric_of_lt_one h0 h1).mul_left (ρ ^ M)).mul_left C
    refine this.congr_fun ?_
    intro q
    rw [if_neg (by omega), pow_add]; ring
  have h2 := (hasSum_nat_add_iff (f := fun q : ℕ => if q < M then 0 else C * ρ ^ q) M).1 h
  have h3 : ∑ i ∈ range M, (if i < M then (0 : ℝ) else C * ρ ^ i) = 0 :=
    sum_eq_zero fun i hi => if_pos (mem_range.1 hi)
  rwa [h3, add_zero] at h2

/-- The Hilbert transform of `log|1 - a e^{-jw}|` is the phase of `1 - a e^{-jw}` up to the aliased tail. -/
theorem hilbert_log {m M : ℕ} (hm : m = 2 * M) (hM : 0 < M) {a : ℂ} {ρ : ℝ} (ha : ‖a‖ ≤ ρ) (hρ : ρ < 1) (k : ℕ) :
    |hilbert m (fun j => (Complex.log (1 - a * cis m (-(j : ℤ)))).re) k - (Complex.log (1 - a * cis m (-(k : ℤ)))).im| ≤
      2 / M * (ρ ^ M * (1 - ρ)⁻¹) := by
  have hρ0 : 0 ≤ ρ := (norm_nonneg a).trans ha
  have hlt : ∀ j : ℕ, ‖a * cis m (-(j : ℤ))‖ < 1 := fun j => by
    rw [norm_mul, norm_cis, mul_one]; linarith
  have hs : ∀ j : ℕ, HasSum (fun q : ℕ => a ^ q / q * cis m (-(j * q))) (-Complex.log (1 - a * cis m (-(j : ℤ)))) := fun j => by
    refine (Complex.hasSum_taylorSeries_neg_log (hlt j)).congr_fun fun q => ?_
    rw [mul_pow, cis_pow]; ring
  have h1 : HasSum (fun q : ℕ => sgn m (q % m) * (a ^ q / q * cis m (-(q * k))).im)
      (hilbert m (fun j => (-Complex.log (1 - a * cis m (-(j : ℤ)))).re) k) := by
    have := hilbert_hasSum (m := m) (fun (q : ℕ) (j : ℕ) => (a ^ q / q * cis m (-(j * q))).re)
      (fun j => (-Complex.log (1 - a * cis m (-(j : ℤ)))).re) (fun j _ => (hs j).mapL Complex.reCLM) k
    refine this.congr_fun fun q => ?_
    rw [hilbert_char hm hM]
  have h2 : HasSum (fun q : ℕ => (a ^ q / q * cis m (-(q * k))).im) (-Complex.log (1 - a * cis m (-(k : ℤ)))).im := by
    refine ((hs k).mapL Complex.imCLM).congr_fun fun q => ?_
    simp [mul_comm]
  have h3 := h1.sub h2
  have h4 := h3.norm_le_of_bounded (hasSum_tail hρ0 hρ M (2 / M)) fun q => by
    have e : sgn m (q % m) * (a ^ q / q * cis m (-(q * k))).im - (a ^ q / q * cis m (-(q * k))).im =
      (sgn m (q % m) - 1) * (a ^ q / q * cis m (-(q * k))).im := by ring
    rw [e]
    split_ifs with hq
    · rcases Nat.eq_zero_or_pos q with rfl | hq0
      · simp
      · have : sgn m (q % m) = 1 := by
          rw [Nat.mod_eq_of_lt (by omega), sgn, if_neg (by omega), if_neg (by omega), if_neg (by omega)]
        rw [this]; simp
    · have b1 : |sgn m (q % m) - 1| ≤ 2 := by
        unfold sgn; split_ifs <;> norm_num
      have b2 : |(a ^ q / q * cis m (-(q * k))).im| ≤ ρ ^ q / M := by
        refine (Complex.abs_im_le_norm _).trans ?_
        rw [norm_mul, norm_cis, mul_one, norm_div, norm_pow, Complex.norm_natCast]
        have : (0 : ℝ) < M := by exact_mod_cast hM
        have : (M : ℝ) ≤ q := by exact_mod_cast not_lt.1 hq
        gcongr
      rw [Real.norm_eq_abs, abs_mul]
      calc _ ≤ 2 * (ρ ^ q / M) := mul_le_mul b1 b2 (abs_nonneg _) (by norm_num)
        _ = _ := by ring
  have e5 : hilbert m (fun j => (-Complex.log (1 - a * cis m (-(j : ℤ)))).re) k =
      -hilbert m (fun j => (Complex.log (1 - a * cis m (-(j : ℤ)))).re) k := by
    rw [← hilbert_neg]; rfl
  rw [e5, Complex.neg_im, Real.norm_eq_abs, ← abs_neg] at h4
  refine le_of_eq_of_le ?_ h4
  congr 1; ring

theorem hilbert_const {m M : ℕ} (hm : m = 2 * M) (hM : 0 < M) (c : ℝ) (k : ℕ) : hilbert m (fun _ => c) k = 0 := by
  have := hilbert_char hm hM (c : ℂ) 0 k
  simpa [cis_zero, sgn] using this

/-- `H(z) = Σ_j h[j] z^j`; the frequency response is `H(e^{-jw})`. -/
noncomputable def transfer (h : Fin n → ℝ) (z : ℂ) : ℂ := ∑ j : Fin n, (h j : ℂ) * z ^ (j : ℕ)

theorem transfer_cis (m : ℕ) (h : Fin n → ℝ) (k : ℕ) :
    transfer h (cis m (-(k : ℤ))) = ∑ j : Fin n, (h j : ℂ) * cis m (-((j : ℕ) * k)) := by
  refine sum_congr rfl fun j _ => ?_
  rw [cis_pow]; congr 2; ring

theorem norm_transfer_cis (m : ℕ) (h : Fin n → ℝ) (k : ℕ) : ‖transfer h (cis m (-(k : ℤ)))‖ ≤ ∑ j, |h j| := by
  refine (norm_sum_le _ _).trans (sum_le_sum fun j _ => ?_)
  rw [norm_mul, norm_pow, norm_cis, one_pow, mul_one, Complex.norm_real, Real.norm_eq_abs]

theorem cis_mult (hn : 0 < n) (k : ℕ) : cis (mult * n) (-((mult * k : ℕ) : ℤ)) = cis n (-(k : ℤ)) := by
  have : (n : ℂ) ≠ 0 := by exact_mod_cast hn.ne'
  rw [cis, cis, mult]
  congr 1
  push_cast
  field_simp

/-- The computed response of the autocorrelation of a factored `H` is `H(e^{-jw})` times a small rotation. -/
theorem response_factored (hn : 0 < n) {d : ℕ} {h0 : Fin n → ℝ} {c ρ : ℝ} {a : Fin d → ℂ} (hc : 0 < c)
    (ha : ∀ i, ‖a i‖ ≤ ρ) (hρ : ρ < 1) (hfac : ∀ z, transfer h0 z = c * ∏ i, (1 - a i * z)) (k : ℕ) :
    ∃ δ : ℝ, |δ| ≤ d * (2 / (50 * n : ℕ) * (ρ ^ (50 * n) * (1 - ρ)⁻¹)) ∧
      response (inverseSpectralFact h0) k = transfer h0 (cis n (-(k : ℤ))) * Complex.exp (I * δ) := by
  have hm : mult * n = 2 * (50 * n) := by rw [mult]; ring
  have hM : 0 < 50 * n := by omega
  have hne : ∀ i j, 1 - a i * cis (mult * n) (-((j : ℕ) : ℤ)) ≠ 0 := by
    intro i j h
    have : ‖a i * cis (mult * n) (-(j : ℤ))‖ = 1 := by rw [← sub_eq_zero.1 h]; simp
    rw [norm_mul, norm_cis, mul_one] at this
    linarith [ha i]
  have hal : ∀ j, alpha (mult * n) (inverseSpectralFact h0) j =
      Real.log c + ∑ i, (Complex.log (1 - a i * cis (mult * n) (-((j : ℕ) : ℤ)))).re := by
    intro j
    have h1 : bigR (mult * n) (inverseSpectralFact h0) j = ‖transfer h0 (cis (mult * n) (-(j : ℤ)))‖ ^ 2 := by
      rw [transfer_cis, normSq_response, ← C52_power_spectrum, bigR, powerSpectrum, omega]
      refine sum_congr rfl fun t _ => ?_
      rw [mul_comm (_ / _)]
    rw [alpha, h1, abs_of_nonneg (sq_nonneg _), Real.log_pow, hfac, norm_mul, Complex.norm_real, Real.norm_eq_abs, abs_of_pos hc,
      norm_prod, Real.log_mul hc.ne' (prod_ne_zero_iff.2 fun i _ => norm_ne_zero_iff.2 (hne i j)),
      Real.log_prod (fun i _ => norm_ne_zero_iff.2 (hne i j))]
    simp only [Complex.log_re]
    push_cast; ring
  have hphi : hilbert (mult * n) (alpha (mult * n) (inverseSpectralFact h0)) (mult * k) =
      ∑ i, hilbert (mult * n) (fun j => (Complex.log (1 - a i * cis (mult * n) (-((j : ℕ) : ℤ)))).re) (mult * k) := by
    rw [hilbert_congr (fun j _ => hal j), hilbert_add, hilbert_const hm hM, zero_add, hilbert_sum]
  refine ⟨∑ i, (hilbert (mult * n) (fun j => (Complex.log (1 - a i * cis (mult * n) (-((j : ℕ) : ℤ)))).re) (mult * k) -
    (Complex.log (1 - a i * cis (mult * n) (-((mult * k : ℕ) : ℤ)))).im), ?_, ?_⟩
  · refine (abs_sum_le_sum_abs _ _).trans ?_
    refine (sum_le_sum fun i _ => hilbert_log hm hM (ha i) hρ _).trans ?_
    simp
  · simp only [response]
    rw [hphi, hal, hfac, ← cis_mult hn]
    have e : ∏ i, (1 - a i * cis (mult * n) (-((mult * k : ℕ) : ℤ))) =
        Complex.exp (∑ i, Complex.log (1 - a i * cis (mult * n) (-((mult * k : ℕ) : ℤ)))) := by
      rw [Complex.exp_sum]
      exact prod_congr rfl fun i _ => (Complex.exp_log (hne i _)).symm
    have ec : (c : ℂ) = Complex.exp (Real.log c : ℝ) := by rw [← Complex.ofReal_exp, Real.exp_log hc]
    rw [e]
    conv_rhs => rw [ec]
    rw [← Complex.exp_add, ← Complex.exp_add]
    congr 1
    have e2 : ∑ i, Complex.log (1 - a i * cis (mult * n) (-((mult * k : ℕ) : ℤ))) =
        ((∑ i, (Complex.log (1 - a i * cis (mult * n) (-((mult * k : ℕ) : ℤ)))).re : ℝ) : ℂ) +
        I * ((∑ i, (Complex.log (1 - a i * cis (mult * n) (-((mult * k : ℕ) : ℤ)))).im : ℝ) : ℂ) := by
      rw [← Complex.re_sum, ← Complex.im_sum, mul_comm I, Complex.re_add_im]
    rw [e2, sum_sub_distrib]
    push_cast
    ring

/-- A polynomial without zeros near the unit disc, factored. -/
theorem transfer_factor (hn : 0 < n) {h0 : Fin n → ℝ} {ρ : ℝ} (hpos : h0 ⟨0, hn⟩ ≠ 0)
    (hz : ∀ z, transfer h0 z = 0 → 1 ≤ ρ * ‖z‖) :
    ∃ (d : ℕ) (a : Fin d → ℂ), d ≤ n - 1 ∧ (∀ i, ‖a i‖ ≤ ρ) ∧
      ∀ z, transfer h0 z = (h0 ⟨0, hn⟩ : ℝ) * ∏ i, (1 - a i * z) := by
  let p : Polynomial ℂ := ∑ j : Fin n, Polynomial.C (h0 j : ℂ) * Polynomial.X ^ (j : ℕ)
  have hev : ∀ z, p.eval z = transfer h0 z := by
    intro z
    simp [p, transfer, Polynomial.eval_finsetSum]
  have h00 : transfer h0 0 = (h0 ⟨0, hn⟩ : ℝ) := by
    rw [transfer, Finset.sum_eq_single ⟨0, hn⟩]
    · simp
    · intro j _ hj
      have : (j : ℕ) ≠ 0 := fun h => hj (Fin.ext h)
      rw [zero_pow this, mul_zero]
    · simp
  have hp : p ≠ 0 := by
    intro h
    have := hev 0
    rw [h, h00, Polynomial.eval_zero] at this
    exact hpos (by exact_mod_cast this.symm)
  have hdeg : p.natDegree ≤ n - 1 := by
    refine Polynomial.natDegree_sum_le_of_forall_le _ _ fun j _ => ?_
    refine (Polynomial.natDegree_C_mul_X_pow_le _ _).trans ?_
    have := j.2
    omega
  have hsplit := (IsAlgClosed.splits p).eq_prod_roots
  have hroots : ∀ r ∈ p.roots, r ≠ 0 ∧ ‖r⁻¹‖ ≤ ρ := by
    intro r hr
    rw [Polynomial.mem_roots hp, Polynomial.IsRoot, hev] at hr
    have h1 := hz r hr
    have h2 : r ≠ 0 := by
      rintro rfl
      rw [norm_zero, mul_zero] at h1
      linarith
    refine ⟨h2, ?_⟩
    rw [norm_inv, inv_le_iff_one_le_mul₀ (norm_pos_iff.2 h2)]
    exact h1
  let L := p.roots.toList
  have hL : ∀ z, transfer h0 z = p.leadingCoeff * (L.map fun r => z - r).prod := by
    intro z
    rw [← hev]
    conv_lhs => rw [hsplit]
    rw [Polynomial.eval_mul, Polynomial.eval_C, Polynomial.eval_multiset_prod, Multiset.map_map]
    congr 1
    have : ((L.map fun r => z - r : List ℂ) : Multiset ℂ) = p.roots.map fun r => z - r := by
      rw [← Multiset.map_coe, Multiset.coe_toList]
    rw [← Multiset.prod_coe, this]
    simp
  have hmem : ∀ r ∈ L, r ≠ 0 ∧ ‖r⁻¹‖ ≤ ρ := fun r hr => hroots r (Multiset.mem_toList.1 hr)
  refine ⟨L.length, fun i => (L.get i)⁻¹, ?_, fun i => (hmem _ (List.get_mem L i)).2, fun z => ?_⟩
  · rw [Multiset.length_toList]
    exact (Polynomial.card_roots' p).trans hdeg
  · have e1 : ∏ i : Fin L.length, (1 - (L.get i)⁻¹ * z) = (L.map fun r => 1 - r⁻¹ * z).prod := by
      rw [← List.prod_ofFn]
      congr 1
      apply List.ext_getElem <;> simp
    have e2 : ∀ l : List ℂ, (∀ r ∈ l, r ≠ 0) →
        (l.map fun r => z - r).prod = (l.map fun r => 0 - r).prod * (l.map fun r => 1 - r⁻¹ * z).prod := by
      intro l
      induction l with
      | nil => simp
      | cons r l ih =>
        intro h
        have hr := h r (by simp)
        rw [List.map_cons, List.map_cons, List.map_cons, List.prod_cons, List.prod_cons, List.prod_cons,
          ih fun r hr => h r (by simp [hr])]
        have : z - r = (0 - r) * (1 - r⁻¹ * z) := by field_simp; ring
        rw [this]; ring
    rw [e1, ← h00, hL, hL, e2 L fun r hr => (hmem r hr).1]
    ring

/-- **C78**.  Let `h0` be a minimum-phase impulse response of length `n`: `h0[0] > 0`, and every zero of
`H(z) = Σ h0[j] z^{-j}` has modulus at most `ρ < 1` (stated with `z^{-1}` for `z`).  Then `spectral_fact` applied to the
autocorrelation of `h0` returns `h0` with error at most
`(Σ|h0|)·(n-1)·2/(50n)·ρ^(50n)/(1-ρ)` in every coefficient, in exact arithmetic. -/
theorem C78_spectral_fact_min_phase (hn : 0 < n) {h0 : Fin n → ℝ} {ρ : ℝ} (hpos : 0 < h0 ⟨0, hn⟩) (hρ0 : 0 ≤ ρ) (hρ : ρ < 1)
    (hz : ∀ z, transfer h0 z = 0 → 1 ≤ ρ * ‖z‖) :
    ∃ h, spectralFact (inverseSpectralFact h0) = .ok h ∧ ∀ j, |h j - h0 j| ≤
      (∑ j, |h0 j|) * (((n - 1 : ℕ) : ℝ) * (2 / (50 * n : ℕ) * (ρ ^ (50 * n) * (1 - ρ)⁻¹))) := by
  obtain ⟨d, a, hd, ha, hfac⟩ := transfer_factor hn hpos.ne' hz
  refine ⟨_, by rw [spectralFact, if_neg hn.ne'], fun j => ?_⟩
  set B := (∑ j, |h0 j|) * (((n - 1 : ℕ) : ℝ) * (2 / (50 * n : ℕ) * (ρ ^ (50 * n) * (1 - ρ)⁻¹))) with hB
  have hn' : (0 : ℝ) < n := by exact_mod_cast hn
  have h1 : ((h0 j : ℝ) : ℂ) = npIfft n (fun k => transfer h0 (cis n (-(k : ℤ)))) j := by
    have := npIfft_npFft hn (fun j => ((zext h0 j : ℝ) : ℂ)) j.2
    simp only [zext, j.2, dif_pos] at this
    rw [← this]
    refine npIfft_congr (fun k _ => ?_) _
    rw [transfer_cis, ← npFft_zext]; rfl
  have hk : ∀ k, ‖response (inverseSpectralFact h0) k - transfer h0 (cis n (-(k : ℤ)))‖ ≤ B := by
    intro k
    obtain ⟨δ, hδ, hr⟩ := response_factored hn hpos ha hρ hfac k
    rw [hr, show ∀ x y : ℂ, x * y - x = x * (y - 1) from fun x y => by ring, norm_mul]
    have b1 : ‖Complex.exp (I * δ) - 1‖ ≤ |δ| := by
      have := Real.norm_exp_I_mul_ofReal_sub_one_le (x := δ)
      rwa [Real.norm_eq_abs] at this
    have b2 : |δ| ≤ ((n - 1 : ℕ) : ℝ) * (2 / (50 * n : ℕ) * (ρ ^ (50 * n) * (1 - ρ)⁻¹)) := by
      refine hδ.trans ?_
      have : (0 : ℝ) ≤ 1 - ρ := by linarith
      gcongr
    exact mul_le_mul (norm_transfer_cis n h0 k) (b1.trans b2) (norm_nonneg _) (sum_nonneg fun j _ => abs_nonneg _)
  have h2 : (npIfft n (response (inverseSpectralFact h0)) j).re - h0 j =
      (npIfft n (fun k => response (inverseSpectralFact h0) k - transfer h0 (cis n (-(k : ℤ)))) j).re := by
    have : npIfft n (fun k => response (inverseSpectralFact h0) k - transfer h0 (cis n (-(k : ℤ)))) j =
        npIfft n (response (inverseSpectralFact h0)) j - npIfft n (fun k => transfer h0 (cis n (-(k : ℤ)))) j := by
      simp only [npIfft, sub_mul, sum_sub_distrib, sub_div]
    rw [this, ← h1, Complex.sub_re, Complex.ofReal_re]
  rw [h2]
  refine (Complex.abs_re_le_norm _).trans ?_
  rw [npIfft, norm_div, Complex.norm_natCast, div_le_iff₀ hn']
  refine (norm_sum_le _ _).trans ?_
  refine (sum_le_sum (g := fun _ => B) fun l _ => ?_).trans ?_
  · rw [norm_mul, norm_cis, mul_one]; exact hk l
  · rw [sum_const, card_range, nsmul_eq_mul, mul_comm]

/-- **C78** (sign).  The autocorrelation does not see the sign, so for `h0[0] < 0` the result is near `-h0`. -/
theorem C78_spectral_fact_min_phase_neg (hn : 0 < n) {h0 : Fin n → ℝ} {ρ : ℝ} (hneg : h0 ⟨0, hn⟩ < 0) (hρ0 : 0 ≤ ρ)
    (hρ : ρ < 1) (hz : ∀ z, transfer h0 z = 0 → 1 ≤ ρ * ‖z‖) :
    ∃ h, spectralFact (inverseSpectralFact h0) = .ok h ∧ ∀ j, |h j + h0 j| ≤
      (∑ j, |h0 j|) * (((n - 1 : ℕ) : ℝ) * (2 / (50 * n : ℕ) * (ρ ^ (50 * n) * (1 - ρ)⁻¹))) := by
  have e1 : ∀ z, transfer (fun j => -h0 j) z = -transfer h0 z := fun z => by
    simp [transfer, sum_neg_distrib]
  have e2 : inverseSpectralFact (fun j => -h0 j) = inverseSpectralFact h0 := by
    funext t
    rw [C52_inverse_spectral_fact, C52_inverse_spectral_fact]
    refine sum_congr rfl fun i _ => ?_
    split <;> simp
  have := C78_spectral_fact_min_phase hn (h0 := fun j => -h0 j) (by simpa using hneg) hρ0 hρ fun z h => hz z (by
    rwa [e1, neg_eq_zero] at h)
  rw [e2] at this
  simpa only [sub_neg_eq_add, abs_neg] using this

/-- C78 applies: `h0 = (4, 0, 1)`, zeros of modulus `1/2`; the error is below `10^-40`. -/
example : ∃ h, spectralFact (inverseSpectralFact (![4, 0, 1] : Fin 3 → ℝ)) = .ok h ∧
    ∀ j, |h j - (![4, 0, 1] : Fin 3 → ℝ) j| ≤ 1 / 10 ^ 40 := by
  obtain ⟨h, h1, h2⟩ := C78_spectral_fact_min_phase (n := 3) (h0 := ![4, 0, 1]) (ρ := 1 / 2) (by norm_num) (by simp)
    (by norm_num) (by norm_num) (fun z hz => by
      have e : transfer (![4, 0, 1] : Fin 3 → ℝ) z = 4 + z ^ 2 := by simp [transfer, Fin.sum_univ_three]
      rw [e] at hz
      have h3 : ‖z‖ ^ 2 = 4 := by
        rw [← norm_pow, show z ^ 2 = -4 by linear_combination hz]; simp
      nlinarith [norm_nonneg z])
  refine ⟨h, h1, fun j => (h2 j).trans ?_⟩
  rw [Fin.sum_univ_three]
  simp only [Matrix.cons_val_zero, Matrix.cons_val_one, Matrix.cons_val]
  norm_num

/-- C77 applies: `r = (5, 2)`. -/
example : ∃ h, spectralFact (![5, 2] : Fin 2 → ℝ) = .ok h ∧ inverseSpectralFact h = ![5, 2] :=
  C77_spectral_fact_exact_two _ (by norm_num)

end Verif
