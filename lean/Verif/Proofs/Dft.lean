import Mathlib.RingTheory.RootsOfUnity.Complex
import Mathlib.RingTheory.RootsOfUnity.PrimitiveRoots
import Mathlib.Algebra.BigOperators.Field
import Verif.Model.SpectralFact

/-! # Discrete Fourier transform: orthogonality and inversion -/
namespace Verif
open Finset Complex
variable {N : ℕ}

theorem cis_zero : cis N 0 = 1 := by simp [cis]

theorem cis_add (s t : ℤ) : cis N (s + t) = cis N s * cis N t := by
  rw [cis, cis, cis, ← Complex.exp_add]; congr 1; push_cast; ring

theorem cis_neg (t : ℤ) : cis N (-t) = (starRingEnd ℂ) (cis N t) := by
  rw [cis, cis, ← Complex.exp_conj]
  congr 1
  simp [Complex.conj_ofReal, map_div₀, Complex.conj_ofNat]

theorem norm_cis (t : ℤ) : ‖cis N t‖ = 1 := by
  rw [cis, show (2 * Real.pi * I * t / N : ℂ) = ((2 * Real.pi * t / N : ℝ) : ℂ) * I by push_cast; ring]
  exact Complex.norm_exp_ofReal_mul_I _

theorem cis_mul_N (hN : 0 < N) (t : ℤ) : cis N (N * t) = 1 := by
  have : (N : ℂ) ≠ 0 := by exact_mod_cast hN.ne'
  rw [cis, show (2 * Real.pi * I * ((N * t : ℤ) : ℂ) / N : ℂ) = t * (2 * Real.pi * I) by push_cast; field_simp]
  exact Complex.exp_int_mul_two_pi_mul_I t

theorem cis_mul (s : ℕ) (t : ℤ) : cis N (s * t) = cis N t ^ s := by
  rw [cis, cis, ← Complex.exp_nat_mul]; congr 1; push_cast; ring

theorem cis_eq_one_iff (hN : 0 < N) (t : ℤ) : cis N t = 1 ↔ (N : ℤ) ∣ t := by
  have hN' : (N : ℂ) ≠ 0 := by exact_mod_cast hN.ne'
  constructor
  · intro h
    rw [cis, Complex.exp_eq_one_iff] at h
    obtain ⟨k, hk⟩ := h
    refine ⟨k, ?_⟩
    have : (t : ℂ) = N * k := by
      have h2 := Complex.two_pi_I_ne_zero
      field_simp at hk
      linear_combination hk
    exact_mod_cast this
  · rintro ⟨k, rfl⟩
    exact cis_mul_N hN k

theorem cis_congr (hN : 0 < N) {s t : ℤ} (h : (N : ℤ) ∣ s - t) : cis N s = cis N t := by
  have := (cis_eq_one_iff hN _).2 h
  have e : s = (s - t) + t := by ring
  rw [e, cis_add, this, one_mul]

/-- Orthogonality of the characters. -/
theorem sum_cis (hN : 0 < N) (t : ℤ) : ∑ k ∈ range N, cis N (k * t) = if (N : ℤ) ∣ t then (N : ℂ) else 0 := by
  split_ifs with h
  · rw [sum_congr rfl (g := fun _ => (1 : ℂ))]
    · simp
    · intro k _
      exact (cis_eq_one_iff hN _).2 (h.mul_left _)
  · have h1 : cis N t ≠ 1 := fun e => h ((cis_eq_one_iff hN t).1 e)
    have : ∑ k ∈ range N, cis N (k * t) = ∑ k ∈ range N, cis N t ^ k := sum_congr rfl fun k _ => cis_mul k t
    rw [this, geom_sum_eq h1, ← cis_mul, cis_mul_N hN]
    simp

theorem dvd_sub_iff_eq {j l : ℕ} (hj : j < N) (hl : l < N) : (N : ℤ) ∣ (j : ℤ) - l ↔ j = l := by
  constructor
  · intro h
    have := Int.eq_zero_of_abs_lt_dvd h (by rw [abs_lt]; constructor <;> omega)
    omega
  · rintro rfl; simp

/-- `fft(ifft(a)) = a`. -/
theorem npFft_npIfft (hN : 0 < N) (a : ℕ → ℂ) {l : ℕ} (hl : l < N) : npFft N (npIfft N a) l = a l := by
  have hN' : (N : ℂ) ≠ 0 := by exact_mod_cast hN.ne'
  have : npFft N (npIfft N a) l = (∑ q ∈ range N, a q * ∑ j ∈ range N, cis N (j * (q - l))) / N := by
    simp only [npFft, npIfft, div_mul_eq_mul_div, sum_mul, mul_sum]
    rw [← sum_div, sum_comm]
    congr 1
    refine sum_congr rfl fun q _ => sum_congr rfl fun j _ => ?_
    rw [mul_assoc, ← cis_add]; congr 2; ring
  rw [this]
  have : ∑ q ∈ range N, a q * ∑ j ∈ range N, cis N (j * (q - l)) = ∑ q ∈ range N, if q = l then a q * N else 0 := by
    refine sum_congr rfl fun q hq => ?_
    rw [sum_cis hN]
    simp only [dvd_sub_iff_eq (mem_range.1 hq) hl, mul_ite, mul_zero]
  rw [this, sum_ite_eq', if_pos (mem_range.2 hl)]
  field_simp

/-- `ifft(fft(a)) = a`. -/
theorem npIfft_npFft (hN : 0 < N) (a : ℕ → ℂ) {l : ℕ} (hl : l < N) : npIfft N (npFft N a) l = a l := by
  have hN' : (N : ℂ) ≠ 0 := by exact_mod_cast hN.ne'
  have : npIfft N (npFft N a) l = (∑ q ∈ range N, a q * ∑ j ∈ range N, cis N (j * (l - q))) / N := by
    simp only [npFft, npIfft, sum_mul, mul_sum]
    rw [sum_comm]
    congr 1
    refine sum_congr rfl fun q _ => sum_congr rfl fun j _ => ?_
    rw [mul_assoc, ← cis_add]; congr 2; ring
  rw [this]
  have : ∑ q ∈ range N, a q * ∑ j ∈ range N, cis N (j * (l - q)) = ∑ q ∈ range N, if q = l then a q * N else 0 := by
    refine sum_congr rfl fun q hq => ?_
    rw [sum_cis hN]
    simp only [dvd_sub_iff_eq hl (mem_range.1 hq), mul_ite, mul_zero, eq_comm]
  rw [this, sum_ite_eq', if_pos (mem_range.2 hl)]
  field_simp

theorem npFft_congr {a b : ℕ → ℂ} (h : ∀ j < N, a j = b j) (l : ℕ) : npFft N a l = npFft N b l :=
  sum_congr rfl fun j hj => by rw [h j (mem_range.1 hj)]

theorem npIfft_congr {a b : ℕ → ℂ} (h : ∀ j < N, a j = b j) (l : ℕ) : npIfft N a l = npIfft N b l := by
  rw [npIfft, npIfft]
  congr 1
  exact sum_congr rfl fun j hj => by rw [h j (mem_range.1 hj)]


/-! ### The discrete Hilbert transform of lines 42-48 -/
namespace SpecFact
variable {m : ℕ}

/-- The factor applied to entry `l` in lines 45-47. -/
noncomputable def sgn (m l : ℕ) : ℝ := if l = m / 2 then 0 else if l = 0 then 0 else if m / 2 ≤ l then -1 else 1

theorem mask_eq (m : ℕ) (a : ℕ → ℂ) (l : ℕ) : mask m a l = sgn m l * a l := by
  unfold mask sgn
  split_ifs <;> simp

/-- The transform as a real matrix. -/
noncomputable def kern (m k j : ℕ) : ℝ := (I * (∑ l ∈ range m, sgn m l * cis m (l * (k - j))) / m).re

theorem hilbert_eq (m : ℕ) (al : ℕ → ℝ) (k : ℕ) : hilbert m al k = ∑ j ∈ range m, kern m k j * al j := by
  have : npIfft m (fun l => I * mask m (npFft m fun j => (al j : ℂ)) l) k =
      ∑ j ∈ range m, (I * (∑ l ∈ range m, sgn m l * cis m (l * (k - j))) / m) * al j := by
    simp only [npIfft, npFft, mask_eq, mul_sum, sum_mul, sum_div]
    rw [sum_comm]
    refine sum_congr rfl fun j _ => sum_congr rfl fun l _ => ?_
    have : cis m (l * (k - j)) = cis m (-(j * l)) * cis m (l * k) := by rw [← cis_add]; congr 1; ring
    rw [this]; ring
  rw [hilbert, this, Complex.re_sum]
  exact sum_congr rfl fun j _ => by rw [Complex.re_mul_ofReal]; rfl

theorem hilbert_hasSum {ι : Type _} (f : ι → ℕ → ℝ) (al : ℕ → ℝ) (h : ∀ j < m, HasSum (fun i => f i j) (al j)) (k : ℕ) :
    HasSum (fun i => hilbert m (f i) k) (hilbert m al k) := by
  simp only [hilbert_eq]
  exact hasSum_sum fun j hj => (h j (mem_range.1 hj)).mul_left _

theorem hilbert_sum {ι : Type _} (s : Finset ι) (f : ι → ℕ → ℝ) (k : ℕ) :
    hilbert m (fun j => ∑ i ∈ s, f i j) k = ∑ i ∈ s, hilbert m (f i) k := by
  simp only [hilbert_eq, mul_sum]
  exact sum_comm

theorem hilbert_add (f g : ℕ → ℝ) (k : ℕ) : hilbert m (fun j => f j + g j) k = hilbert m f k + hilbert m g k := by
  simp only [hilbert_eq, mul_add, sum_add_distrib]

theorem hilbert_neg (f : ℕ → ℝ) (k : ℕ) : hilbert m (fun j => -f j) k = -hilbert m f k := by
  simp only [hilbert_eq, mul_neg, sum_neg_distrib]

theorem hilbert_congr {f g : ℕ → ℝ} (h : ∀ j < m, f j = g j) (k : ℕ) : hilbert m f k = hilbert m g k := by
  simp only [hilbert_eq]
  exact sum_congr rfl fun j hj => by rw [h j (mem_range.1 hj)]

theorem sgn_neg {M : ℕ} (hm : m = 2 * M) {q : ℕ} (hq : q < m) :
    sgn m ((m - q) % m) = -sgn m q := by
  rcases Nat.eq_zero_or_pos q with rfl | hq0
  · simp [sgn]
  rw [Nat.mod_eq_of_lt (by omega)]
  unfold sgn
  split_ifs <;> first | omega | simp

/-- The transform turns `Re(b e^{-2πi j q/m})` into `± Im(b e^{-2πi k q/m})`, with sign `+` for `0 < q mod m < m/2`. -/
theorem hilbert_char {M : ℕ} (hm : m = 2 * M) (hM : 0 < M) (b : ℂ) (q k : ℕ) :
    hilbert m (fun j => (b * cis m (-(j * q))).re) k = sgn m (q % m) * (b * cis m (-(q * k))).im := by
  have hm0 : 0 < m := by omega
  have hm' : (m : ℂ) ≠ 0 := by exact_mod_cast hm0.ne'
  have hfft : ∀ l < m, npFft m (fun j => (((b * cis m (-(j * q))).re : ℝ) : ℂ)) l =
      m / 2 * ((if l = (m - q % m) % m then b else 0) + (if l = q % m then (starRingEnd ℂ) b else 0)) := by
    intro l hl
    have h1 : npFft m (fun j => (((b * cis m (-(j * q))).re : ℝ) : ℂ)) l =
        (b * ∑ j ∈ range m, cis m (j * (-q - l)) + (starRingEnd ℂ) b * ∑ j ∈ range m, cis m (j * (q - l))) / 2 := by
      simp only [npFft, mul_sum, ← sum_add_distrib, sum_div]
      refine sum_congr rfl fun j _ => ?_
      rw [Complex.re_eq_add_conj, map_mul, ← cis_neg, neg_neg]
      have e1 : cis m (j * (-q - l)) = cis m (-(j * q)) * cis m (-(j * l)) := by rw [← cis_add]; congr 1; ring
      have e2 : cis m (j * (q - l)) = cis m (j * q) * cis m (-(j * l)) := by rw [← cis_add]; congr 1; ring
      rw [e1, e2]; ring
    have hlt := Nat.mod_lt q hm0
    have d2 : (m : ℤ) ∣ (q : ℤ) - l ↔ l = q % m := by
      rw [← Nat.modEq_iff_dvd, Nat.ModEq, Nat.mod_eq_of_lt hl]
    have d1 : (m : ℤ) ∣ (-(q : ℤ) - l) ↔ l = (m - q % m) % m := by
      have e : (m : ℤ) ∣ (-(q : ℤ) - l) ↔ m ∣ q % m + l := by
        rw [← dvd_neg, show -(-(q : ℤ) - l) = ((q + l : ℕ) : ℤ) by push_cast; ring, Int.natCast_dvd_natCast,
          Nat.dvd_iff_mod_eq_zero, Nat.dvd_iff_mod_eq_zero, Nat.mod_add_mod]
      rw [e]
      generalize q % m = q' at hlt ⊢
      have h3 : m ∣ q' + l ↔ q' + l = 0 ∨ q' + l = m := by
        constructor
        · rintro ⟨c, hc⟩
          have : c < 2 := by
            by_contra h
            have : m * 2 ≤ m * c := Nat.mul_le_mul_left m (by omega)
            omega
          interval_cases c
          · left; omega
          · right; omega
        · rintro (h | h)
          · rw [h]; exact dvd_zero _
          · rw [h]
      rw [h3]
      rcases Nat.eq_zero_or_pos q' with rfl | h0
      · simp only [Nat.sub_zero, Nat.mod_self]; omega
      · rw [Nat.mod_eq_of_lt (show m - q' < m by omega)]; omega
    rw [h1, sum_cis hm0, sum_cis hm0, if_congr d1 rfl rfl, if_congr d2 rfl rfl]
    split_ifs <;> ring
  have hlt := Nat.mod_lt q hm0
  have hlt2 := Nat.mod_lt (m - q % m) hm0
  have c2 : cis m ((q % m : ℕ) * k) = cis m (q * k) := by
    refine cis_congr hm0 ?_
    rw [← sub_mul]
    refine Dvd.dvd.mul_right ?_ _
    rw [← Nat.modEq_iff_dvd]; exact (Nat.mod_modEq q m).symm
  have c1 : cis m (((m - q % m) % m : ℕ) * k) = cis m (-(q * k)) := by
    refine cis_congr hm0 ?_
    rw [← neg_mul, ← sub_mul]
    refine Dvd.dvd.mul_right ?_ _
    have : (((m - q % m) % m : ℕ) : ℤ) - -(q : ℤ) = (((m - q % m) % m + q : ℕ) : ℤ) := by push_cast; ring
    rw [this, Int.natCast_dvd_natCast, Nat.dvd_iff_mod_eq_zero, Nat.mod_add_mod, ← Nat.add_mod_mod,
      Nat.sub_add_cancel hlt.le, Nat.mod_self]
  have h2 : npIfft m (fun l => I * mask m (npFft m fun j => (((b * cis m (-(j * q))).re : ℝ) : ℂ)) l) k =
      I / 2 * (sgn m (q % m) * ((starRingEnd ℂ) (b * cis m (-(q * k))) - b * cis m (-(q * k)))) := by
    have e1 : ∀ l ∈ range m, I * mask m (npFft m fun j => (((b * cis m (-(j * q))).re : ℝ) : ℂ)) l * cis m (l * k) =
        (if l = (m - q % m) % m then I * sgn m l * (m / 2) * b * cis m (l * k) else 0) +
        (if l = q % m then I * sgn m l * (m / 2) * (starRingEnd ℂ) b * cis m (l * k) else 0) := by
      intro l hl
      rw [mask_eq, hfft l (mem_range.1 hl)]
      split_ifs <;> ring
    rw [npIfft, sum_congr rfl e1, sum_add_distrib, sum_ite_eq', sum_ite_eq', if_pos (mem_range.2 hlt),
      if_pos (mem_range.2 hlt2), c1, c2, sgn_neg hm hlt, map_mul, ← cis_neg, neg_neg]
    push_cast
    field_simp
    ring
  rw [hilbert, h2]
  generalize b * cis m (-(q * k)) = z
  have : I / 2 * (sgn m (q % m) * ((starRingEnd ℂ) z - z)) = ((sgn m (q % m) * z.im : ℝ) : ℂ) := by
    have : (starRingEnd ℂ) z - z = -(2 * z.im * I) := by
      apply Complex.ext <;> simp; ring
    rw [this]
    push_cast
    linear_combination (-(sgn m (q % m)) * z.im : ℂ) * I_mul_I
  rw [this, Complex.ofReal_re]

end SpecFact
end Verif
