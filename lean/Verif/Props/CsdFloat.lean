import Verif.Model.CsdFloat
import Verif.Proofs.Float
import Verif.Props.CsdFixed

/-!
# Signed digits in floating point (C110)
-/
namespace Verif
open CsdSpec FloatSpec
variable {b : ℕ} {fl : ℚ → ℚ}

/-! ### One round -/

theorem digitF_pos (hfl : Rounding b fl) {v : ℚ} {k : ℤ} (h : (2 : ℚ) ^ k < fl (3 / 2 * v)) : 2 ^ k < 3 / 2 * v := by
  by_contra hc
  have := hfl.mono (not_lt.1 hc)
  rw [hfl.exact _ (rep_pow k)] at this
  linarith

theorem digitF_neg (hfl : Rounding b fl) {v : ℚ} {k : ℤ} (h : fl (3 / 2 * v) < -(2 : ℚ) ^ k) : 3 / 2 * v < -2 ^ k := by
  by_contra hc
  have := hfl.mono (not_lt.1 hc)
  rw [hfl.exact _ (rep_pow k).neg] at this
  linarith

theorem rep_three_halves (hb : 2 ≤ b) (k : ℤ) : Rep b (3 / 2 * (2 : ℚ) ^ k) := by
  refine ⟨3, k - 1, ?_, ?_⟩
  · have : (2 : ℤ) ^ 2 ≤ 2 ^ b := pow_le_pow_right₀ (by norm_num) hb
    norm_num at this ⊢
    linarith
  · rw [zpow_sub₀ two_ne_zero]; norm_num; ring

/-- Sterbenz: subtracting a power of two from a number between two thirds of it and twice it is exact. -/
theorem rep_sub_pow {v : ℚ} (hv : Rep b v) {k : ℤ} (h1 : (2 : ℚ) ^ k < 3 / 2 * v) (h2 : v < 2 * 2 ^ k) :
    Rep b (v - 2 ^ k) := by
  obtain ⟨m, e, hm, rfl⟩ := hv
  have hE : (0 : ℚ) < 2 ^ e := zpow_pos two_pos _
  have hK : (0 : ℚ) < 2 ^ k := zpow_pos two_pos _
  rcases le_or_gt e k with h | h
  · obtain ⟨j, rfl⟩ := Int.le.dest h
    have e1 : (2 : ℚ) ^ (e + (j : ℤ)) = 2 ^ j * 2 ^ e := by rw [zpow_add₀ two_ne_zero, zpow_natCast]; ring
    rw [e1] at h1 h2 ⊢
    have h3 : (2 : ℚ) ^ j < 3 / 2 * m := by nlinarith
    have h4 : (m : ℚ) < 2 * 2 ^ j := by nlinarith
    have h3' : (2 : ℤ) * 2 ^ j < 3 * m := by
      have : (2 : ℚ) * 2 ^ j < 3 * m := by linarith
      exact_mod_cast this
    have h4' : m < 2 * 2 ^ j := by exact_mod_cast h4
    have hj : (0 : ℤ) < 2 ^ j := by positivity
    refine ⟨m - 2 ^ j, e, ?_, by push_cast; ring⟩
    rw [abs_le] at hm ⊢
    constructor <;> omega
  · exfalso
    have hm0 : (0 : ℚ) < m := by
      by_contra hc
      nlinarith
    have hm1 : (1 : ℚ) ≤ m := by exact_mod_cast (by exact_mod_cast hm0 : (0 : ℤ) < m)
    have : (2 : ℚ) * 2 ^ k ≤ 2 ^ e := by
      rw [← zpow_one_add₀ two_ne_zero]
      exact zpow_le_zpow_right₀ (by norm_num) (by omega)
    nlinarith

/-- One round on a representable number below twice the digit weight: the digit is legal, the subtraction is exact, the rest is smaller than the digit weight, and
a nonzero digit at least halves the number. -/
theorem stepF (hfl : Rounding b fl) (hb : 2 ≤ b) {v : ℚ} (hv : Rep b v) {k : ℤ} (hlt : |v| < 2 * 2 ^ k) :
    Dig (csdDigitF fl v (2 ^ k)) ∧ csdSubF fl v (2 ^ k) (csdDigitF fl v (2 ^ k)) = v - csdDigitF fl v (2 ^ k) * 2 ^ k ∧
      Rep b (v - csdDigitF fl v (2 ^ k) * 2 ^ k) ∧ |v - csdDigitF fl v (2 ^ k) * 2 ^ k| < 2 ^ k ∧
      (csdDigitF fl v (2 ^ k) ≠ 0 → |v - csdDigitF fl v (2 ^ k) * 2 ^ k| ≤ |v| / 2) := by
  have hK : (0 : ℚ) < 2 ^ k := zpow_pos two_pos _
  obtain ⟨l1, l2⟩ := abs_lt.1 hlt
  simp only [csdDigitF]
  by_cases h1 : (2 : ℚ) ^ k < fl (3 / 2 * v)
  · have h := digitF_pos hfl h1
    have hr := rep_sub_pow hv h l2
    simp only [if_pos h1, csdSubF, if_true, Int.cast_one, one_mul]
    refine ⟨.inl rfl, hfl.exact _ hr, hr, abs_lt.2 ⟨by linarith, by linarith⟩, fun _ => ?_⟩
    rw [abs_of_pos (by linarith : 0 < v), abs_le]
    constructor <;> linarith
  by_cases h2 : fl (3 / 2 * v) < -(2 : ℚ) ^ k
  · have h := digitF_neg hfl h2
    have hr : Rep b (v + 2 ^ k) := by
      have := (rep_sub_pow hv.neg (k := k) (by linarith) (by linarith)).neg
      rwa [show -(-v - (2 : ℚ) ^ k) = v + 2 ^ k by ring] at this
    simp only [if_neg h1, if_pos h2, csdSubF, show ¬ (-1 : ℤ) = 1 by decide, if_false, if_true, Int.cast_neg, Int.cast_one, neg_mul, one_mul, sub_neg_eq_add]
    refine ⟨.inr (.inl rfl), hfl.exact _ hr, hr, abs_lt.2 ⟨by linarith, by linarith⟩, fun _ => ?_⟩
    rw [abs_of_neg (by linarith : v < 0), abs_le]
    constructor <;> linarith
  · simp only [if_neg h1, if_neg h2, csdSubF, show ¬ (0 : ℤ) = 1 by decide, show ¬ (0 : ℤ) = -1 by decide, if_false, Int.cast_zero, zero_mul, sub_zero]
    refine ⟨.inr (.inr rfl), trivial, hv, ?_, fun h => absurd rfl h⟩
    have hr := rep_three_halves hb k
    rw [abs_lt]
    constructor
    · by_contra hc
      have := hfl.mono (show 3 / 2 * v ≤ -(3 / 2 * 2 ^ k) by linarith)
      rw [hfl.exact _ hr.neg] at this
      exact h2 (by linarith)
    · by_contra hc
      have := hfl.mono (show 3 / 2 * 2 ^ k ≤ 3 / 2 * v by linarith)
      rw [hfl.exact _ hr] at this
      exact h1 (by linarith)

theorem halfF (hfl : Rounding b fl) (k : ℤ) : fl ((2 : ℚ) ^ k / 2) = 2 ^ (k - 1) := by
  rw [show (2 : ℚ) ^ k / 2 = 2 ^ (k - 1) by rw [zpow_sub₀ two_ne_zero, zpow_one], hfl.exact _ (rep_pow _)]

theorem half_pow (k : ℤ) : (2 : ℚ) ^ k / 2 = 2 ^ (k - 1) := by rw [zpow_sub₀ two_ne_zero, zpow_one]

/-! ### The loops -/

theorem csdLoopF_spec (hfl : Rounding b fl) (hb : 2 ≤ b) (places : ℤ) (fuel : ℕ) (n : ℤ) {v : ℚ} (hv : Rep b v) {k : ℤ} (hlt : |v| < 2 * 2 ^ k)
    (s : List Char) (hf : n + places ≤ fuel) :
    ∃ ds : List ℤ, csdLoopF fl places fuel n v (2 ^ k) s = s ++ renderAt n ds ∧ ds.length = (n + places).toNat ∧ (∀ d ∈ ds, Dig d) ∧
      |v - posVal (2 ^ k) ds| < 2 * 2 ^ k / 2 ^ ds.length := by
  induction fuel generalizing n v k s with
  | zero =>
    have : (n + places).toNat = 0 := by omega
    exact ⟨[], by simp [csdLoopF, renderAt], by simp [this], by simp, by simpa [posVal] using hlt⟩
  | succ f ih =>
    by_cases hc : -places < n
    · obtain ⟨h1, h2, h3, h4, -⟩ := stepF hfl hb hv hlt
      simp only [csdLoopF]
      rw [if_pos hc, halfF hfl, h2]
      obtain ⟨ds, e1, e2, e3, e4⟩ := ih (n - 1) h3 (k := k - 1) (by rw [← half_pow]; linarith)
        ((if n = 0 then s ++ ['.'] else s) ++ [digitChar (csdDigitF fl v (2 ^ k))]) (by push_cast at hf; omega)
      refine ⟨csdDigitF fl v (2 ^ k) :: ds, ?_, ?_, ?_, ?_⟩
      · rw [e1]; simp only [renderAt]; split_ifs <;> simp
      · simp only [List.length_cons, e2]; omega
      · intro d hd
        rcases List.mem_cons.1 hd with rfl | hd
        · exact h1
        · exact e3 d hd
      · simp only [posVal, List.length_cons, half_pow, pow_succ]
        rw [← half_pow] at e4 ⊢
        rw [show v - (csdDigitF fl v (2 ^ k) * 2 ^ k + posVal (2 ^ k / 2) ds) = v - csdDigitF fl v (2 ^ k) * 2 ^ k - posVal (2 ^ k / 2) ds by ring]
        refine e4.trans_eq ?_
        field_simp
    · have : (n + places).toNat = 0 := by omega
      refine ⟨[], ?_, by simp [this], by simp, by simpa [posVal] using hlt⟩
      simp only [csdLoopF]
      rw [if_neg hc]
      simp [renderAt]

/-- What is needed of the computed `ceil(log(1.5 * |v|, 2))`: as an estimate `n` of the binary size it is not too small.  (The exact value satisfies
`|v| ≤ 2/3 * 2^n`, so an error of less than one half in the logarithm is harmless.) -/
def SizeOk (fl : ℚ → ℚ) (clog2 : ℚ → ℤ) (v : ℚ) : Prop := 1 ≤ |v| → |v| < 2 ^ clog2 (fl (|v| * (3 / 2)))

theorem csdLenF_bound {clog2 : ℚ → ℤ} {v : ℚ} (hlog : SizeOk fl clog2 v) :
    0 ≤ csdLenF fl clog2 |v| ∧ |v| < 2 * 2 ^ (csdLenF fl clog2 |v| - 1) ∧ (|v| < 1 ↔ csdLenF fl clog2 |v| = 0) := by
  unfold csdLenF
  rw [← half_pow, mul_div_cancel₀ _ (two_ne_zero)]
  by_cases h : |v| < 1
  · simp [h]
  · have h1 := hlog (not_lt.1 h)
    rw [if_neg h]
    have : 0 < clog2 (fl (|v| * (3 / 2))) := by
      by_contra hc
      have : (2 : ℚ) ^ clog2 (fl (|v| * (3 / 2))) ≤ 2 ^ (0 : ℤ) := zpow_le_zpow_right₀ (by norm_num) (by omega)
      rw [zpow_zero] at this
      linarith [not_lt.1 h]
    exact ⟨this.le, h1, by simp only [h, false_iff]; omega⟩

theorem denotes_zero : Denotes ['0'] (0 : ℚ) := by
  have := Denotes.int (α := ℚ) ['0'] (by decide)
  have e : (((intVal ['0'] : ℤ)) : ℚ) = 0 := by simp [intVal, digVal]
  rwa [e] at this

theorem toCsdF_text (hfl : Rounding b fl) (hb : 2 ≤ b) {clog2 : ℚ → ℤ} {v : ℚ} (hv : Rep b v) (hlog : SizeOk fl clog2 v) (hv0 : v ≠ 0) (places : ℕ) :
    ∃ ds : List ℤ, toCsdF fl clog2 v places = csdText (csdLenF fl clog2 |v|).toNat ds ∧ ds.length = (csdLenF fl clog2 |v|).toNat + places ∧
      (∀ d ∈ ds, Dig d) ∧ |v - posVal (2 ^ (csdLenF fl clog2 |v| - 1)) ds| < 1 / 2 ^ places := by
  obtain ⟨h1, h2, h3⟩ := csdLenF_bound hlog
  have hnat : (((csdLenF fl clog2 |v|).toNat : ℕ) : ℤ) = csdLenF fl clog2 |v| := Int.toNat_of_nonneg h1
  obtain ⟨ds, e1, e2, e3, e4⟩ := csdLoopF_spec hfl hb places (csdLenF fl clog2 |v| + places).toNat (csdLenF fl clog2 |v|) hv h2
    (if |v| < 1 then ['0'] else []) (Int.self_le_toNat _)
  have e2' : ds.length = (csdLenF fl clog2 |v|).toNat + places := by omega
  refine ⟨ds, ?_, e2', e3, e4.trans_eq ?_⟩
  · unfold toCsdF csdText
    rw [if_neg hv0]
    dsimp only
    rw [e1, hnat]
    congr 1
    by_cases h : |v| < 1
    · rw [if_pos h, if_pos (by rw [h3.1 h]; rfl)]
    · rw [if_neg h, if_neg fun h0 => h (h3.2 (by omega))]
  · rw [e2', zpow_sub₀ two_ne_zero, pow_add, zpow_one]
    conv_lhs => rw [← hnat]
    rw [zpow_natCast]
    simp only [Int.toNat_natCast]
    field_simp

/-- **C110** Accuracy of `to_csd` in floating point.  For every rounding with at least two bits, every representable number, every usable size estimate and number
of places, the text is a legal signed-digit string whose value is within `2^-places` of the number.  (No rounding error enters the bound: the
subtractions are exact, and a comparison decided the wrong way by the rounding of `1.5 * dec_val` is repaired by the later digits.) -/
theorem C110_to_csd_error (hfl : Rounding b fl) (hb : 2 ≤ b) {clog2 : ℚ → ℤ} {v : ℚ} (hv : Rep b v) (hlog : SizeOk fl clog2 v) (places : ℕ) :
    ∃ q : ℚ, Denotes (toCsdF fl clog2 v places) q ∧ |v - q| < 1 / 2 ^ places ∧ ∃ z : ℤ, q = z / 2 ^ places := by
  by_cases hv0 : v = 0
  · subst hv0
    refine ⟨0, ?_, by simp, 0, by simp⟩
    simp only [toCsdF, if_true]
    exact denotes_zero
  · obtain ⟨ds, h1, h2, h3, h4⟩ := toCsdF_text hfl hb hv hlog hv0 places
    obtain ⟨k1, -, -⟩ := csdLenF_bound hlog
    have hnat : (((csdLenF fl clog2 |v|).toNat : ℕ) : ℤ) = csdLenF fl clog2 |v| := Int.toNat_of_nonneg k1
    generalize hN : (csdLenF fl clog2 |v|).toNat = N at *
    have hden := csdText_denotes (α := ℚ) N ds h3 (by omega)
    rw [hnat] at hden
    refine ⟨_, h1 ▸ hden, h4, intVal (ds.map digitChar), ?_⟩
    rw [posVal_intVal _ _ h3, h2, ← hnat, zpow_sub₀ two_ne_zero, zpow_natCast, pow_add]
    field_simp

/-- **C110** A number with `places` binary places is converted without error, in particular every representable integer. -/
theorem C110_to_csd_exact_value (hfl : Rounding b fl) (hb : 2 ≤ b) {clog2 : ℚ → ℤ} (z : ℤ) (places : ℕ)
    (hv : Rep b ((z : ℚ) / 2 ^ places)) (hlog : SizeOk fl clog2 ((z : ℚ) / 2 ^ places)) :
    Denotes (toCsdF fl clog2 ((z : ℚ) / 2 ^ places) places) ((z : ℚ) / 2 ^ places) := by
  obtain ⟨q, h1, h2, y, rfl⟩ := C110_to_csd_error hfl hb hv hlog places
  rw [← sub_div, abs_div, abs_of_pos (by positivity : (0 : ℚ) < 2 ^ places), div_lt_div_iff_of_pos_right (by positivity)] at h2
  have h3 : |z - y| < 1 := by exact_mod_cast h2
  have h4 : z = y := by have := Int.abs_lt_one_iff.1 h3; omega
  subst h4
  exact h1

/-! ### `to_decimal` -/

theorem decLoopF_eq (hfl : Rounding b fl) (s : List Char) (i : ℕ) (z : ℤ) (loc : ℕ) (hz : |z| < 2 ^ i) (hlen : i + s.length ≤ b) :
    decLoopF fl i z loc s = decLoop i (z : ℚ) loc s ∧
      ∀ v loc', decLoop i (z : ℚ) loc s = .ok (v, loc') → ∃ y : ℤ, |y| < 2 ^ b ∧ v = y := by
  induction s generalizing i z loc with
  | nil =>
    refine ⟨rfl, fun v loc' h => ?_⟩
    simp only [decLoop, Except.ok.injEq, Prod.mk.injEq] at h
    exact ⟨z, hz.trans_le (pow_le_pow_right₀ (by norm_num) (by simpa using hlen)), h.1.symm⟩
  | cons c s ih =>
    rw [List.length_cons] at hlen
    have hp : (2 : ℤ) ^ (i + 1) ≤ 2 ^ b := pow_le_pow_right₀ (by norm_num) (by omega)
    rw [abs_lt] at hz
    have hs : (2 : ℤ) ^ (i + 1) = 2 * 2 ^ i := by ring
    have b0 : |z * 2| < 2 ^ (i + 1) := by rw [abs_lt]; constructor <;> omega
    have b1 : |z * 2 + 1| < 2 ^ (i + 1) := by rw [abs_lt]; constructor <;> omega
    have b2 : |z * 2 - 1| < 2 ^ (i + 1) := by rw [abs_lt]; constructor <;> omega
    have b3 : |z| < 2 ^ (i + 1) := by rw [abs_lt]; constructor <;> omega
    have f0 : fl ((z : ℚ) * 2) = ((z * 2 : ℤ) : ℚ) := by
      rw [← hfl.exact _ (rep_int (p := b) (b0.le.trans hp))]; push_cast; rfl
    have f1 : fl (((z * 2 : ℤ) : ℚ) + 1) = ((z * 2 + 1 : ℤ) : ℚ) := by
      rw [← hfl.exact _ (rep_int (p := b) (b1.le.trans hp))]; push_cast; rfl
    have f2 : fl (((z * 2 : ℤ) : ℚ) - 1) = ((z * 2 - 1 : ℤ) : ℚ) := by
      rw [← hfl.exact _ (rep_int (p := b) (b2.le.trans hp))]; push_cast; rfl
    have f3 : fl (((z * 2 : ℤ) : ℚ) / 2) = (z : ℚ) := by
      rw [← hfl.exact _ (rep_int (p := b) (b3.le.trans hp))]
      congr 1
      push_cast
      ring
    have g0 : (z : ℚ) * 2 = ((z * 2 : ℤ) : ℚ) := by push_cast; rfl
    have g1 : ((z * 2 : ℤ) : ℚ) + 1 = ((z * 2 + 1 : ℤ) : ℚ) := by push_cast; rfl
    have g2 : ((z * 2 : ℤ) : ℚ) - 1 = ((z * 2 - 1 : ℤ) : ℚ) := by push_cast; rfl
    have g3 : ((z * 2 : ℤ) : ℚ) / 2 = (z : ℚ) := by push_cast; ring
    simp only [decLoopF, decLoop, f0, f1, f2, f3]
    simp only [g0, g1, g2, g3]
    split_ifs
    · exact ih (i + 1) _ loc b1 (by omega)
    · exact ih (i + 1) _ loc b2 (by omega)
    · exact ih (i + 1) _ loc b0 (by omega)
    · exact ih (i + 1) _ (i + 1) b3 (by omega)
    · exact ⟨rfl, by simp⟩

/-- **C110** `to_decimal` in floating point is exact on every string, legal or not, of at most as many characters as there are significant bits. -/
theorem C110_to_decimal (hfl : Rounding b fl) (s : List Char) (hlen : s.length ≤ b) : toDecimalF fl s = toDecimal (α := ℚ) s := by
  obtain ⟨h1, h2⟩ := decLoopF_eq hfl s 0 0 0 (by simp) (by simpa using hlen)
  simp only [Int.cast_zero] at h1 h2
  unfold toDecimalF toDecimal
  rw [h1]
  split
  · rename_i h; simp [h]
  · rename_i v loc h
    obtain ⟨y, hy, rfl⟩ := h2 v loc h
    simp only [h]
    split_ifs
    · rw [hfl.exact]
      refine ⟨y, -((s.length - loc : ℕ) : ℤ), hy.le, ?_⟩
      rw [zpow_neg, zpow_natCast, div_eq_mul_inv]
    · rfl

theorem toCsdF_length (hfl : Rounding b fl) (hb : 2 ≤ b) {clog2 : ℚ → ℤ} {v : ℚ} (hv : Rep b v) (hlog : SizeOk fl clog2 v) (places : ℕ) :
    (toCsdF fl clog2 v places).length ≤ (csdLenF fl clog2 |v|).toNat + places + 2 := by
  by_cases hv0 : v = 0
  · subst hv0; simp [toCsdF]
  obtain ⟨ds, h1, h2, h3, h4⟩ := toCsdF_text hfl hb hv hlog hv0 places
  rw [h1, csdText, renderAt_eq]
  split_ifs <;> simp [h2] <;> omega

/-- **C110** Round trip in floating point: a number with `places` binary places survives `to_csd` followed by `to_decimal`, both computed with rounding,
as long as the text fits in the significand (51 digits for doubles). -/
theorem C110_round_trip (hfl : Rounding b fl) (hb : 2 ≤ b) {clog2 : ℚ → ℤ} (z : ℤ) (places : ℕ)
    (hv : Rep b ((z : ℚ) / 2 ^ places)) (hlog : SizeOk fl clog2 ((z : ℚ) / 2 ^ places))
    (hlen : (csdLenF fl clog2 |(z : ℚ) / 2 ^ places|).toNat + places + 2 ≤ b) :
    toDecimalF fl (toCsdF fl clog2 ((z : ℚ) / 2 ^ places) places) = .ok ((z : ℚ) / 2 ^ places) := by
  rw [C110_to_decimal hfl _ ((toCsdF_length hfl hb hv hlog places).trans hlen)]
  exact toDecimal_denotes (C110_to_csd_exact_value hfl hb z places hv hlog)

/-! ### When the rounded computation is the exact one -/

theorem digitF_exact (hfl : Rounding b fl) {v p : ℚ} (h : Rep b (3 / 2 * v)) : csdDigitF fl v p = csdDigit v p := by
  simp only [csdDigitF, csdDigit, hfl.exact _ h]

theorem csdLoopF_exact (hfl : Rounding b fl) (hb : 2 ≤ b) (places : ℤ) (q : ℤ) (fuel : ℕ) (n : ℤ) {m : ℤ} (hm : 3 * |m| ≤ 2 ^ b) {k : ℤ}
    (hlt : |(m : ℚ) * 2 ^ q| < 2 * 2 ^ k) (s : List Char) :
    csdLoopF fl places fuel n ((m : ℚ) * 2 ^ q) (2 ^ k) s = csdLoop places fuel n ((m : ℚ) * 2 ^ q) (2 ^ k) s := by
  induction fuel generalizing n m k s with
  | zero => rfl
  | succ f ih =>
    have hQ : (0 : ℚ) < 2 ^ q := zpow_pos two_pos _
    have hr : Rep b (3 / 2 * ((m : ℚ) * 2 ^ q)) :=
      ⟨3 * m, q - 1, by rw [abs_mul]; simpa using hm, by rw [← half_pow]; push_cast; ring⟩
    have hr0 : Rep b ((m : ℚ) * 2 ^ q) := ⟨m, q, by have := abs_nonneg m; omega, rfl⟩
    obtain ⟨-, h2, h3, h4, h5⟩ := stepF hfl hb hr0 hlt
    simp only [csdLoopF, csdLoop]
    rw [h2, halfF hfl, half_pow, digitF_exact hfl hr]
    rw [digitF_exact hfl hr] at h4 h5
    split_ifs
    all_goals try rfl
    all_goals
      by_cases hd : csdDigit ((m : ℚ) * 2 ^ q) (2 ^ k) = 0
      · rw [hd] at h4 ⊢
        simp only [Int.cast_zero, zero_mul, sub_zero] at h4 ⊢
        exact ih _ hm (by rw [← half_pow]; linarith) _
      · have hqk : q ≤ k := by
          by_contra hc
          have hm0 : m = 0 := by
            by_contra hm0
            have h1 : (1 : ℚ) ≤ |(m : ℚ)| := by exact_mod_cast Int.one_le_abs hm0
            rw [abs_mul, abs_of_pos hQ] at hlt
            have : (2 : ℚ) * 2 ^ k ≤ 2 ^ q := by
              rw [← zpow_one_add₀ two_ne_zero]
              exact zpow_le_zpow_right₀ (by norm_num) (by omega)
            nlinarith
          subst hm0
          apply hd
          rw [csdDigit_eq_zero_iff (zpow_pos two_pos _)]
          simp only [Int.cast_zero, zero_mul, abs_zero]
          positivity
        obtain ⟨j, rfl⟩ := Int.le.dest hqk
        have e : (m : ℚ) * 2 ^ q - csdDigit ((m : ℚ) * 2 ^ q) (2 ^ (q + (j : ℤ))) * 2 ^ (q + (j : ℤ)) =
            ((m - csdDigit ((m : ℚ) * 2 ^ q) (2 ^ (q + (j : ℤ))) * 2 ^ j : ℤ) : ℚ) * 2 ^ q := by
          push_cast; rw [zpow_add₀ two_ne_zero, zpow_natCast]; ring
        have h6 := h5 hd
        rw [e] at h4 h6 ⊢
        refine ih _ ?_ (by rw [← half_pow]; linarith) _
        rw [abs_mul, abs_mul, abs_of_pos hQ, mul_div_right_comm] at h6
        have h7 := le_of_mul_le_mul_right h6 hQ
        have h8 : |m - csdDigit ((m : ℚ) * 2 ^ q) (2 ^ (q + (j : ℤ))) * 2 ^ j| ≤ |m| := by
          have : |((m - csdDigit ((m : ℚ) * 2 ^ q) (2 ^ (q + (j : ℤ))) * 2 ^ j : ℤ) : ℚ)| ≤ |(m : ℚ)| :=
            h7.trans (half_le_self (abs_nonneg _))
          exact_mod_cast this
        omega

/-- **C110** For numbers with two bits to spare (`v = m·2^q` with `3|m| ≤ 2^b`), and an exact logarithm, the rounded computation writes the very
string of the exact one, for any number of places; so everything proved for exact arithmetic (C56 - C59, C64) holds for the floating-point program there. -/
theorem C110_same_string (hfl : Rounding b fl) (hb : 2 ≤ b) {clog2 : ℚ → ℤ} {m q : ℤ} (hm : 3 * |m| ≤ 2 ^ b)
    (hlog : 1 ≤ |(m : ℚ) * 2 ^ q| → clog2 (|(m : ℚ) * 2 ^ q| * (3 / 2)) = Int.clog 2 (|(m : ℚ) * 2 ^ q| * (3 / 2))) (places : ℤ) :
    toCsdF fl clog2 ((m : ℚ) * 2 ^ q) places = toCsd ((m : ℚ) * 2 ^ q) places := by
  have hQ : (0 : ℚ) < 2 ^ q := zpow_pos two_pos _
  have hlen : csdLenF fl clog2 |(m : ℚ) * 2 ^ q| = csdLen |(m : ℚ) * 2 ^ q| := by
    unfold csdLenF csdLen
    split_ifs with h
    · rfl
    · rw [hfl.exact, hlog (not_lt.1 h)]
      refine ⟨3 * |m|, q - 1, by rw [abs_mul, abs_abs]; simpa using hm, ?_⟩
      rw [abs_mul, abs_of_pos hQ, ← half_pow]; push_cast; ring
  unfold toCsdF toCsd
  dsimp only
  rw [hlen]
  split_ifs
  · rfl
  · exact csdLoopF_exact hfl hb _ _ _ _ hm (csdLen_bound _) _
  · exact csdLoopF_exact hfl hb _ _ _ _ hm (csdLen_bound _) _

/-! ### The canonical form can be lost -/

/-- The IEEE rounding of `2^53 + 1` is `2^53`. -/
theorem ieee_tie : ieee 53 (2 ^ 53 + 1 : ℚ) = 2 ^ 53 := by
  have hlog : Int.log 2 |(2 ^ 53 + 1 : ℚ)| = 53 := by
    rw [abs_of_pos (by norm_num)]
    have h1 : (53 : ℤ) ≤ Int.log 2 (2 ^ 53 + 1 : ℚ) := by
      rw [← Int.zpow_le_iff_le_log (by norm_num) (by norm_num)]; norm_num
    have h2 : Int.log 2 (2 ^ 53 + 1 : ℚ) < 54 := by
      rw [← Int.lt_zpow_iff_log_lt (by norm_num) (by norm_num)]; norm_num
    omega
  unfold ieee
  rw [if_neg (by norm_num)]
  dsimp only
  rw [hlog]
  have hf : ⌊(2 ^ 53 + 1 : ℚ) / 2 ^ ((53 : ℤ) - ((53 : ℕ) - 1))⌋ = 2 ^ 52 := by
    rw [Int.floor_eq_iff]; norm_num
  have hr : Int.fract ((2 ^ 53 + 1 : ℚ) / 2 ^ ((53 : ℤ) - ((53 : ℕ) - 1))) = 1 / 2 := by
    rw [← Int.self_sub_floor, hf]; norm_num
  unfold evenRound
  rw [hf, hr]
  norm_num
  exact ⟨2251799813685248, by norm_num⟩

/-- **C110** (finding) In double precision `to_csd` is not canonical for `6004799503160662 = (2^54 + 2)/3`: the product `1.5 * 6004799503160662 = 2^53 + 1` is rounded
to `2^53`, so the size comes out one too small and the string starts with two adjacent `+`.  Exact arithmetic would give a canonical string. -/
theorem C110_not_canonical (hfl : Rounding 53 fl) (htie : fl (2 ^ 53 + 1) = 2 ^ 53) {clog2 : ℚ → ℤ} (hlog : clog2 (2 ^ 53) = 53) :
    ¬ Canonical (toCsdF fl clog2 6004799503160662 0) ∧ Canonical (toCsd (6004799503160662 : ℚ) 0) := by
  constructor
  swap
  · have := C58_canonical_iff (6004799503160662 : ℚ) 0
    simp only [Nat.cast_zero] at this
    rw [this]; norm_num
  have e0 : csdLenF fl clog2 |(6004799503160662 : ℚ)| = 53 := by
    unfold csdLenF
    rw [if_neg (by norm_num), abs_of_pos (by norm_num), show (6004799503160662 : ℚ) * (3 / 2) = 2 ^ 53 + 1 by norm_num, htie, hlog]
  have d1 : csdDigitF fl 6004799503160662 (2 ^ (52 : ℤ)) = 1 := by
    simp only [csdDigitF]
    rw [show (3 / 2 : ℚ) * 6004799503160662 = 2 ^ 53 + 1 by norm_num, htie, if_pos (by norm_num)]
  have r1 : fl (1501199875790166 : ℚ) = 1501199875790166 := hfl.exact _ ⟨1501199875790166, 0, by norm_num, by norm_num⟩
  have d2 : csdDigitF fl 1501199875790166 (2 ^ (51 : ℤ)) = 1 := by
    simp only [csdDigitF]
    rw [show (3 / 2 : ℚ) * 1501199875790166 = 2251799813685249 by norm_num,
      hfl.exact _ ⟨2251799813685249, 0, by norm_num, by norm_num⟩, if_pos (by norm_num)]
  have r2 : fl (-750599937895082 : ℚ) = -750599937895082 := hfl.exact _ ⟨-750599937895082, 0, by norm_num, by norm_num⟩
  obtain ⟨ds, h, -⟩ := csdLoopF_spec hfl (by norm_num) 0 51 51 (v := -750599937895082) ⟨-750599937895082, 0, by norm_num, by norm_num⟩
    (k := 50) (by rw [abs_of_neg] <;> norm_num) ['+', '+'] (by norm_num)
  have htext : toCsdF fl clog2 6004799503160662 0 = ['+', '+'] ++ renderAt 51 ds := by
    unfold toCsdF
    rw [if_neg (by norm_num)]
    dsimp only
    rw [e0, if_neg (by norm_num), show ((53 : ℤ) + 0).toNat = 51 + 1 + 1 from rfl, show (53 : ℤ) - 1 = 52 by norm_num]
    rw [csdLoopF, if_pos (by norm_num), if_neg (by norm_num)]
    dsimp only
    rw [d1, halfF hfl, csdSubF, if_pos rfl, show (6004799503160662 : ℚ) - 2 ^ (52 : ℤ) = 1501199875790166 by norm_num, r1,
      show (52 : ℤ) - 1 = 51 by norm_num, show (53 : ℤ) - 1 = 52 by norm_num]
    rw [csdLoopF, if_pos (by norm_num), if_neg (by norm_num)]
    dsimp only
    rw [d2, halfF hfl, csdSubF, if_pos rfl, show (1501199875790166 : ℚ) - 2 ^ (51 : ℤ) = -750599937895082 by norm_num, r2,
      show (51 : ℤ) - 1 = 50 by norm_num, show (52 : ℤ) - 1 = 51 by norm_num]
    exact h
  intro hc
  unfold Canonical digits at hc
  rw [htext, List.filter_append] at hc
  have : (['+', '+'].filter fun c => decide (c ≠ '.')) = ['+', '+'] := by decide
  rw [this] at hc
  simp only [List.cons_append, List.nil_append, List.isChain_cons_cons] at hc
  simp at hc

/-! ### `to_csdfixed` -/

theorem fixedLoopF_mono {eps : ℚ} (fuel fuel' : ℕ) (h : fuel ≤ fuel') (n : ℤ) (v p : ℚ) (nnz : ℤ) (s t : List Char)
    (hr : fixedLoopF fl eps fuel n v p nnz s = some t) : fixedLoopF fl eps fuel' n v p nnz s = some t := by
  induction fuel generalizing fuel' n v p nnz s with
  | zero =>
    simp only [fixedLoopF] at hr
    by_cases hc : 0 < n ∨ (0 < nnz ∧ eps < |v|)
    · rw [if_pos hc] at hr; simp at hr
    · rw [if_neg hc] at hr
      rcases fuel' with _ | k <;> simp only [fixedLoopF] <;> rw [if_neg hc] <;> exact hr
  | succ k ih =>
    obtain ⟨k', rfl⟩ : ∃ k', fuel' = k' + 1 := ⟨fuel' - 1, by omega⟩
    simp only [fixedLoopF] at hr ⊢
    by_cases hc : 0 < n ∨ (0 < nnz ∧ eps < |v|)
    · rw [if_pos hc] at hr ⊢
      exact ih k' (by omega) _ _ _ _ _ hr
    · rw [if_neg hc] at hr ⊢
      exact hr

theorem fixedLoopF_ends (hfl : Rounding b fl) (hb : 2 ≤ b) {eps : ℚ} (fuel : ℕ) (n : ℤ) {v : ℚ} (hv : Rep b v) {k : ℤ} (hlt : |v| < 2 * 2 ^ k)
    (nnz : ℤ) (s : List Char) (hn : n ≤ fuel) (hf : 2 * 2 ^ k / 2 ^ fuel ≤ eps) : ∃ t, fixedLoopF fl eps fuel n v (2 ^ k) nnz s = some t := by
  induction fuel generalizing n v k nnz s with
  | zero =>
    simp only [fixedLoopF]
    rw [if_neg]
    · exact ⟨s, rfl⟩
    · rintro (h | ⟨_, h⟩)
      · simp at hn; omega
      · rw [pow_zero, div_one] at hf
        linarith
  | succ f ih =>
    simp only [fixedLoopF]
    by_cases hc : 0 < n ∨ (0 < nnz ∧ eps < |v|)
    · rw [if_pos hc]
      obtain ⟨-, h2, h3, h4, -⟩ := stepF hfl hb hv hlt
      rw [halfF hfl, h2]
      have hpos : (0 : ℚ) < 2 ^ k := zpow_pos two_pos _
      refine ih _ ?_ ?_ _ _ (by push_cast at hn; omega) ?_
      · generalize (if csdDigitF fl v (2 ^ k) = 0 then nnz else nnz - 1) = N
        split_ifs
        · exact rep_zero
        · exact h3
      · rw [← half_pow]
        generalize (if csdDigitF fl v (2 ^ k) = 0 then nnz else nnz - 1) = N
        split_ifs
        · rw [abs_zero]; linarith
        · linarith
      · refine le_trans (le_of_eq ?_) hf
        rw [pow_succ, ← half_pow]; field_simp
    · rw [if_neg hc]; exact ⟨s, rfl⟩

theorem posVal_wt_zero (l : List ℤ) (q : ℚ) (h : wt l ≤ 0) : posVal q l = 0 := by
  induction l generalizing q with
  | nil => rfl
  | cons e l ihl =>
    have he : e = 0 := by
      by_contra he
      unfold wt at h
      rw [List.countP_cons_of_pos (by simpa using he)] at h
      omega
    subst he
    simp only [posVal, Int.cast_zero, zero_mul, zero_add]
    exact ihl _ (by simpa [wt] using h)

theorem fixedLoopF_spec (hfl : Rounding b fl) (hb : 2 ≤ b) {eps : ℚ} (fuel : ℕ) (n : ℤ) {v : ℚ} (hv : Rep b v) {k : ℤ} (hlt : |v| < 2 * 2 ^ k)
    (nnz : ℕ) (s t : List Char) (hz : nnz = 0 → v = 0) (hr : fixedLoopF fl eps fuel n v (2 ^ k) nnz s = some t) :
    ∃ ds : List ℤ, t = s ++ renderAt n ds ∧ n ≤ ds.length ∧ (∀ d ∈ ds, Dig d) ∧ wt ds ≤ nnz ∧
      (|v - posVal (2 ^ k) ds| ≤ |v| / 2 ^ nnz ∨ |v - posVal (2 ^ k) ds| ≤ eps) := by
  have stop : ∀ {n : ℤ} {v : ℚ} {k : ℤ} {nnz : ℕ} {s : List Char}, (nnz = 0 → v = 0) → ¬ (0 < n ∨ (0 < (nnz : ℤ) ∧ eps < |v|)) → s = t →
      ∃ ds : List ℤ, t = s ++ renderAt n ds ∧ n ≤ ds.length ∧ (∀ d ∈ ds, Dig d) ∧ wt ds ≤ nnz ∧
        (|v - posVal (2 ^ k) ds| ≤ |v| / 2 ^ nnz ∨ |v - posVal (2 ^ k) ds| ≤ eps) := by
    intro n v k nnz s hz hc hs
    obtain ⟨h1, h2⟩ := not_or.1 hc
    refine ⟨[], by simp [renderAt, hs], by simp; omega, by simp, by simp [wt], ?_⟩
    rcases Nat.eq_zero_or_pos nnz with h | h
    · left; simp [hz h, posVal]
    · right
      simp only [posVal, sub_zero]
      by_contra hh
      exact h2 ⟨by exact_mod_cast h, not_le.1 hh⟩
  induction fuel generalizing n v k nnz s with
  | zero =>
    simp only [fixedLoopF] at hr
    by_cases hc : 0 < n ∨ (0 < (nnz : ℤ) ∧ eps < |v|)
    · rw [if_pos hc] at hr; simp at hr
    · rw [if_neg hc, Option.some_inj] at hr
      exact stop hz hc hr
  | succ f ih =>
    simp only [fixedLoopF] at hr
    by_cases hc : 0 < n ∨ (0 < (nnz : ℤ) ∧ eps < |v|)
    swap
    · rw [if_neg hc, Option.some_inj] at hr
      exact stop hz hc hr
    have hpos : (0 : ℚ) < 2 ^ k := zpow_pos two_pos _
    obtain ⟨h1, h2, h3, h4, h5⟩ := stepF hfl hb hv hlt
    rw [if_pos hc, halfF hfl, h2] at hr
    have hrender : ∀ (d : ℤ) (ds : List ℤ), (if n = 0 then s ++ ['.'] else s) ++ [digitChar d] ++
        renderAt (n - 1) ds = s ++ renderAt n (d :: ds) := by
      intro d ds; simp only [renderAt]; split_ifs <;> simp
    by_cases hd : csdDigitF fl v (2 ^ k) = 0
    · rw [hd] at hr h4
      simp only [Int.cast_zero, zero_mul, sub_zero, if_true] at hr h4
      have hv' : (if (nnz : ℤ) = 0 then 0 else v) = v := by
        split_ifs with h
        · exact (hz (by exact_mod_cast h)).symm
        · rfl
      rw [hv'] at hr
      obtain ⟨ds, k1, k2, k3, k4, k5⟩ := ih (n - 1) hv (k := k - 1) (by rw [← half_pow]; linarith) nnz _ hz hr
      refine ⟨0 :: ds, by rw [k1, hrender], by simp; omega, ?_, by simpa [wt] using k4, by simpa [posVal, half_pow] using k5⟩
      intro d hd'
      rcases List.mem_cons.1 hd' with rfl | hd'
      · exact .inr (.inr rfl)
      · exact k3 d hd'
    · have hv0 : v ≠ 0 := by
        rintro rfl
        apply hd
        simp only [csdDigitF, mul_zero, hfl.exact 0 rep_zero]
        rw [if_neg (by linarith), if_neg (by linarith)]
      obtain ⟨m, rfl⟩ : ∃ m, nnz = m + 1 := ⟨nnz - 1, by have : nnz ≠ 0 := fun h => hv0 (hz h); omega⟩
      have hm : ((m + 1 : ℕ) : ℤ) - 1 = (m : ℕ) := by push_cast; ring
      rw [if_neg hd, hm] at hr
      have hhalf := h5 hd
      obtain ⟨ds, k1, k2, k3, k4, k5⟩ := ih (n - 1) (v := if ((m : ℕ) : ℤ) = 0 then 0 else v - csdDigitF fl v (2 ^ k) * 2 ^ k)
        (by split_ifs; exacts [rep_zero, h3]) (k := k - 1)
        (by
          rw [← half_pow]
          split_ifs
          · rw [abs_zero]; linarith
          · linarith) m _ (by intro h; rw [if_pos (by exact_mod_cast h)]) hr
      refine ⟨csdDigitF fl v (2 ^ k) :: ds, by rw [k1, hrender], by simp; omega, ?_, ?_, ?_⟩
      · intro d hd'
        rcases List.mem_cons.1 hd' with rfl | hd'
        · exact h1
        · exact k3 d hd'
      · unfold wt at k4 ⊢
        rw [List.countP_cons_of_pos (by simpa using hd)]
        omega
      · have hrw : v - posVal (2 ^ k) (csdDigitF fl v (2 ^ k) :: ds) =
            (v - csdDigitF fl v (2 ^ k) * 2 ^ k) - posVal (2 ^ (k - 1)) ds := by simp only [posVal, half_pow]; ring
        rw [hrw]
        rcases Nat.eq_zero_or_pos m with h | h
        · subst h
          left
          rw [posVal_wt_zero ds _ k4, sub_zero]
          simpa using hhalf
        · rw [if_neg (by exact_mod_cast h.ne')] at k5
          rcases k5 with k5 | k5
          · left
            refine k5.trans ?_
            rw [pow_succ, div_le_div_iff₀ (by positivity) (by positivity)]
            have : (0 : ℚ) < 2 ^ m := by positivity
            nlinarith [mul_le_mul_of_nonneg_right hhalf this.le]
          · exact .inr k5

/-- **C110** `to_csdfixed` in floating point ends: the integer digits and `K` more rounds suffice when `2^-K` is at most the constant written `1e-100`; allowing more
changes nothing. -/
theorem C110_csdfixed_terminates (hfl : Rounding b fl) (hb : 2 ≤ b) {clog2 : ℚ → ℤ} {v : ℚ} (hv : Rep b v) (hlog : SizeOk fl clog2 v) {eps : ℚ} {K : ℕ}
    (hK : 1 / 2 ^ K ≤ eps) (nnz : ℤ) :
    ∃ t, ∀ fuel, (csdLenF fl clog2 |v|).toNat + K ≤ fuel → toCsdFixedF fl clog2 eps fuel v nnz = some t := by
  by_cases hv0 : v = 0
  · exact ⟨['0'], fun fuel _ => by simp [toCsdFixedF, hv0]⟩
  obtain ⟨k1, k2, -⟩ := csdLenF_bound hlog
  have hnat : (((csdLenF fl clog2 |v|).toNat : ℕ) : ℤ) = csdLenF fl clog2 |v| := Int.toNat_of_nonneg k1
  obtain ⟨t, ht⟩ := fixedLoopF_ends hfl hb ((csdLenF fl clog2 |v|).toNat + K) (csdLenF fl clog2 |v|) hv k2 nnz
    (if |v| < 1 then ['0'] else []) (by push_cast; omega) (by
      refine le_trans (le_of_eq ?_) hK
      rw [← half_pow, pow_add]
      conv_lhs => rw [← hnat]
      rw [zpow_natCast]
      simp only [Int.toNat_natCast]
      field_simp)
  refine ⟨t, fun fuel hf => ?_⟩
  unfold toCsdFixedF
  rw [if_neg hv0]
  exact fixedLoopF_mono _ _ hf _ _ _ _ _ _ ht

/-- **C110** What `to_csdfixed` returns in floating point, for a budget of at least one: a legal string with at most `nnz` nonzero digits whose value is within
`|v| / 2^nnz` of the number, or within the constant written `1e-100`. -/
theorem C110_csdfixed (hfl : Rounding b fl) (hb : 2 ≤ b) {clog2 : ℚ → ℤ} {v : ℚ} (hv : Rep b v) (hlog : SizeOk fl clog2 v) {eps : ℚ}
    {nnz : ℕ} (hnz : 1 ≤ nnz) {fuel : ℕ} {t : List Char} (h : toCsdFixedF fl clog2 eps fuel v nnz = some t) :
    weight t ≤ nnz ∧ ∃ q : ℚ, Denotes t q ∧ (|v - q| ≤ |v| / 2 ^ nnz ∨ |v - q| ≤ eps) := by
  by_cases hv0 : v = 0
  · subst hv0
    have ht : t = ['0'] := by simpa [toCsdFixedF, eq_comm] using h
    subst ht
    exact ⟨by simp [weight], 0, denotes_zero, .inl (by simp)⟩
  obtain ⟨k1, k2, k3⟩ := csdLenF_bound hlog
  have hnat : (((csdLenF fl clog2 |v|).toNat : ℕ) : ℤ) = csdLenF fl clog2 |v| := Int.toNat_of_nonneg k1
  unfold toCsdFixedF at h
  rw [if_neg hv0] at h
  have hs : (if |v| < 1 then ['0'] else []) = if (csdLenF fl clog2 |v|).toNat = 0 then ['0'] else [] := by
    by_cases h : |v| < 1
    · rw [if_pos h, if_pos (by rw [k3.1 h]; rfl)]
    · rw [if_neg h, if_neg fun h0 => h (k3.2 (by omega))]
  obtain ⟨ds, h1, h2, h3, h4, h5⟩ := fixedLoopF_spec hfl hb fuel (csdLenF fl clog2 |v|) hv k2 nnz _ t (fun h0 => by omega) h
  rw [hs] at h1
  generalize hN : (csdLenF fl clog2 |v|).toNat = N at *
  rw [← hnat] at h1 h2 h5
  have htext : t = csdText N ds := h1
  refine ⟨?_, _, htext ▸ csdText_denotes (α := ℚ) N ds h3 (by omega), h5⟩
  rw [htext, weight_csdText N ds h3]; exact h4

/-! ### The hypotheses are met -/

/-- Doubles and the exact logarithm: `57/2` is converted to the string of exact arithmetic and back. -/
example : toCsdF (ieee 53) (Int.clog 2) (57 / 2) 2 = "+00-00.+0".toList ∧
    toDecimalF (ieee 53) (toCsdF (ieee 53) (Int.clog 2) (57 / 2) 2) = .ok (57 / 2) := by
  have h := C110_same_string (ieee_rounding (p := 53) (by norm_num)) (by norm_num) (clog2 := Int.clog 2) (m := 57) (q := -1)
    (by norm_num) (fun _ => rfl) 2
  have e : ((57 : ℤ) : ℚ) * 2 ^ (-1 : ℤ) = 57 / 2 := by norm_num
  rw [e] at h
  have h2 : toCsd (57 / 2 : ℚ) 2 = "+00-00.+0".toList := by with_unfolding_all rfl
  refine ⟨h.trans h2, ?_⟩
  rw [h, h2, C110_to_decimal (ieee_rounding (p := 53) (by norm_num)) _ (by decide)]
  have := C56_round_trip (α := ℚ) 114 2
  norm_num at this
  rw [← h2]
  exact this

/-- The finding applies to the IEEE rounding and the exact logarithm. -/
example : ¬ Canonical (toCsdF (ieee 53) (Int.clog 2) 6004799503160662 0) :=
  (C110_not_canonical (ieee_rounding (by norm_num)) ieee_tie (by
    have := Int.clog_zpow (R := ℚ) (b := 2) (by norm_num) 53
    rw [← this]; norm_num)).1

/-- A logarithm that is one too large is allowed by `SizeOk`. -/
example : SizeOk (ieee 53) (fun y => Int.clog 2 y + 1) 5 := by
  intro _
  have e : ieee 53 (|(5 : ℚ)| * (3 / 2)) = 15 / 2 := by
    rw [show |(5 : ℚ)| * (3 / 2) = 15 / 2 by norm_num]
    exact (ieee_rounding (p := 53) (by norm_num)).exact _ ⟨15, -1, by norm_num, by norm_num⟩
  dsimp only
  rw [e, zpow_add₀ two_ne_zero, zpow_one]
  have := Int.self_le_zpow_clog (R := ℚ) (b := 2) (by norm_num) (15 / 2)
  push_cast at this
  norm_num
  linarith

end Verif
