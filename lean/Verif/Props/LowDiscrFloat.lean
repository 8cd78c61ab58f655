import Verif.Proofs.Float
import Verif.Model.LowDiscrFloat
import Verif.Props.LowDiscr

/-!
# C120: the van der Corput sequence in floating point
-/
namespace Verif
namespace LowDiscr
open Finset FloatSpec

variable {p : ℕ} {fl : ℚ → ℚ}

/-- The computed sum of the first `i` terms. -/
def sumF (fl : ℚ → ℚ) (b k : ℕ) : ℕ → ℚ
  | 0 => 0
  | i + 1 => fl (sumF fl b k i + fl ((digit b k i : ℚ) / (b : ℚ) ^ (i + 1)))

theorem vdcLoopF_done {b fuel : ℕ} {d v : ℚ} : vdcLoopF fl b fuel 0 d v = .ok (some v) := by
  cases fuel <;> simp [vdcLoopF]

theorem vdcLoopF_step {b fuel : ℕ} {k : ℤ} (hk : k ≠ 0) (hb : b ≠ 0) {d v : ℚ} : vdcLoopF fl b (fuel + 1) k d v =
    vdcLoopF fl b fuel (Int.fdiv k b) (fl (d * fl b)) (fl (v + fl (fl (Int.fmod k b) / fl (d * fl b)))) := by
  conv_lhs => rw [vdcLoopF.eq_def]
  simp [hk, hb]

theorem vdcLoopF_mono {b : ℕ} : ∀ fuel k d v r, vdcLoopF fl b fuel k d v = .ok (some r) →
    ∀ fuel' ≥ fuel, vdcLoopF fl b fuel' k d v = .ok (some r) := by
  intro fuel
  induction fuel with
  | zero =>
    intro k d v r h fuel' _
    by_cases h0 : k = 0
    · subst h0; rw [vdcLoopF_done] at h ⊢; exact h
    · simp [vdcLoopF, h0] at h
  | succ fuel ih =>
    intro k d v r h fuel' hf
    obtain ⟨f', rfl⟩ : ∃ f', fuel' = f' + 1 := ⟨fuel' - 1, by omega⟩
    by_cases h0 : k = 0
    · subst h0; rw [vdcLoopF_done] at h ⊢; exact h
    · by_cases hb : b = 0
      · rw [vdcLoopF.eq_def] at h
        simp [h0, hb] at h
      · rw [vdcLoopF_step h0 hb] at h ⊢
        exact ih _ _ _ _ h f' (by omega)

theorem vdcFReturns_unique {b : ℕ} {k : ℤ} {v v' : ℚ} (h : VdcFReturns fl k b v) (h' : VdcFReturns fl k b v') : v = v' := by
  obtain ⟨f, h⟩ := h
  obtain ⟨f', h'⟩ := h'
  have h1 := vdcLoopF_mono f k 1 0 v h (max f f') (le_max_left _ _)
  have h2 := vdcLoopF_mono f' k 1 0 v' h' (max f f') (le_max_right _ _)
  rw [h1] at h2
  simpa using h2

/-- The loop as a sum, while the denominators are representable. -/
theorem vdcLoopF_eq {b : ℕ} (hb : 2 ≤ b) (hbf : ∀ d : ℕ, d ≤ b → fl d = d) {k L : ℕ} (hk : k < b ^ L)
    (hden : ∀ i ≤ L, fl ((b : ℚ) ^ i) = (b : ℚ) ^ i) : ∀ fuel i, i ≤ L → k / b ^ i ≤ fuel →
    ∃ n ≤ L, k < b ^ n ∧ vdcLoopF fl b fuel ((k / b ^ i : ℕ) : ℤ) ((b : ℚ) ^ i) (sumF fl b k i) = .ok (some (sumF fl b k n)) := by
  intro fuel
  induction fuel with
  | zero =>
    intro i hi h
    have h0 : k / b ^ i = 0 := Nat.le_zero.1 h
    refine ⟨i, hi, (Nat.div_eq_zero_iff_lt (by positivity)).1 h0, ?_⟩
    rw [h0]; exact vdcLoopF_done
  | succ fuel ih =>
    intro i hi h
    rcases Nat.eq_zero_or_pos (k / b ^ i) with h0 | h0
    · refine ⟨i, hi, (Nat.div_eq_zero_iff_lt (by positivity)).1 h0, ?_⟩
      rw [h0]; exact vdcLoopF_done
    · have hiL : i < L := by
        rcases hi.lt_or_eq with h' | rfl
        · exact h'
        · rw [Nat.div_eq_of_lt hk] at h0; omega
      have hlt : k / b ^ (i + 1) ≤ fuel := by
        rw [pow_succ, ← Nat.div_div_eq_div_mul]
        have := Nat.div_lt_self h0 (show 1 < b by omega)
        omega
      obtain ⟨n, hn, hkn, he⟩ := ih (i + 1) hiL hlt
      refine ⟨n, hn, hkn, ?_⟩
      rw [vdcLoopF_step (by exact_mod_cast h0.ne') (by omega), ← he]
      have e1 : Int.fdiv ((k / b ^ i : ℕ) : ℤ) b = ((k / b ^ (i + 1) : ℕ) : ℤ) := by
        rw [Int.fdiv_eq_ediv_of_nonneg _ (by positivity), pow_succ, ← Nat.div_div_eq_div_mul]; norm_cast
      have e2 : Int.fmod ((k / b ^ i : ℕ) : ℤ) b = (digit b k i : ℤ) := by
        rw [Int.fmod_eq_emod_of_nonneg _ (by positivity)]; rfl
      have e3 : digit b k i ≤ b := (Nat.mod_lt _ (by omega)).le
      rw [e1, e2, hbf b le_rfl, ← pow_succ, hden _ hiL, Int.cast_natCast, hbf _ e3, sumF]

theorem radInv_eq_rev {b : ℕ} (hb : 0 < b) (L : ℕ) : ∀ k, radInv b L k = (rev b L k : ℚ) / (b : ℚ) ^ L := by
  have hb' : (b : ℚ) ≠ 0 := by exact_mod_cast hb.ne'
  induction L with
  | zero => intro k; simp [radInv, rev]
  | succ L ih =>
    intro k
    rw [radInv_succ hb, ih, rev, pow_succ]
    push_cast
    field_simp

theorem radInv_add (b k i : ℕ) : radInv b (i + 1) k = radInv b i k + (digit b k i : ℚ) / (b : ℚ) ^ (i + 1) := by
  simp only [radInv]; rw [sum_range_succ]

/-- Rounded sums stay nonnegative. -/
theorem sumF_nonneg (hfl : Rounding p fl) (b k i : ℕ) : 0 ≤ sumF fl b k i := by
  have h0 : fl 0 = 0 := hfl.exact 0 rep_zero
  have hmono : ∀ x : ℚ, 0 ≤ x → 0 ≤ fl x := fun x hx => h0 ▸ hfl.mono hx
  induction i with
  | zero => exact le_rfl
  | succ i ih => exact hmono _ (add_nonneg ih (hmono _ (by positivity)))

theorem radInv_le {b : ℕ} (hb : 0 < b) (L k : ℕ) : radInv b L k ≤ 1 - 1 / (b : ℚ) ^ L := by
  have hp : (0 : ℚ) < (b : ℚ) ^ L := by
    have : (0 : ℚ) < b := by exact_mod_cast hb
    positivity
  rw [radInv_eq_rev hb, div_le_iff₀ hp, sub_mul, one_mul, one_div_mul_cancel hp.ne']
  have : (rev b L k : ℚ) + 1 ≤ (b : ℚ) ^ L := by exact_mod_cast rev_lt hb L k
  linarith

/-- Error of the rounded sum. -/
theorem sumF_err (hfl : Nearest p fl) {b : ℕ} (hb : 2 ≤ b) (k : ℕ) : ∀ n, (n + 1) * b ^ n ≤ 2 ^ p →
    |sumF fl b k n - radInv b n k| ≤ (n + radInv b n k) / 2 ^ p := by
  have hP : (0 : ℚ) < 2 ^ p := by positivity
  have hbq : (0 : ℚ) < b := by exact_mod_cast (show 0 < b by omega)
  intro n
  induction n with
  | zero => intro _; simp [sumF, radInv]
  | succ n ih =>
    intro h
    have h1 : (n + 1) * b ^ n ≤ 2 ^ p := le_trans (Nat.mul_le_mul (by omega) (Nat.pow_le_pow_right (by omega) (by omega))) h
    have ih := ih h1
    have h2 : ((n : ℚ) + 1) / 2 ^ p ≤ 1 / (b : ℚ) ^ (n + 1) := by
      rw [div_le_div_iff₀ hP (by positivity), one_mul]
      have : (n + 1) * b ^ (n + 1) ≤ 2 ^ p := le_trans (Nat.mul_le_mul_right _ (by omega)) h
      exact_mod_cast this
    set t := (digit b k n : ℚ) / (b : ℚ) ^ (n + 1) with ht
    have ht0 : 0 ≤ t := by positivity
    have hR := radInv_add b k n
    rw [← ht] at hR
    have hR1 := radInv_le (show 0 < b by omega) (n + 1) k
    have hR0 := radInv_range (show 0 < b by omega) n k
    have hs0 := sumF_nonneg hfl.rounding b k n
    have e1 := hfl.err t
    rw [abs_of_nonneg ht0] at e1
    set x := sumF fl b k n + fl t with hx
    have htf : 0 ≤ fl t := by
      have h0 : fl 0 = 0 := hfl.rounding.exact 0 rep_zero
      exact h0 ▸ hfl.rounding.mono ht0
    have hx0 : 0 ≤ x := add_nonneg hs0 htf
    have e2 := hfl.err x
    rw [abs_of_nonneg hx0] at e2
    rw [sumF, ← ht, ← hx]
    have hdx : |x - radInv b (n + 1) k| ≤ (n + radInv b (n + 1) k) / 2 ^ p := by
      rw [hx, hR, show sumF fl b k n + fl t - (radInv b n k + t) = (sumF fl b k n - radInv b n k) + (fl t - t) by ring]
      refine (abs_add_le _ _).trans ((add_le_add ih e1).trans (le_of_eq ?_))
      ring
    have hx1 : x ≤ 1 := by
      have a1 := (abs_le.1 hdx).2
      have a2 : (n + radInv b (n + 1) k) / 2 ^ p ≤ ((n : ℚ) + 1) / 2 ^ p :=
        div_le_div_of_nonneg_right (by linarith [(radInv_range (show 0 < b by omega) (n + 1) k).2]) hP.le
      linarith
    have e3 : x / 2 ^ p ≤ 1 / 2 ^ p := div_le_div_of_nonneg_right hx1 hP.le
    rw [show fl x - radInv b (n + 1) k = (fl x - x) + (x - radInv b (n + 1) k) by ring]
    refine (abs_add_le _ _).trans ((add_le_add (e2.trans e3) hdx).trans (le_of_eq ?_))
    push_cast; ring

theorem fl_nat (hfl : Rounding p fl) {m : ℕ} (h : m ≤ 2 ^ p) : fl m = m := by
  have := hfl.exact _ (rep_int (α := ℚ) (p := p) (z := m) (by rw [abs_of_nonneg (by positivity)]; exact_mod_cast h))
  simpa using this

/-- What `vdc` computes while its denominators are representable. -/
theorem vdcF_sum (hfl : Rounding p fl) {b k L : ℕ} (hb : 2 ≤ b) (hk : k < b ^ L) (hbp : b ≤ 2 ^ p)
    (hden : ∀ i ≤ L, fl ((b : ℚ) ^ i) = (b : ℚ) ^ i) : ∃ n ≤ L, k < b ^ n ∧ VdcFReturns fl k b (sumF fl b k n) := by
  obtain ⟨n, hn, h1, h2⟩ := vdcLoopF_eq hb (fun d hd => fl_nat hfl (hd.trans hbp)) hk hden k 0 (by omega) (by simp)
  exact ⟨n, hn, h1, k, by simpa [sumF] using h2⟩

/-- **C120** (accuracy).  `vdc(k, base)` computed with `p` bits, for an index `k` of at most `L` digits where `(L + 1) base^L ≤ 2^p` (in double
precision: base 2 up to `2^47`, base 3 up to `3^30`): one float is returned, it is in `[0, 1)`, and it differs from the radical inverse by less
than `(L + 1) / 2^p`. -/
theorem C120_vdc (hfl : Nearest p fl) {b k L : ℕ} (hb : 2 ≤ b) (hk : k < b ^ L) (hL : (L + 1) * b ^ L ≤ 2 ^ p) :
    ∃ v, (∀ v', VdcFReturns fl k b v' ↔ v' = v) ∧ 0 ≤ v ∧ v < 1 ∧ |v - radInv b L k| < (L + 1) / 2 ^ p := by
  have hP : (0 : ℚ) < 2 ^ p := by positivity
  have hbq : (0 : ℚ) < b := by exact_mod_cast (show 0 < b by omega)
  have hbL : b ^ L ≤ 2 ^ p := (Nat.le_mul_of_pos_left _ (by omega)).trans hL
  rcases Nat.eq_zero_or_pos L with rfl | hL0
  · have hk0 : k = 0 := by simpa using hk
    subst hk0
    have h0 : VdcFReturns fl ((0 : ℕ) : ℤ) b 0 := ⟨0, by simpa using vdcLoopF_done⟩
    refine ⟨0, fun v' => ⟨fun h => vdcFReturns_unique h h0, fun h => h ▸ h0⟩, le_rfl, one_pos, ?_⟩
    simp [radInv]
  have hbp : b ≤ 2 ^ p := (Nat.le_self_pow hL0.ne' b).trans hbL
  obtain ⟨n, hn, hkn, hret⟩ := vdcF_sum hfl.rounding hb hk hbp fun i hi => by
    have := fl_nat hfl.rounding ((Nat.pow_le_pow_right (show 0 < b by omega) hi).trans hbL)
    push_cast at this; exact this
  have hR : radInv b L k = radInv b n k := radInv_stable (by omega) hkn hn
  have hn1 : (n + 1) * b ^ n ≤ 2 ^ p := le_trans (Nat.mul_le_mul (by omega) (Nat.pow_le_pow_right (by omega) hn)) hL
  have herr := sumF_err hfl hb k n hn1
  have hr := radInv_range (show 0 < b by omega) n k
  have hlt : (n + radInv b n k) / 2 ^ p < ((n : ℚ) + 1) / 2 ^ p := div_lt_div_of_pos_right (by linarith) hP
  refine ⟨_, fun v' => ⟨fun h => vdcFReturns_unique h hret, fun h => h ▸ hret⟩, sumF_nonneg hfl.rounding b k n, ?_, ?_⟩
  · have h1 := radInv_le (show 0 < b by omega) n k
    have h2 : ((n : ℚ) + 1) / 2 ^ p ≤ 1 / (b : ℚ) ^ n := by
      rw [div_le_div_iff₀ hP (by positivity), one_mul]
      exact_mod_cast hn1
    linarith [(abs_le.1 herr).2]
  · rw [hR]
    refine herr.trans_lt (hlt.trans_le (div_le_div_of_nonneg_right ?_ hP.le))
    have : (n : ℚ) ≤ L := by exact_mod_cast hn
    linarith

/-- **C120** (order, no repetition).  With one bit to spare, the computed values are ordered as the radical inverses are; in particular
different indices give different floats. -/
theorem C120_vdc_order (hfl : Nearest p fl) {b k k' L : ℕ} (hb : 2 ≤ b) (hk : k < b ^ L) (hk' : k' < b ^ L) (hL : 2 * (L + 1) * b ^ L ≤ 2 ^ p)
    {v v' : ℚ} (hv : VdcFReturns fl k b v) (hv' : VdcFReturns fl k' b v') :
    (v < v' ↔ radInv b L k < radInv b L k') ∧ (v = v' ↔ k = k') := by
  have hP : (0 : ℚ) < 2 ^ p := by positivity
  have hbq : (0 : ℚ) < b := by exact_mod_cast (show 0 < b by omega)
  have hL1 : (L + 1) * b ^ L ≤ 2 ^ p := le_trans (by rw [mul_assoc]; omega) hL
  have key : ∀ {k k' : ℕ} {v v' : ℚ}, k < b ^ L → k' < b ^ L → VdcFReturns fl k b v → VdcFReturns fl k' b v' →
      radInv b L k < radInv b L k' → v < v' := by
    intro k k' v v' hk hk' hv hv' hlt
    obtain ⟨w, h1, -, -, h2⟩ := C120_vdc hfl hb hk hL1
    obtain ⟨w', h1', -, -, h2'⟩ := C120_vdc hfl hb hk' hL1
    obtain rfl := (h1 v).1 hv
    obtain rfl := (h1' v').1 hv'
    have hp : (0 : ℚ) < (b : ℚ) ^ L := by positivity
    have h3 : radInv b L k + 1 / (b : ℚ) ^ L ≤ radInv b L k' := by
      rw [radInv_eq_rev (by omega), radInv_eq_rev (by omega)] at hlt ⊢
      rw [div_lt_div_iff_of_pos_right hp] at hlt
      rw [← add_div, div_le_div_iff_of_pos_right hp]
      have : rev b L k + 1 ≤ rev b L k' := by exact_mod_cast hlt
      exact_mod_cast this
    have h4 : 2 * (((L : ℚ) + 1) / 2 ^ p) ≤ 1 / (b : ℚ) ^ L := by
      rw [← mul_div_assoc, div_le_div_iff₀ hP hp, one_mul]
      exact_mod_cast hL
    linarith [(abs_lt.1 h2).2, (abs_lt.1 h2').1]
  have hinj : k = k' ∨ radInv b L k < radInv b L k' ∨ radInv b L k' < radInv b L k := by
    rcases lt_trichotomy (radInv b L k) (radInv b L k') with h | h | h
    · exact .inr (.inl h)
    · left
      exact C79_vdc_injective hb ((C79_vdc hb hk _).2 rfl) ((C79_vdc hb hk' _).2 h)
    · exact .inr (.inr h)
  rcases hinj with rfl | h | h
  · obtain rfl := vdcFReturns_unique hv hv'
    simp
  · have h1 := key hk hk' hv hv' h
    have hne : k ≠ k' := fun e => by subst e; exact lt_irrefl _ h
    exact ⟨⟨fun _ => h, fun _ => h1⟩, ⟨fun e => absurd e h1.ne, fun e => absurd e hne⟩⟩
  · have h1 := key hk' hk hv' hv h
    have hne : k ≠ k' := fun e => by subst e; exact lt_irrefl _ h
    exact ⟨⟨fun h2 => absurd h2 h1.not_gt, fun h2 => absurd h2 h.not_gt⟩, ⟨fun e => absurd e h1.ne', fun e => absurd e hne⟩⟩

/-! ### Base 2 -/

theorem sumF_two (hfl : Rounding p fl) (k : ℕ) : ∀ n ≤ p, sumF fl 2 k n = radInv 2 n k := by
  intro n
  induction n with
  | zero => intro _; simp [sumF, radInv]
  | succ n ih =>
    intro hn
    have h1 : fl ((digit 2 k n : ℚ) / (2 : ℕ) ^ (n + 1)) = (digit 2 k n : ℚ) / (2 : ℕ) ^ (n + 1) := by
      refine hfl.exact _ ⟨digit 2 k n, -(n + 1 : ℕ), ?_, ?_⟩
      · have : digit 2 k n < 2 := Nat.mod_lt _ (by omega)
        have h2 : 1 ≤ 2 ^ p := Nat.one_le_two_pow
        rw [abs_of_nonneg (by positivity)]
        exact_mod_cast (show digit 2 k n ≤ 2 ^ p by omega)
      · rw [zpow_neg, zpow_natCast]; push_cast; rfl
    rw [sumF, ih (by omega), h1, ← radInv_add, radInv_eq_rev (by omega)]
    refine hfl.exact _ ⟨rev 2 (n + 1) k, -(n + 1 : ℕ), ?_, ?_⟩
    · rw [abs_of_nonneg (by positivity)]
      have := rev_lt (show 0 < 2 by omega) (n + 1) k
      have h2 : 2 ^ (n + 1) ≤ 2 ^ p := Nat.pow_le_pow_right (by omega) hn
      exact_mod_cast (this.le.trans h2)
    · rw [zpow_neg, zpow_natCast]; push_cast; rfl

theorem fl_two_pow (hfl : Rounding p fl) (i : ℕ) : fl (((2 : ℕ) : ℚ) ^ i) = ((2 : ℕ) : ℚ) ^ i :=
  hfl.exact _ (by have := rep_pow (α := ℚ) (p := p) i; rw [zpow_natCast] at this; exact_mod_cast this)

/-- **C120** (base 2).  With `p` bits, all indices below `2^p` give the radical inverse exactly: there is no rounding error, and all of C79
holds as it is. -/
theorem C120_base_two (hp : 1 ≤ p) (hfl : Rounding p fl) {k : ℕ} (hk : k < 2 ^ p) (v : ℚ) : VdcFReturns fl k 2 v ↔ VdcReturns k 2 v := by
  obtain ⟨n, hn, hkn, hret⟩ := vdcF_sum hfl le_rfl hk (Nat.le_self_pow (by omega) 2) fun i _ => fl_two_pow hfl i
  rw [C79_vdc le_rfl hkn, ← sumF_two hfl k n hn]
  exact ⟨fun h => vdcFReturns_unique h hret, fun h => h ▸ hret⟩

theorem fl_above_one (hfl : Nearest p fl) (hp : 1 ≤ p) {x : ℚ} (h0 : 0 ≤ x) (hx : x ≤ 1 / 2 ^ (p + 1)) : fl (1 + x) = 1 := by
  have e : ((2 : ℚ) ^ (p - 1)) * 2 ^ (-(p - 1 : ℕ) : ℤ) = 1 := by rw [zpow_neg, zpow_natCast]; field_simp
  have h := hfl.eq hp (x := 1 + x) (m := 2 ^ (p - 1)) (e := -(p - 1 : ℕ)) le_rfl
    (pow_le_pow_right₀ (by norm_num) (by omega)) (by rw [e]; linarith) (by
      push_cast; rw [e, show 1 - (1 + x) = -x by ring, abs_neg, abs_of_nonneg h0, zpow_neg, zpow_natCast]
      have hpp : (2 : ℚ) ^ (p + 1) = 4 * 2 ^ (p - 1) := by
        rw [show p + 1 = p - 1 + 2 by omega, pow_add]; ring
      rw [hpp] at hx
      have hq : (0 : ℚ) < ((2 : ℚ) ^ (p - 1))⁻¹ := by positivity
      rw [one_div, mul_inv] at hx
      linarith)
  push_cast at h
  rw [h, e]

theorem sumF_two_le (hfl : Nearest p fl) (hp : 1 ≤ p) (k n : ℕ) : sumF fl 2 k n ≤ 1 := by
  rcases le_total n p with h | h
  · rw [sumF_two hfl.rounding k n h]; exact (radInv_range (by omega) n k).2.le
  · induction n, h using Nat.le_induction with
    | base => rw [sumF_two hfl.rounding k p le_rfl]; exact (radInv_range (by omega) p k).2.le
    | succ n hn ih =>
      have h1 : fl ((digit 2 k n : ℚ) / (2 : ℕ) ^ (n + 1)) ≤ 1 / 2 ^ (n + 1) := by
        have h2 : fl (1 / 2 ^ (n + 1)) = 1 / 2 ^ (n + 1) := by
          have := hfl.rounding.exact _ (rep_pow (-(n + 1 : ℕ)))
          rwa [zpow_neg, zpow_natCast, ← one_div] at this
        rw [← h2]
        refine hfl.rounding.mono ?_
        have : digit 2 k n ≤ 1 := Nat.le_of_lt_succ (Nat.mod_lt _ (by omega))
        push_cast
        exact div_le_div_of_nonneg_right (by exact_mod_cast this) (by positivity)
      have h3 : (1 : ℚ) / 2 ^ (n + 1) ≤ 1 / 2 ^ (p + 1) :=
        one_div_le_one_div_of_le (by positivity) (pow_le_pow_right₀ (by norm_num) (by omega))
      rw [sumF, ← fl_above_one hfl hp (x := 1 / 2 ^ (p + 1)) (by positivity) le_rfl]
      exact hfl.rounding.mono (by linarith)

/-- **C120** (base 2, every index).  Whatever the index, one value is returned, and it is in `[0, 1]`. -/
theorem C120_base_two_range (hp : 1 ≤ p) (hfl : Nearest p fl) (k : ℕ) : ∃ v, (∀ v', VdcFReturns fl k 2 v' ↔ v' = v) ∧ 0 ≤ v ∧ v ≤ 1 := by
  obtain ⟨n, -, -, hret⟩ := vdcF_sum hfl.rounding le_rfl (Nat.lt_pow_self (show 1 < 2 by omega)) (Nat.le_self_pow (by omega) 2)
    fun i _ => fl_two_pow hfl.rounding i
  exact ⟨_, fun v' => ⟨fun h => vdcFReturns_unique h hret, fun h => h ▸ hret⟩, sumF_nonneg hfl.rounding _ _ _, sumF_two_le hfl hp k n⟩

/-- **C120** (the bound is attained).  In double precision `vdc(2**54 - 1)` is exactly `1.0`, although the radical inverse of every index is
below 1. -/
theorem C120_one : VdcFReturns (ieee 53) ((2 ^ 54 - 1 : ℕ) : ℤ) 2 1 := by
  have hfl : Nearest 53 (ieee 53 : ℚ → ℚ) := ieee_nearest (by norm_num)
  obtain ⟨n, hn, hkn, hret⟩ := vdcF_sum hfl.rounding (k := 2 ^ 54 - 1) (L := 54) le_rfl (by norm_num) (by norm_num)
    fun i _ => fl_two_pow hfl.rounding i
  have hn' : n = 54 := by
    by_contra hne
    have : 2 ^ n ≤ 2 ^ 53 := Nat.pow_le_pow_right (by omega) (by omega)
    omega
  subst hn'
  have h1 : radInv 2 53 (2 ^ 54 - 1) = 1 - 1 / 2 ^ 53 := by
    rw [radInv_eq_rev (by omega), show rev 2 53 (2 ^ 54 - 1) = 2 ^ 53 - 1 by decide]; norm_num
  have h2 : digit 2 (2 ^ 54 - 1) 53 = 1 := by decide
  have h3 : ieee 53 (1 / 2 ^ 54 : ℚ) = 1 / 2 ^ 54 := by
    have := hfl.rounding.exact _ (rep_pow (-54))
    rwa [show (2 : ℚ) ^ (-54 : ℤ) = 1 / 2 ^ 54 by norm_num [zpow_neg]] at this
  have h4 : ieee 53 (1 - 1 / 2 ^ 54 : ℚ) = 1 := by
    have hlog : Int.log 2 |(1 - 1 / 2 ^ 54 : ℚ)| = -1 := by
      rw [abs_of_pos (by norm_num)]
      refine le_antisymm ?_ ?_
      · rw [← Int.lt_add_one_iff]
        exact (Int.lt_zpow_iff_log_lt (by norm_num) (by norm_num)).1 (by norm_num)
      · exact (Int.zpow_le_iff_le_log (by norm_num) (by norm_num)).1 (by norm_num)
    unfold ieee
    rw [if_neg (by norm_num)]
    simp only [hlog]
    have hy : (1 - 1 / 2 ^ 54 : ℚ) / 2 ^ (-1 - ((53 : ℕ) - 1) : ℤ) = (2 ^ 53 - 1 : ℤ) + 1 / 2 := by norm_num
    have hr : evenRound ((1 - 1 / 2 ^ 54 : ℚ) / 2 ^ (-1 - ((53 : ℕ) - 1) : ℤ)) = 2 ^ 53 := by
      rw [hy, evenRound, Int.fract_intCast_add, Int.floor_intCast_add, show Int.fract (1 / 2 : ℚ) = 1 / 2 from
        Int.fract_eq_self.2 ⟨by norm_num, by norm_num⟩, if_neg (lt_irrefl _), if_neg (lt_irrefl _),
        show ⌊(1 / 2 : ℚ)⌋ = 0 from Int.floor_eq_zero_iff.2 ⟨by norm_num, by norm_num⟩, if_neg (by decide)]
      norm_num
    rw [hr]; norm_num
  have h5 : sumF (ieee 53) 2 (2 ^ 54 - 1) 54 = 1 := by
    rw [sumF, sumF_two hfl.rounding _ 53 le_rfl, h1, h2]
    push_cast
    rw [h3, show (1 - 1 / 2 ^ 53 + 1 / 2 ^ 54 : ℚ) = 1 - 1 / 2 ^ 54 by norm_num, h4]
  rwa [h5] at hret

/-! ### The square roots of the spheres -/

/-- **C120** (spheres).  For every generator value in `[0, 1]` the square roots of `sphere` and `sphere3_hopf` are taken of numbers in `[0, 1]`
in floating point, so they never raise `ValueError`. -/
theorem C120_sphere_args (hfl : Rounding p fl) {v : ℚ} (h0 : 0 ≤ v) (h1 : v ≤ 1) :
    (0 ≤ sphereArgF fl v ∧ sphereArgF fl v ≤ 1) ∧ 0 ≤ (hopfArgsF fl v).2 ∧ (hopfArgsF fl v).2 ≤ 1 := by
  have e0 : fl 0 = 0 := hfl.exact 0 rep_zero
  have e1 : fl 1 = 1 := by simpa using hfl.exact _ (rep_pow (α := ℚ) 0)
  have e2 : fl 2 = 2 := by simpa using hfl.exact _ (rep_pow (α := ℚ) 1)
  have em : fl (-1) = -1 := by have := hfl.exact _ (rep_pow (α := ℚ) (p := p) 0).neg; simpa using this
  have a0 : 0 ≤ fl (2 * v) := e0 ▸ hfl.mono (by linarith)
  have a1 : fl (2 * v) ≤ 2 := by conv_rhs => rw [← e2]
                                 exact hfl.mono (by linarith)
  have c0 : -1 ≤ fl (fl (2 * v) - 1) := by conv_lhs => rw [← em]
                                           exact hfl.mono (by linarith)
  have c1 : fl (fl (2 * v) - 1) ≤ 1 := by conv_rhs => rw [← e1]
                                          exact hfl.mono (by linarith)
  have unit : ∀ x : ℚ, 0 ≤ x → x ≤ 1 → 0 ≤ fl x ∧ fl x ≤ 1 := fun x hx hx' =>
    ⟨e0 ▸ hfl.mono hx, by conv_rhs => rw [← e1]
                          exact hfl.mono hx'⟩
  obtain ⟨s0, s1⟩ := unit (fl (fl (2 * v) - 1) * fl (fl (2 * v) - 1)) (mul_self_nonneg _) (by nlinarith)
  exact ⟨unit _ (by linarith) (by linarith), unit _ (by linarith) (by linarith)⟩

/-- **C120** (bad bases and indices).  For `k ≠ 0` base 0 raises `ZeroDivisionError` and base 1 loops for ever; a negative index loops for ever
in every base from 1 on. -/
theorem C120_bad (fl : ℚ → ℚ) {k : ℤ} (hk : k ≠ 0) (d v : ℚ) :
    (∀ fuel, vdcLoopF fl 0 (fuel + 1) k d v = .error .zeroDivision) ∧ (∀ fuel, vdcLoopF fl 1 fuel k d v = .ok none) ∧
      (k < 0 → ∀ b fuel, 1 ≤ b → vdcLoopF fl b fuel k d v = .ok none) := by
  have neg : ∀ (b fuel : ℕ) (k : ℤ) (d v : ℚ), k < 0 → 1 ≤ b → vdcLoopF fl b fuel k d v = .ok none := by
    intro b fuel
    induction fuel with
    | zero => intro k d v hk _; rw [vdcLoopF, if_neg hk.ne]
    | succ n ih =>
      intro k d v hk hb
      rw [vdcLoopF, if_neg hk.ne, if_neg (by omega)]
      exact ih _ _ _ (Int.fdiv_neg_of_neg_of_pos hk (by omega)) hb
  refine ⟨fun fuel => ?_, fun fuel => ?_, fun h b fuel hb => neg b fuel k d v h hb⟩
  · rw [vdcLoopF, if_neg hk]; simp
  · induction fuel generalizing d v with
    | zero => rw [vdcLoopF, if_neg hk]
    | succ n ih =>
      rw [vdcLoopF, if_neg hk, if_neg (by omega)]
      simp only [Nat.cast_one, Int.fdiv_one]
      exact ih _ _

/-! ### The hypotheses can be met -/

/-- Double precision: base 2 below `2^46`, base 3 below `3^29`, base 7 below `7^16`. -/
example : 2 * (46 + 1) * 2 ^ 46 ≤ 2 ^ 53 ∧ 2 * (29 + 1) * 3 ^ 29 ≤ 2 ^ 53 ∧ 2 * (16 + 1) * 7 ^ 16 ≤ 2 ^ 53 := by norm_num

/-- `vdc(5, 3)` in doubles is within `3 · 2^-53` of `7/9` (`5 = 12₃`). -/
example : ∃ v, VdcFReturns (ieee 53) 5 3 v ∧ |v - 7 / 9| < 3 / 2 ^ 53 := by
  obtain ⟨v, h1, -, -, h2⟩ := C120_vdc (fl := ieee 53) (ieee_nearest (by norm_num)) (b := 3) (k := 5) (L := 2) (by norm_num) (by norm_num) (by norm_num)
  refine ⟨v, (h1 v).2 rfl, ?_⟩
  have : radInv 3 2 5 = 7 / 9 := by
    rw [radInv_eq_rev (by omega), show rev 3 2 5 = 7 by decide]; norm_num
  rw [this] at h2
  norm_num at h2 ⊢
  exact h2

end LowDiscr
end Verif
