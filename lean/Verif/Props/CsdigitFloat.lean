import Verif.Model.CsdigitFloat
import Verif.Props.Csdigit
import Verif.Proofs.Float

/-!
# C151: `csdigit.m` in floating point makes no rounding error
-/
namespace Verif
namespace Csdigit
open FloatSpec CsdSpec
variable {α : Type _} [Field α] [LinearOrder α] [IsStrictOrderedRing α] [FloorSemiring α] {fl : α → α} {b : ℕ}

/-! ### The integers stay below `2^(len+1)` -/

theorem core_width {n len N : ℕ} {D : List Char} (h : Inv n len N D) (hp : ∀ i, ¬ Pair N i) (hN : 2 ^ len ≤ N) : 2 ^ width N len < 3 * n := by
  have hd := final_digits h
  have hch := final_chain h hp
  have hv := final_val h
  have hsz : len < N.size := Nat.lt_size.2 hN
  have hsize : width N len = N.size := by unfold width; omega
  obtain ⟨c, s, hs⟩ : ∃ c s, final N len D = c :: s := by
    cases hf : final N len D with
    | nil => have := final_length h; rw [hf] at this; simp at this; omega
    | cons c s => exact ⟨c, s, rfl⟩
  have hsl : s.length + 1 = width N len := by rw [← final_length h, hs]; simp
  have hc : c = '+' := by
    have h0 : 0 < (final N len D).length := by rw [final_length h]; omega
    have : (final N len D)[0] = c := by simp [hs]
    rw [← this]
    simp only [final, List.getElem_zipWith, dec2bin_get]
    have : N.testBit (width N len - 1 - 0) = true := by
      have hlo : 2 ^ (width N len - 1) ≤ N := by
        rw [← Nat.lt_size]; omega
      have hhi := lt_two_pow_width N len
      rw [show width N len - 1 - 0 = width N len - 1 by omega, Nat.testBit_eq_decide_div_mod_eq]
      have : N / 2 ^ (width N len - 1) = 1 := by
        have e : 2 ^ width N len = 2 ^ (width N len - 1) * 2 := by rw [← pow_succ]; congr 1; omega
        rw [e] at hhi
        exact Nat.div_eq_of_lt_le (by omega) (by omega)
      rw [this]; rfl
    rw [Nat.sub_zero] at this
    simp [this]
  rw [hs] at hd hch hv
  subst hc
  have hs' : 3 * |intVal s| < 2 ^ s.length := by
    have hbs := chain_bound (fun e he => hd e (List.mem_cons_of_mem _ he)) hch.tail
    cases s with
    | nil => simp [intVal]
    | cons e s =>
      have : e = '0' := (List.isChain_cons_cons.1 hch).1.resolve_left (by simp)
      exact hbs.2 (by simp [this])
  simp only [intVal, digVal, if_true, one_mul] at hv
  have h1 := neg_abs_le (intVal s)
  rw [← hsl]
  have h2 : (2 : ℤ) ^ (s.length + 1) = 2 * 2 ^ s.length := by ring
  have : (2 : ℤ) ^ (s.length + 1) < 3 * n := by omega
  exact_mod_cast this

theorem inv_bound {n len : ℕ} (hn : n ≤ 2 ^ len) (k : ℕ) : ∀ (N : ℕ) (D : List Char), ones N ≤ k → Inv n len N D → N < 2 ^ (len + 1) := by
  induction k with
  | zero =>
    intro N D hk h
    rcases last_run N len with ⟨-, h2⟩ | ⟨i, hi, hp, hmin, -⟩
    · exact last hn h h2
    · have := ones_step hp; omega
  | succ k ih =>
    intro N D hk h
    rcases last_run N len with ⟨-, h2⟩ | ⟨i, hi, hp, hmin, -⟩
    · exact last hn h h2
    · have := ones_step hp
      exact lt_of_le_of_lt (Nat.le_add_right N (2 ^ i)) (ih _ _ (by omega) (inv_step h hi hp hmin))
where
  last {n len N : ℕ} {D : List Char} (hn : n ≤ 2 ^ len) (h : Inv n len N D) (h2 : ∀ i, ¬ Pair N i) : N < 2 ^ (len + 1) := by
    rw [pow_succ]
    rcases lt_or_ge N (2 ^ len) with hlt | hge
    · omega
    · have h3 := core_width h h2 hge
      have h4 := lt_two_pow_width N len
      have h5 : 2 ^ width N len < 2 ^ (len + 2) := by rw [pow_add]; omega
      have h6 : width N len ≤ len + 1 := by
        have := (Nat.pow_lt_pow_iff_right (by norm_num : 1 < 2)).1 h5
        omega
      have h7 : 2 ^ width N len ≤ 2 ^ (len + 1) := Nat.pow_le_pow_right (by norm_num) h6
      rw [pow_succ] at h7
      omega

/-! ### Exactness -/

omit [LinearOrder α] [IsStrictOrderedRing α] [FloorSemiring α] in
theorem rep_nat {n : ℕ} (h : n ≤ 2 ^ b) (k : ℤ) : Rep b ((n : α) * 2 ^ k) :=
  ⟨n, k, by rw [Nat.abs_cast]; exact_mod_cast h, by simp⟩

theorem fl_nat (hfl : Rounding b fl) {n : ℕ} (h : n ≤ 2 ^ b) : fl (n : α) = n := by
  have := hfl.exact _ (rep_nat (α := α) h 0)
  simpa using this

theorem bin2decF_exact (hfl : Rounding b fl) {l : List Char} (h : bin2dec l ≤ 2 ^ b) : bin2decF fl l = (bin2dec l : α) := by
  induction l with
  | nil => simp [bin2decF, bin2dec]
  | cons c l ih =>
    have h' : bin2dec l ≤ 2 ^ b := by simp only [bin2dec] at h; omega
    rw [bin2decF, ih h']
    have e : ((if c = '1' then 2 ^ l.length else 0 : α) + bin2dec l) = ((bin2dec (c :: l) : ℕ) : α) := by
      simp only [bin2dec]; push_cast; split_ifs <;> simp
    rw [e, fl_nat hfl h]

theorem loopF_exact (hfl : Rounding b fl) {n len : ℕ} (hb : len + 1 ≤ b) (hn : n ≤ 2 ^ len) (fuel : ℕ) :
    ∀ {N : ℕ} {D : List Char}, Inv n len N D → loopF fl len fuel (dec2bin N len) D = loop len fuel (dec2bin N len) D ∧
      ∀ r, loop len fuel (dec2bin N len) D = some r → ∃ N' D', r = (dec2bin N' len, D') ∧ Inv n len N' D' := by
  have hpow : 2 ^ (len + 1) ≤ 2 ^ b := Nat.pow_le_pow_right (by norm_num) hb
  induction fuel with
  | zero =>
    intro N D h
    rcases last_run N len with ⟨h1, -⟩ | ⟨i, -, -, -, hlast⟩
    · unfold loopF loop
      rw [h1]
      exact ⟨rfl, fun r hr => ⟨N, D, by simpa using hr.symm, h⟩⟩
    · unfold loopF loop
      rw [hlast]
      exact ⟨rfl, fun r hr => by simp at hr⟩
  | succ fuel ih =>
    intro N D h
    rcases last_run N len with ⟨h1, -⟩ | ⟨i, hi, hp, hmin, hlast⟩
    · unfold loopF loop
      rw [h1]
      exact ⟨rfl, fun r hr => ⟨N, D, by simpa using hr.symm, h⟩⟩
    · have hs := inv_step h hi hp hmin
      have hN' := inv_bound hn _ _ _ le_rfl hs
      have e1 : bin2decF fl (dec2bin N len) = (N : α) := by rw [bin2decF_exact hfl (by rw [bin2dec_dec2bin]; exact (Nat.le_add_right _ _).trans (hN'.le.trans hpow)), bin2dec_dec2bin]
      have e2 : bin2dec ((List.replicate (dec2bin N len).length '0').set (width N len - 1 - i) '1') = 2 ^ i := by
        rw [dec2bin_length, bin2dec_adder (by omega), show width N len - 1 - (width N len - 1 - i) = i by omega]
      have e3 : bin2decF fl ((List.replicate (dec2bin N len).length '0').set (width N len - 1 - i) '1') = ((2 ^ i : ℕ) : α) := by
        rw [bin2decF_exact hfl (by rw [e2]; exact (Nat.le_add_left _ _).trans (hN'.le.trans hpow)), e2]
      have e4 : ⌊fl ((N : α) + ((2 ^ i : ℕ) : α))⌋₊ = N + 2 ^ i := by
        rw [← Nat.cast_add, fl_nat hfl (hN'.le.trans hpow), Nat.floor_natCast]
      unfold loopF loop
      rw [hlast]
      dsimp only
      rw [e1, e3, e4, e2, bin2dec_dec2bin]
      exact ih hs

/-- The error term is representable. -/
theorem rep_err {num : α} (hnum : Rep b num) (res : ℕ) : Rep b (num - (if num < 0 then -1 else 1) * ((⌊|num| * 2 ^ res⌋₊ : α) * (2 ^ res)⁻¹)) := by
  obtain ⟨m, e, hm, hx⟩ := hnum
  have h2 : (0 : α) < 2 ^ res := by positivity
  have he : (0 : α) < 2 ^ e := zpow_pos two_pos e
  have habs : |num| = (m.natAbs : α) * 2 ^ e := by rw [hx, abs_mul, abs_of_pos he, Nat.cast_natAbs, Int.cast_abs]
  have hsgn : (if num < 0 then -1 else 1) * |num| = num := by
    split_ifs with h
    · rw [abs_of_neg h]; ring
    · rw [abs_of_nonneg (not_lt.1 h)]; ring
  rcases le_or_gt 0 (e + res) with hc | hc
  · obtain ⟨k, hk⟩ := Int.eq_ofNat_of_zero_le hc
    have e1 : |num| * 2 ^ res = ((m.natAbs * 2 ^ k : ℕ) : α) := by
      rw [habs, mul_assoc, ← zpow_natCast (2 : α) res, ← zpow_add₀ two_ne_zero, hk, zpow_natCast]
      push_cast; ring
    rw [e1, Nat.floor_natCast, ← e1, mul_assoc, mul_inv_cancel₀ h2.ne', mul_one, hsgn, sub_self]
    exact ⟨0, 0, by simp, by simp⟩
  · obtain ⟨k, hk⟩ := Int.eq_ofNat_of_zero_le (by omega : 0 ≤ -(e + res))
    have e2 : ((2 : α) ^ res)⁻¹ = 2 ^ e * 2 ^ k := by
      rw [← zpow_natCast (2 : α) res, ← zpow_neg, ← zpow_natCast (2 : α) k, ← zpow_add₀ two_ne_zero]
      congr 1; omega
    have hle := Nat.floor_le (mul_nonneg (abs_nonneg num) h2.le)
    generalize ⌊|num| * 2 ^ res⌋₊ = n at hle ⊢
    have hle2 : (n : α) * (2 ^ res)⁻¹ ≤ |num| := by rw [← div_eq_mul_inv, div_le_iff₀ h2]; exact hle
    have hnk : n * 2 ^ k ≤ m.natAbs := by
      rw [e2, habs] at hle2
      have : ((n * 2 ^ k : ℕ) : α) * 2 ^ e ≤ (m.natAbs : α) * 2 ^ e := by push_cast at hle2 ⊢; linarith
      exact_mod_cast le_of_mul_le_mul_right this he
    have hneg : num < 0 ↔ m < 0 := by
      rw [hx, ← not_le, mul_nonneg_iff_of_pos_right he, not_le]; exact Int.cast_lt_zero
    refine ⟨m - (if m < 0 then -1 else 1) * ((n * 2 ^ k : ℕ) : ℤ), e, le_trans ?_ hm, ?_⟩
    · split_ifs with h
      · rw [abs_le, abs_of_neg h]; omega
      · rw [abs_le, abs_of_nonneg (not_lt.1 h)]; omega
    · rw [e2]
      simp only [hneg]
      split_ifs <;> rw [hx] <;> push_cast <;> ring

/-- **C151** For a representable number and a significand of more than `range + resolution` bits, `csdigit` with every operation rounded gives the result of exact arithmetic: the same error, or the same
string, `pos`, `neg`, `err` and warnings.  So C97 holds of the floating-point program. -/
theorem C151_csdigit (hfl : Rounding b fl) {num : α} (hnum : Rep b num) {range res : ℕ} (hb : range + res + 1 ≤ b) (fuel : ℕ) :
    csdigitF fl fuel num range res = csdigit fuel num range res := by
  have h2 : (0 : α) < 2 ^ res := by positivity
  have es : fl (|num| / (2 ^ res)⁻¹) = |num| * 2 ^ res := by
    rw [div_inv_eq_mul]
    obtain ⟨m, e, hm, rfl⟩ := hnum
    refine hfl.exact _ ⟨|m|, e + res, by rwa [abs_abs], ?_⟩
    rw [abs_mul, abs_of_pos (zpow_pos (two_pos : (0 : α) < 2) e), zpow_add₀ two_ne_zero, zpow_natCast]
    push_cast
    ring
  unfold csdigitF csdigit
  simp only [es]
  set n := ⌊|num| * 2 ^ res⌋₊ with hn
  by_cases c1 : |num| * 2 ^ res ≠ n ∧ n = 0
  · rw [if_pos c1, if_pos c1]
  rw [if_neg c1, if_neg c1]
  by_cases c2 : 2 ^ (range + res) < n
  · rw [if_pos c2, if_pos c2]
  rw [if_neg c2, if_neg c2]
  obtain ⟨l1, l2⟩ := loopF_exact hfl hb (not_lt.1 c2) fuel (inv_init n (range + res))
  rw [l1]
  cases hl : loop (range + res) fuel (dec2bin n (range + res)) (List.replicate (dec2bin n (range + res)).length '0') with
  | none => rfl
  | some r =>
    obtain ⟨N, D, rfl, hI⟩ := l2 r hl
    have hN := inv_bound (not_lt.1 c2) _ _ _ le_rfl hI
    have hpow : 2 ^ (range + res + 1) ≤ 2 ^ b := Nat.pow_le_pow_right (by norm_num) hb
    have hval := hI.val
    have hmask : (D.map fun c => if c = '-' then '1' else '0') = mask D := rfl
    have hsc : ∀ k : ℕ, k ≤ 2 ^ b → fl ((k : α) * (2 ^ res)⁻¹) = k / 2 ^ res := fun k hk => by
      have := hfl.exact _ (rep_nat (α := α) hk (-(res : ℤ)))
      rw [zpow_neg, zpow_natCast] at this
      rw [this, div_eq_mul_inv]
    have e1 : fl (bin2decF fl (dec2bin N (range + res)) * (2 ^ res)⁻¹) = (bin2dec (dec2bin N (range + res)) : α) / 2 ^ res := by
      rw [bin2decF_exact hfl (by rw [bin2dec_dec2bin]; omega), hsc _ (by rw [bin2dec_dec2bin]; omega)]
    have e2 : fl (bin2decF fl (mask D) * (2 ^ res)⁻¹) = (bin2dec (mask D) : α) / 2 ^ res := by
      rw [bin2decF_exact hfl (by omega), hsc _ (by omega)]
    have hsub : (bin2dec (dec2bin N (range + res)) : α) / 2 ^ res - (bin2dec (mask D) : α) / 2 ^ res = (n : α) * (2 ^ res)⁻¹ := by
      rw [bin2dec_dec2bin, ← sub_div, div_eq_mul_inv]
      congr 1
      rw [hval]; push_cast; ring
    have hfs : fl ((n : α) * (2 ^ res)⁻¹) = (n : α) * (2 ^ res)⁻¹ := by rw [hsc n (by omega), div_eq_mul_inv]
    have hfs' : fl (-((n : α) * (2 ^ res)⁻¹)) = -((n : α) * (2 ^ res)⁻¹) := by
      refine hfl.exact _ ⟨-(n : ℤ), -(res : ℤ), by rw [abs_neg, Nat.abs_cast]; exact_mod_cast (by omega : n ≤ 2 ^ b), ?_⟩
      rw [zpow_neg, zpow_natCast]; push_cast; ring
    have herr := hfl.exact _ (rep_err hnum res)
    rw [← hn] at herr
    simp only [hmask, e1, e2]
    by_cases h0 : num < 0
    · have hsub' : (bin2dec (mask D) : α) / 2 ^ res - (bin2dec (dec2bin N (range + res)) : α) / 2 ^ res = -((n : α) * (2 ^ res)⁻¹) := by rw [← hsub]; ring
      rw [if_pos h0, neg_one_mul] at herr
      simp only [h0, if_true, hsub', hfs', herr]
    · rw [if_neg h0, one_mul] at herr
      simp only [h0, if_false, hsub, hfs, herr]

/-- **C151** The claims of C97, read off the rounded program. -/
theorem C151_spec (hfl : Rounding b fl) {num : α} (hnum : Rep b num) {range res : ℕ} (hb : range + res + 1 ≤ b) :
    (∀ fuel, csdigitF fl fuel num range res = .error .precision ↔ num ≠ 0 ∧ |num| * 2 ^ res < 1) ∧
    (∀ fuel, csdigitF fl fuel num range res = .error .tooLarge ↔ 2 ^ (range + res) + 1 ≤ |num| * 2 ^ res) ∧
    (num = 0 ∨ 1 ≤ |num| * 2 ^ res → |num| * 2 ^ res < 2 ^ (range + res) + 1 →
      ∃ r fuel₀, (∀ fuel, fuel₀ ≤ fuel → csdigitF fl fuel num range res = .ok (some r)) ∧
        Good num range res ⌊|num| * 2 ^ res⌋₊ r) := by
  simp only [C151_csdigit hfl hnum hb]
  exact C97_csdigit num range res

/-- Doubles. -/
example : (match csdigitF (ieee 53) 10 (23.5 : ℚ) 6 2 with
    | .ok (some r) => some (r.digits, r.pos, r.neg, r.err)
    | _ => none) = some ("+0-000.-0".toList, 32, 8.5, 0) := by decide +kernel

/-- The hypotheses hold: a double with 8 fractional bits kept, truncated. -/
example (fuel : ℕ) : csdigitF (ieee 53) fuel (-1234567 / 2 ^ 12 : ℚ) 10 8 = csdigit fuel (-1234567 / 2 ^ 12) 10 8 :=
  C151_csdigit (ieee_rounding (by norm_num)) ⟨-1234567, -12, by norm_num, by norm_num⟩ (by norm_num) fuel

/-- The number of bits is sharp: with four bits and `range + resolution = 4`, the digits of 13 are wrong, since 17 is not representable. -/
theorem C151_sharp : Rep 4 (13 : ℚ) ∧ (match csdigitF (ieee 4) 10 (13 : ℚ) 4 0 with
    | .ok (some r) => some (r.digits, r.pos, r.neg, r.err)
    | _ => none) = some ("+0-00.".toList, 16, 4, 1) ∧
    (match csdigit 10 (13 : ℚ) 4 0 with
    | .ok (some r) => some (r.digits, r.pos, r.neg, r.err)
    | _ => none) = some ("+0-0+.".toList, 17, 4, 0) :=
  ⟨⟨13, 0, by norm_num, by norm_num⟩, by decide +kernel, by decide +kernel⟩

end Csdigit
end Verif
