import Verif.Proofs.Csdigit
import Verif.Props.CsdMin

/-! # C97: `csdigit.m` -/
namespace Verif
open CsdSpec
namespace Csdigit

/-- Canonical strings of length `k` stay below `2^(k+1)/3`, below `2^k/3` if they start with `0`. -/
theorem chain_bound {s : List Char} (hd : ∀ c ∈ s, IsDigit c) (hc : s.IsChain (fun a b => a = '0' ∨ b = '0')) :
    3 * |intVal s| < 2 ^ (s.length + 1) ∧ (s.head? = some '0' → 3 * |intVal s| < 2 ^ s.length) := by
  induction s with
  | nil => simp [intVal]
  | cons c s ih =>
    obtain ⟨ih1, ih2⟩ := ih (fun e he => hd e (List.mem_cons_of_mem _ he)) hc.tail
    have h0 : c = '0' → 3 * |intVal (c :: s)| < 2 ^ (s.length + 1) := by
      rintro rfl
      simpa [intVal, digVal] using ih1
    have hpow : (0 : ℤ) < 2 ^ s.length := by positivity
    have key : c ≠ '0' → 3 * |intVal s| < 2 ^ s.length := by
      intro hne
      cases s with
      | nil => simp [intVal]
      | cons e s =>
        have : e = '0' := (List.isChain_cons_cons.1 hc).1.resolve_left hne
        exact ih2 (by simp [this])
    refine ⟨?_, fun h => h0 (by simpa using h)⟩
    rw [List.length_cons]
    rcases hd c (by simp) with rfl | rfl | rfl
    · have := key (by simp)
      simp only [intVal, digVal, if_true, one_mul]
      have h1 := abs_add_le ((2 : ℤ) ^ s.length) (intVal s)
      rw [abs_of_pos hpow] at h1
      rw [pow_succ, pow_succ]
      omega
    · have := key (by simp)
      simp only [intVal, digVal]
      have h1 := abs_add_le (-1 * (2 : ℤ) ^ s.length) (intVal s)
      rw [abs_mul, abs_of_pos hpow] at h1
      simp only [Char.reduceEq, if_false, if_true]
      rw [pow_succ, pow_succ]
      simp at h1 ⊢
      omega
    · have := h0 rfl
      rw [pow_succ (2 : ℤ) (s.length + 1)]
      omega

variable {α : Type _} [Field α] [LinearOrder α] [IsStrictOrderedRing α] [FloorSemiring α]

/-- The string with every `-` (every `+`) replaced by `0`. -/
def plusOnly (s : List Char) : List Char := s.map fun c => if c = '-' then '0' else c
def minusOnly (s : List Char) : List Char := s.map fun c => if c = '+' then '0' else c

theorem plusOnly_zip (l D : List Char) (hlen : l.length = D.length) (hc : ∀ c ∈ D, c = '0' ∨ c = '-') :
    intVal (plusOnly (List.zipWith (fun b d => if b = '1' then '+' else d) l D)) = (bin2dec l : ℤ) := by
  induction l generalizing D with
  | nil => simp [plusOnly, intVal, bin2dec]
  | cons b l ih =>
    cases D with
    | nil => simp at hlen
    | cons d D =>
      simp only [List.length_cons, add_left_inj] at hlen
      have ih' := ih D hlen (fun c hcd => hc c (List.mem_cons_of_mem _ hcd))
      simp only [plusOnly] at ih' ⊢
      simp only [List.zipWith_cons_cons, List.map_cons, intVal, ih', bin2dec, List.length_map, List.length_zipWith, hlen,
        min_self]
      by_cases hb : b = '1'
      · subst hb; simp [digVal]
      · rcases hc d (by simp) with rfl | rfl <;> simp [hb, digVal]

theorem intVal_split (s : List Char) : intVal s = intVal (plusOnly s) + intVal (minusOnly s) := by
  induction s with
  | nil => rfl
  | cons c s ih =>
    simp only [plusOnly, minusOnly] at ih
    simp only [plusOnly, minusOnly, List.map_cons, intVal, List.length_map, ih, digVal]
    by_cases h1 : c = '+'
    · subst h1; simp; ring
    · by_cases h2 : c = '-'
      · subst h2; simp; ring
      · simp [h1, h2]

/-- Everything about the run before the sign is put back. -/
theorem core (n len : ℕ) : ∃ N D, (∀ fuel, ones n ≤ fuel →
      loop len fuel (dec2bin n len) (List.replicate (dec2bin n len).length '0') = some (dec2bin N len, D)) ∧
    Inv n len N D ∧ (∀ i, ¬ Pair N i) := by
  obtain ⟨N, D, h1, h2, h3⟩ := loop_spec (ones n) n _ (inv_init n len) le_rfl
  refine ⟨N, D, fun fuel hf => ?_, h2, h3⟩
  -- more fuel changes nothing
  have mono : ∀ f g b D r, f ≤ g → loop len f b D = some r → loop len g b D = some r := by
    intro f
    induction f with
    | zero =>
      intro g b D r _ h
      unfold loop at h ⊢
      split at h
      · exact h
      · simp at h
    | succ f ih =>
      intro g b D r hg h
      obtain ⟨g, rfl⟩ : ∃ g', g = g' + 1 := ⟨g - 1, by omega⟩
      unfold loop at h ⊢
      split at h
      · exact h
      · exact ih _ _ _ _ (by omega) h
  exact mono _ _ _ _ _ hf h1

theorem core_overflow {n len N : ℕ} {D : List Char} (h : Inv n len N D) (hp : ∀ i, ¬ Pair N i) (hlen : 1 ≤ len) :
    len < (final N len D).length ↔ 2 ^ (len + 1) < 3 * n := by
  have hd := final_digits h
  have hch := final_chain h hp
  have hv := final_val h
  have hb := chain_bound hd hch
  rw [hv, final_length h] at hb
  have hw : len ≤ width N len := by unfold width; omega
  rw [final_length h]
  constructor
  · intro hlt
    have hsize : width N len = N.size := by unfold width at hlt ⊢; omega
    -- the leading digit is `+`
    obtain ⟨c, s, hs⟩ : ∃ c s, final N len D = c :: s := by
      cases hf : final N len D with
      | nil => have := final_length h; rw [hf] at this; simp at this; omega
      | cons c s => exact ⟨c, s, rfl⟩
    have hsl : s.length + 1 = width N len := by rw [← final_length h, hs]; simp
    have hc : c = '+' := by
      have h0 : 0 < (final N len D).length := by rw [final_length h]; omega
      have : (final N len D)[0] = c := by simp [hs]
      rw [← this]
      simp only [final, List.getElem_zipWith, dec2bin_get]
      have hN : N ≠ 0 := by rintro rfl; simp at hsize; omega
      have : N.testBit (width N len - 1 - 0) = true := by
        have hlo : 2 ^ (width N len - 1) ≤ N := by
          rw [← Nat.lt_size]; omega
        have hhi := lt_two_pow_width N len
        rw [show width N len - 1 - 0 = width N len - 1 by omega, Nat.testBit_eq_decide_div_mod_eq]
        have : N / 2 ^ (width N len - 1) = 1 := by
          have e : 2 ^ width N len = 2 ^ (width N len - 1) * 2 := by rw [← pow_succ]; congr 1; omega
          rw [e] at hhi
          exact Nat.div_eq_of_lt_le (by omega) (by omega)
        rw [this]; rfl
      rw [Nat.sub_zero] at this
      simp [this]
    rw [hs] at hd hch hv
    subst hc
    have hs' : 3 * |intVal s| < 2 ^ s.length := by
      have hbs := chain_bound (fun e he => hd e (List.mem_cons_of_mem _ he)) hch.tail
      cases s with
      | nil => simp [intVal]
      | cons e s =>
        have : e = '0' := (List.isChain_cons_cons.1 hch).1.resolve_left (by simp)
        exact hbs.2 (by simp [this])
    simp only [intVal, digVal, if_true, one_mul] at hv
    have h1 := neg_abs_le (intVal s)
    have h2 : (2 : ℤ) ^ (len + 1) ≤ 2 ^ (s.length + 1) := pow_le_pow_right₀ (by norm_num) (by omega)
    rw [pow_succ (2 : ℤ) s.length] at h2
    have : (2 : ℤ) ^ (len + 1) < 3 * n := by omega
    exact_mod_cast this
  · intro hgt
    by_contra hcon
    have hwl : width N len = len := by omega
    rw [hwl] at hb
    have h1 := hb.1
    rw [abs_of_nonneg (by positivity)] at h1
    have : 3 * n < 2 ^ (len + 1) := by exact_mod_cast h1
    omega

theorem flip_isDigit {c : Char} (h : IsDigit c) : IsDigit (flip c) := by
  rcases h with rfl | rfl | rfl <;> simp [flip, IsDigit]

theorem intVal_flip {s : List Char} (h : ∀ c ∈ s, IsDigit c) : intVal (s.map flip) = -intVal s := by
  induction s with
  | nil => rfl
  | cons c s ih =>
    simp only [List.map_cons, intVal, List.length_map, ih fun e he => h e (List.mem_cons_of_mem _ he)]
    rcases h c (by simp) with rfl | rfl | rfl <;> simp [flip, digVal] <;> ring

theorem chain_flip {s : List Char} (h : s.IsChain (fun a b => a = '0' ∨ b = '0')) :
    (s.map flip).IsChain (fun a b => a = '0' ∨ b = '0') := by
  rw [List.isChain_map]
  refine h.imp fun a b hab => ?_
  rcases hab with rfl | rfl <;> simp [flip]

/-- Placing the point. -/
theorem point_denotes {s : List Char} (hd : ∀ c ∈ s, IsDigit c) {k : ℕ} (hk : k ≤ s.length) :
    Denotes (s.take (s.length - k) ++ '.' :: s.drop (s.length - k)) ((intVal s : α) / 2 ^ k) := by
  have h := Denotes.point (α := α) (s.take (s.length - k)) (s.drop (s.length - k))
    (fun c hc => hd c (List.mem_of_mem_take hc)) (fun c hc => hd c (List.mem_of_mem_drop hc))
  have e : (intVal s : α) / 2 ^ k = ((intVal (s.take (s.length - k)) : ℤ) : α) + fracVal (s.drop (s.length - k)) := by
    rw [fracVal_eq]
    have hl : (s.drop (s.length - k)).length = k := by simp; omega
    conv_lhs => rw [← List.take_append_drop (s.length - k) s]
    rw [intVal_append, hl]
    push_cast
    field_simp
  rw [e]
  exact h

theorem digits_point {a b : List Char} (ha : ∀ c ∈ a, IsDigit c) (hb : ∀ c ∈ b, IsDigit c) :
    digits (a ++ '.' :: b) = a ++ b := by
  have h : ∀ l : List Char, (∀ c ∈ l, IsDigit c) → l.filter (· ≠ '.') = l := by
    intro l hl
    rw [List.filter_eq_self]
    intro c hc
    rcases hl c hc with rfl | rfl | rfl <;> simp
  unfold digits
  rw [List.filter_append, List.filter_cons, h a ha, h b hb]
  simp

/-- What a successful call promises.  `n` is `⌊|num|·2^res⌋`. -/
structure Good (num : α) (range res n : ℕ) (r : Res α) : Prop where
  /-- the value: `num` truncated towards zero to `res` binary places -/
  value : r.pos - r.neg = (if num < 0 then -1 else 1) * (n : α) / 2 ^ res
  /-- the string denotes it -/
  denotes : Denotes r.digits (r.pos - r.neg)
  /-- `pos` collects the `+`, `neg` the `-` of the string -/
  pos : Denotes (plusOnly r.digits) r.pos
  neg : Denotes (minusOnly r.digits) (-r.neg)
  canonical : Canonical r.digits
  /-- no string with that value has fewer nonzero digits -/
  minimal : ∀ t, Denotes t (r.pos - r.neg) → weight r.digits ≤ weight t
  err : r.err = num - (r.pos - r.neg)
  err_lt : |r.err| < 1 / 2 ^ res
  err_sign : 0 ≤ r.err * num
  truncated : r.truncated = true ↔ r.err ≠ 0
  /-- at least `range` places before, exactly `res` after the point; the overflow warning appears when there are more -/
  shape : ∃ ip fp, r.digits = ip ++ '.' :: fp ∧ fp.length = res ∧ range ≤ ip.length ∧
    (r.overflow = true ↔ range < ip.length)
  overflow : 1 ≤ range + res → (r.overflow = true ↔ 2 ^ (range + res + 1) < 3 * n)

theorem plusOnly_point {a b : List Char} : plusOnly (a ++ '.' :: b) = plusOnly a ++ '.' :: plusOnly b := by
  simp [plusOnly]

theorem minusOnly_point {a b : List Char} : minusOnly (a ++ '.' :: b) = minusOnly a ++ '.' :: minusOnly b := by
  simp [minusOnly]

theorem plusOnly_digit {s : List Char} (h : ∀ c ∈ s, IsDigit c) : ∀ c ∈ plusOnly s, IsDigit c := by
  intro c hc
  obtain ⟨d, hd, rfl⟩ := List.mem_map.1 hc
  rcases h d hd with rfl | rfl | rfl <;> simp [IsDigit]

theorem minusOnly_digit {s : List Char} (h : ∀ c ∈ s, IsDigit c) : ∀ c ∈ minusOnly s, IsDigit c := by
  intro c hc
  obtain ⟨d, hd, rfl⟩ := List.mem_map.1 hc
  rcases h d hd with rfl | rfl | rfl <;> simp [IsDigit]

theorem plusOnly_flip {s : List Char} (h : ∀ c ∈ s, IsDigit c) :
    intVal (plusOnly (s.map flip)) = -intVal (minusOnly s) := by
  rw [← intVal_flip (minusOnly_digit h)]
  congr 1
  simp only [plusOnly, minusOnly, List.map_map]
  apply List.map_congr_left
  intro c hc
  rcases h c hc with rfl | rfl | rfl <;> simp [flip]

theorem minusOnly_flip {s : List Char} (h : ∀ c ∈ s, IsDigit c) :
    intVal (minusOnly (s.map flip)) = -intVal (plusOnly s) := by
  rw [← intVal_flip (plusOnly_digit h)]
  congr 1
  simp only [plusOnly, minusOnly, List.map_map]
  apply List.map_congr_left
  intro c hc
  rcases h c hc with rfl | rfl | rfl <;> simp [flip]

/-- A string `s` of canonical digits with value `±n`, written with `res` digits after the point, is `Good`. -/
theorem good_of (num : α) (range res n : ℕ) (s : List Char) (r : Res α) (p m : ℤ)
    (hn : n = ⌊|num| * 2 ^ res⌋₊)
    (hd : ∀ c ∈ s, IsDigit c) (hch : s.IsChain (fun a b => a = '0' ∨ b = '0'))
    (hv : intVal s = (if num < 0 then -1 else 1) * (n : ℤ)) (hlen : range + res ≤ s.length)
    (hp : intVal (plusOnly s) = p) (hm : intVal (minusOnly s) = -m)
    (hdig : r.digits = s.take (s.length - res) ++ '.' :: s.drop (s.length - res))
    (hpos : r.pos = (p : α) / 2 ^ res) (hneg : r.neg = (m : α) / 2 ^ res)
    (herr : r.err = num - (r.pos - r.neg)) (htr : r.truncated = decide (|num| * 2 ^ res ≠ (n : α)))
    (hov : r.overflow = decide (range + res < s.length))
    (hovf : 1 ≤ range + res → (range + res < s.length ↔ 2 ^ (range + res + 1) < 3 * n)) :
    Good num range res n r := by
  have h2 : (0 : α) < 2 ^ res := by positivity
  have hsplit : intVal s = p - m := by rw [intVal_split, hp, hm]; ring
  have hval : r.pos - r.neg = (intVal s : α) / 2 ^ res := by
    rw [hpos, hneg, hsplit]; push_cast; ring
  have hden : Denotes r.digits (r.pos - r.neg) := by
    rw [hval, hdig]; exact point_denotes hd (by omega)
  have hcan : Canonical r.digits := by
    unfold Canonical
    rw [hdig, digits_point (fun c hc => hd c (List.mem_of_mem_take hc)) (fun c hc => hd c (List.mem_of_mem_drop hc)),
      List.take_append_drop]
    exact hch
  have hvalue : r.pos - r.neg = (if num < 0 then -1 else 1) * (n : α) / 2 ^ res := by
    rw [hval, hv]; split_ifs <;> push_cast <;> ring
  have hlo : (n : α) ≤ |num| * 2 ^ res := by rw [hn]; exact Nat.floor_le (by positivity)
  have hhi : |num| * 2 ^ res < n + 1 := by rw [hn]; exact Nat.lt_floor_add_one _
  -- the error, up to the sign of `num`
  have herr' : r.err = (if num < 0 then -1 else 1) * (|num| - n / 2 ^ res) := by
    rw [herr, hvalue]
    split_ifs with h0
    · rw [abs_of_neg h0]; ring
    · rw [abs_of_nonneg (not_lt.1 h0)]; ring
  have he0 : 0 ≤ |num| - n / 2 ^ res := by
    rw [sub_nonneg, div_le_iff₀ h2]; exact hlo
  have he1 : |num| - n / 2 ^ res < 1 / 2 ^ res := by
    rw [sub_lt_iff_lt_add, ← add_div, lt_div_iff₀ h2]; linarith
  refine ⟨hvalue, hden, ?_, ?_, hcan, fun t ht => C64_canonical_minimal _ _ _ hden ht hcan, herr, ?_, ?_, ?_, ?_, ?_⟩
  · rw [hdig, plusOnly_point, hpos, ← hp]
    have := point_denotes (α := α) (plusOnly_digit hd) (k := res) (by simp [plusOnly]; omega)
    simpa [plusOnly, List.map_take, List.map_drop] using this
  · rw [hdig, minusOnly_point, hneg, ← neg_div, ← Int.cast_neg, ← hm]
    have := point_denotes (α := α) (minusOnly_digit hd) (k := res) (by simp [minusOnly]; omega)
    simpa [minusOnly, List.map_take, List.map_drop] using this
  · rw [herr', abs_mul, abs_of_nonneg he0]
    split_ifs <;> simpa using he1
  · rw [herr']
    split_ifs with h0
    · nlinarith
    · have := mul_nonneg he0 (not_lt.1 h0); simpa using this
  · rw [htr, herr', decide_eq_true_iff]
    apply not_congr
    have : |num| * 2 ^ res = n ↔ |num| - n / 2 ^ res = 0 := by
      rw [sub_eq_zero, eq_div_iff h2.ne']
    rw [this]
    split_ifs
    · rw [neg_one_mul, neg_eq_zero]
    · rw [one_mul]
  · refine ⟨_, _, hdig, by simp; omega, by simp; omega, ?_⟩
    rw [hov, decide_eq_true_iff, List.length_take]
    omega
  · intro h1
    rw [hov, decide_eq_true_iff]
    exact hovf h1

/-- **C97.**  For every number, range and resolution `csdigit` gives one of the two errors, exactly in the documented
cases, or terminates with a string, `pos`, `neg` and `err` that are `Good`. -/
theorem C97_csdigit (num : α) (range res : ℕ) :
    (∀ fuel, csdigit fuel num range res = .error .precision ↔ num ≠ 0 ∧ |num| * 2 ^ res < 1) ∧
    (∀ fuel, csdigit fuel num range res = .error .tooLarge ↔ 2 ^ (range + res) + 1 ≤ |num| * 2 ^ res) ∧
    (num = 0 ∨ 1 ≤ |num| * 2 ^ res → |num| * 2 ^ res < 2 ^ (range + res) + 1 →
      ∃ r fuel₀, (∀ fuel, fuel₀ ≤ fuel → csdigit fuel num range res = .ok (some r)) ∧
        Good num range res ⌊|num| * 2 ^ res⌋₊ r) := by
  have h2 : (0 : α) < 2 ^ res := by positivity
  set n := ⌊|num| * 2 ^ res⌋₊ with hn
  have hlo : (n : α) ≤ |num| * 2 ^ res := Nat.floor_le (by positivity)
  have hprec : (|num| * 2 ^ res ≠ (n : α) ∧ n = 0) ↔ num ≠ 0 ∧ |num| * 2 ^ res < 1 := by
    rw [hn, Nat.floor_eq_zero]
    constructor
    · rintro ⟨h, h'⟩
      refine ⟨?_, h'⟩
      rintro rfl
      simp at h
    · rintro ⟨h, h'⟩
      refine ⟨?_, h'⟩
      rw [Nat.floor_eq_zero.2 h']
      simpa using h
  have hlarge : 2 ^ (range + res) < n ↔ (2 : α) ^ (range + res) + 1 ≤ |num| * 2 ^ res := by
    rw [← Nat.succ_le_iff, hn, Nat.le_floor_iff (by positivity)]
    push_cast; rfl
  have hexcl : (2 : α) ^ (range + res) + 1 ≤ |num| * 2 ^ res → ¬ |num| * 2 ^ res < 1 := by
    intro h h'
    have : (0 : α) < 2 ^ (range + res) := by positivity
    linarith
  refine ⟨fun fuel => ?_, fun fuel => ?_, fun h1 h3 => ?_⟩
  · unfold csdigit
    simp only [← hn]
    rw [← hprec]
    constructor
    · intro h
      by_contra hc
      rw [if_neg hc] at h
      split_ifs at h
      all_goals first | simp at h; done | (split at h <;> simp at h)
    · intro h; rw [if_pos h]
  · unfold csdigit
    simp only [← hn]
    constructor
    · intro h
      by_contra hc
      rw [← hlarge] at hc
      rw [if_neg hc] at h
      split_ifs at h
      all_goals first | simp at h; done | (split at h <;> simp at h)
    · intro h
      rw [if_neg (by rw [hprec]; exact fun h' => hexcl h h'.2), if_pos (hlarge.2 h)]
  · obtain ⟨N, D, hloop, hinv, hpair⟩ := core n (range + res)
    have hP : ¬ (|num| * 2 ^ res ≠ (n : α) ∧ n = 0) := by
      rw [hprec]
      rintro ⟨ha, hb⟩
      rcases h1 with h | h
      · exact ha h
      · linarith
    have hL : ¬ 2 ^ (range + res) < n := by rw [hlarge]; exact not_le.2 h3
    have hdg := final_digits hinv
    have hchn := final_chain hinv hpair
    have hval := final_val hinv
    have hlen := final_length hinv
    have hw : range + res ≤ width N (range + res) := by unfold width; omega
    have hplus : intVal (plusOnly (final N (range + res) D)) = (N : ℤ) := by
      unfold final
      rw [plusOnly_zip _ _ (by rw [dec2bin_length, hinv.length]) hinv.chars, bin2dec_dec2bin]
    have hminus : intVal (minusOnly (final N (range + res) D)) = -(bin2dec (mask D) : ℤ) := by
      have := intVal_split (final N (range + res) D)
      rw [hplus, hval] at this
      have hv := hinv.val
      omega
    have hov := core_overflow hinv hpair
    set F := final N (range + res) D with hF
    set A := F.take (F.length - res) ++ '.' :: F.drop (F.length - res) with hA
    by_cases h0 : num < 0
    · refine ⟨⟨A.map flip, (bin2dec (mask D) : α) / 2 ^ res, (N : α) / 2 ^ res,
        num - ((bin2dec (mask D) : α) / 2 ^ res - (N : α) / 2 ^ res), decide (|num| * 2 ^ res ≠ (n : α)),
        decide (range + res < F.length)⟩, ones n, fun fuel hf => ?_, ?_⟩
      · unfold csdigit
        simp only [← hn]
        rw [if_neg hP, if_neg hL, hloop fuel hf]
        simp only [bin2dec_dec2bin, if_pos h0]
        rw [if_neg (by rw [← final, ← hF]; omega)]
        rfl
      · refine good_of num range res n (F.map flip) _ (bin2dec (mask D)) N hn ?_ (chain_flip hchn) ?_ (by simp; omega)
          ?_ ?_ ?_ (by simp) (by simp) rfl rfl (by simp) (by simpa using hov)
        · intro c hc
          obtain ⟨d, hd, rfl⟩ := List.mem_map.1 hc
          exact flip_isDigit (hdg d hd)
        · rw [intVal_flip hdg, hval, if_pos h0]; ring
        · rw [plusOnly_flip hdg, hminus]; ring
        · rw [minusOnly_flip hdg, hplus]
        · simp [hA, flip, List.map_take, List.map_drop]
    · refine ⟨⟨A, (N : α) / 2 ^ res, (bin2dec (mask D) : α) / 2 ^ res,
        num - ((N : α) / 2 ^ res - (bin2dec (mask D) : α) / 2 ^ res), decide (|num| * 2 ^ res ≠ (n : α)),
        decide (range + res < F.length)⟩, ones n, fun fuel hf => ?_, ?_⟩
      · unfold csdigit
        simp only [← hn]
        rw [if_neg hP, if_neg hL, hloop fuel hf]
        simp only [bin2dec_dec2bin, if_neg h0]
        rw [if_neg (by rw [← final, ← hF]; omega)]
        rfl
      · exact good_of num range res n F _ N (bin2dec (mask D)) hn hdg hchn (by rw [hval, if_neg h0]; ring) (by omega)
          hplus hminus rfl (by simp) (by simp) rfl rfl rfl (by simpa using hov)

/-- **C97, default arguments.**  `csdigit(num)` with `|num| ≥ 1` gives no error and no overflow warning: the string has
exactly `⌈log₂|num|⌉ + 1` places before the point and the value of `num` truncated to an integer. -/
theorem C97_default (num : α) (h1 : 1 ≤ |num|) :
    ∃ r fuel₀, (∀ fuel, fuel₀ ≤ fuel → csdigit fuel num (defaultRange num) 0 = .ok (some r)) ∧
      Good num (defaultRange num) 0 ⌊|num|⌋₊ r ∧ r.overflow = false ∧
      (defaultRange num : ℤ) = Int.clog 2 |num| + 1 ∧ r.digits.length = defaultRange num + 1 := by
  have hc0 : 0 ≤ Int.clog 2 |num| := by
    have := Int.clog_mono_right (b := 2) one_pos h1
    simpa using this
  obtain ⟨c, hc⟩ := Int.eq_ofNat_of_zero_le hc0
  have hr : defaultRange num = c + 1 := by unfold defaultRange; omega
  have hle : |num| ≤ 2 ^ c := by
    have := Int.self_le_zpow_clog (b := 2) (by norm_num) |num|
    rw [hc] at this
    simpa using this
  have hlt : |num| * 2 ^ 0 < 2 ^ (defaultRange num + 0) + 1 := by
    rw [hr, add_zero, pow_succ]
    have : (0 : α) < 2 ^ c := by positivity
    linarith
  obtain ⟨r, f, hf, hg⟩ := (C97_csdigit num (defaultRange num) 0).2.2 (.inr (by simpa using h1)) hlt
  have hn : ⌊|num| * 2 ^ 0⌋₊ ≤ 2 ^ c := by
    have h3 : ((⌊|num| * 2 ^ 0⌋₊ : ℕ) : α) ≤ |num| * 2 ^ 0 := Nat.floor_le (by positivity)
    have h4 : ((⌊|num| * 2 ^ 0⌋₊ : ℕ) : α) ≤ ((2 ^ c : ℕ) : α) := by
      push_cast; linarith
    exact_mod_cast h4
  have hov : ¬ r.overflow = true := by
    rw [hg.overflow (by omega), hr]
    have h5 : 2 ^ (c + 1 + 0 + 1) = 4 * 2 ^ c := by ring
    have : 0 < 2 ^ c := by positivity
    omega
  refine ⟨r, f, hf, by simpa using hg, by simpa using hov, by omega, ?_⟩
  obtain ⟨ip, fp, h6, h7, h8, h9⟩ := hg.shape
  rw [h6]
  have : ¬ defaultRange num < ip.length := fun h => hov (h9.2 h)
  simp; omega

/-- The documented examples. -/
example : (match csdigit 10 (23 : ℚ) (defaultRange (23 : ℚ)) 0 with
    | .ok (some r) => some r.digits
    | _ => none) = some "+0-00-.".toList := by
  have : defaultRange (23 : ℚ) = 6 := by
    unfold defaultRange
    have : Int.clog 2 |(23 : ℚ)| = 5 := by
      rw [abs_of_pos (by norm_num)]
      exact_mod_cast Int.clog_natCast (R := ℚ) 2 23
    rw [this]; rfl
  rw [this]
  decide +kernel

example : (match csdigit 10 (23.5 : ℚ) 6 2 with
    | .ok (some r) => some (r.digits, r.pos, r.neg, r.err, r.truncated, r.overflow)
    | _ => none) = some ("+0-000.-0".toList, 32, 8.5, 0, false, false) := by decide +kernel

end Csdigit
end Verif
