import Mathlib.Tactic.NormNum
import Verif.Proofs.Csd

/-!
# `to_csd` and `to_decimal` (C56 – C60)
-/
set_option linter.unusedSectionVars false

namespace Verif
open CsdSpec
variable {α : Type _} [Field α] [LinearOrder α] [IsStrictOrderedRing α]

/-! ## C60: `to_decimal` -/

/-- **C60.**  A signed-digit string is converted to its value. -/
theorem C60_to_decimal_value (s : List Char) (q : α) (h : Denotes s q) : toDecimal s = .ok q :=
  toDecimal_denotes h

/-- **C60.**  `ValueError` is raised exactly on strings with a character outside `+-0.`, and no other
exception is. -/
theorem C60_to_decimal_rejects (s : List Char) :
    (toDecimal s = (.error .valueError : Except PyErr α) ↔
      ∃ c ∈ s, c ≠ '+' ∧ c ≠ '-' ∧ c ≠ '0' ∧ c ≠ '.') ∧
    (∀ e, toDecimal s = (.error e : Except PyErr α) → e = .valueError) := by
  have hc : ∀ c : Char, ¬ (IsDigit c ∨ c = '.') ↔ c ≠ '+' ∧ c ≠ '-' ∧ c ≠ '0' ∧ c ≠ '.' := by
    intro c; unfold IsDigit; tauto
  rcases decLoop_error_iff (α := α) 0 0 0 s with ⟨h, c, hm, hb⟩ | ⟨⟨r, h⟩, hall⟩
  · have e : toDecimal s = (.error .valueError : Except PyErr α) := by unfold toDecimal; rw [h]
    refine ⟨⟨fun _ => ⟨c, hm, (hc c).1 hb⟩, fun _ => e⟩, fun e' h' => ?_⟩
    rw [e] at h'
    injection h' with h'
    exact h'.symm
  · have e : ∃ x, toDecimal s = (.ok x : Except PyErr α) := by
      unfold toDecimal; rw [h]; exact ⟨_, rfl⟩
    obtain ⟨x, e⟩ := e
    refine ⟨⟨fun h' => ?_, fun ⟨c, hm, hb⟩ => ?_⟩, fun e' h' => ?_⟩
    · rw [e] at h'; injection h'
    · exact absurd (hall c hm) ((hc c).2 hb)
    · rw [e] at h'; injection h'

/-- A legal string has only one value. -/
theorem CsdSpec.Denotes.unique {s : List Char} {q q' : α} (h : Denotes s q) (h' : Denotes s q') : q = q' := by
  have := (toDecimal_denotes h).symm.trans (toDecimal_denotes h')
  injection this

example : Denotes "+0-.0+".toList (13 / 4 : ℚ) := by
  have := Denotes.point (α := ℚ) "+0-".toList "0+".toList (by decide) (by decide)
  have e : ((intVal "+0-".toList : ℤ) : ℚ) + fracVal "0+".toList = 13 / 4 := by
    simp [intVal, fracVal, digVal]; norm_num
  rw [e] at this
  exact this

variable [FloorSemiring α]

/-! ## C57, C56: accuracy -/

/-- **C57.**  `to_csd` always writes a legal string, whose value is within `2^-places` of the number, and
within two thirds of that unless `2/3 < |v| < 1`. -/
theorem C57_to_csd_error (v : α) (places : ℕ) :
    ∃ q : α, Denotes (toCsd v places) q ∧ toDecimal (toCsd v places) = .ok q ∧
      |v - q| < 1 / 2 ^ places ∧ (|v| ≤ 2 / 3 ∨ 1 ≤ |v| → |v - q| ≤ 2 / 3 * (1 / 2 ^ places)) := by
  by_cases hv : v = 0
  · subst hv
    have hd : Denotes (toCsd (0 : α) places) (0 : α) := by
      have := Denotes.int (α := α) ['0'] (by decide)
      have e : (((intVal ['0'] : ℤ)) : α) = 0 := by simp [intVal, digVal]
      rw [e] at this
      unfold toCsd
      rw [if_pos rfl]
      exact this
    have hp : (0 : α) < 1 / 2 ^ places := by positivity
    refine ⟨0, hd, toDecimal_denotes hd, by simp, fun _ => ?_⟩
    simp only [sub_self, abs_zero]
    positivity
  · have hnat : (((csdLen |v|).toNat : ℕ) : ℤ) = csdLen |v| := Int.toNat_of_nonneg (csdLen_nonneg |v|)
    generalize hN : (csdLen |v|).toNat = N at hnat
    have hp : (0 : α) < 2 ^ (csdLen |v| - 1) := zpow_pos two_pos _
    have hden := csdText_denotes (α := α) N (digs (N + places) v (2 ^ (csdLen |v| - 1)))
      (digs_dig _ _ _) (by rw [digs_length]; omega)
    rw [hnat] at hden
    have hs := toCsd_eq v places hv
    rw [hN] at hs
    rw [← hs] at hden
    have hval := digs_val (N + places) v (2 ^ (csdLen |v| - 1))
    have hdiff : v - posVal (2 ^ (csdLen |v| - 1)) (digs (N + places) v (2 ^ (csdLen |v| - 1))) =
        csdRes (N + places) v (2 ^ (csdLen |v| - 1)) := by linear_combination hval
    have hsc : (2 : α) ^ (csdLen |v| - 1) / 2 ^ (N + places) = 1 / 2 * (1 / 2 ^ places) := by
      rw [← hnat, zpow_sub₀ two_ne_zero, zpow_natCast, pow_add]; field_simp
    refine ⟨_, hden, toDecimal_denotes hden, ?_, fun h => ?_⟩
    · rw [hdiff]
      refine (csdRes_weak (N + places) hp (csdLen_bound v)).trans_eq ?_
      rw [mul_div_assoc, hsc]; ring
    · rw [hdiff]
      refine (csdRes_strong (N + places) hp (csdLen_bound_strong v h)).trans_eq ?_
      rw [mul_div_assoc, hsc]; ring

/-- The value written is a multiple of `2^-places`. -/
theorem toCsd_multiple (v : α) (places : ℕ) (q : α) (hq : Denotes (toCsd v places) q) :
    ∃ z : ℤ, q = z / 2 ^ places := by
  by_cases hv : v = 0
  · subst hv
    have hd : Denotes ['0'] q := by simpa [toCsd] using hq
    have := (Denotes.int (α := α) ['0'] (by decide)).unique hd
    exact ⟨0, by rw [← this]; simp [intVal, digVal]⟩
  · have hnat : (((csdLen |v|).toNat : ℕ) : ℤ) = csdLen |v| := Int.toNat_of_nonneg (csdLen_nonneg |v|)
    generalize hN : (csdLen |v|).toNat = N at hnat
    have hden := csdText_denotes (α := α) N (digs (N + places) v (2 ^ (csdLen |v| - 1)))
      (digs_dig _ _ _) (by rw [digs_length]; omega)
    rw [hnat] at hden
    have hs := toCsd_eq v places hv
    rw [hN] at hs
    rw [← hs] at hden
    rw [hq.unique hden, posVal_intVal _ _ (digs_dig _ _ _), digs_length]
    refine ⟨intVal ((digs (N + places) v (2 ^ (csdLen |v| - 1))).map digitChar), ?_⟩
    · rw [← hnat, zpow_sub₀ two_ne_zero, zpow_natCast, pow_add]
      field_simp

/-- **C56.**  Round trip: numbers with `places` binary places survive `to_csd` followed by `to_decimal`. -/
theorem C56_round_trip (z : ℤ) (places : ℕ) :
    toDecimal (toCsd ((z : α) / 2 ^ places) places) = .ok ((z : α) / 2 ^ places) := by
  obtain ⟨q, hd, ht, he, _⟩ := C57_to_csd_error ((z : α) / 2 ^ places) places
  obtain ⟨y, hy⟩ := toCsd_multiple _ _ _ hd
  rw [ht, hy]
  congr 2
  rw [hy, ← sub_div, abs_div, abs_of_pos (by positivity : (0 : α) < 2 ^ places)] at he
  have h1 : |(z : α) - y| < 1 := by
    rwa [div_lt_div_iff_of_pos_right (by positivity)] at he
  have h2 : |z - y| < 1 := by
    have : ((|z - y| : ℤ) : α) < 1 := by push_cast; exact h1
    exact_mod_cast this
  have : z - y = 0 := Int.abs_lt_one_iff.1 h2
  have h3 : z = y := by omega
  rw [h3]

/-- Non-vacuity, a concrete conversion. -/
example : toCsd (57 / 2 : ℚ) 2 = "+00-00.+0".toList := by with_unfolding_all rfl

/-! ## C58: canonical form -/

/-- **C58.**  Exactly when the output is canonical: always, except for `2/3 < |v| < 1` with two or more
places. -/
theorem C58_canonical_iff (v : α) (places : ℕ) :
    Canonical (toCsd v places) ↔ ¬ (2 / 3 < |v| ∧ |v| < 1 ∧ 2 ≤ places) := by
  by_cases hv : v = 0
  · subst hv
    have : Canonical (toCsd (0 : α) places) := by
      unfold toCsd; rw [if_pos rfl]; decide
    refine ⟨fun _ h => ?_, fun _ => this⟩
    have := h.1
    rw [abs_zero] at this
    linarith
  · have hp : (0 : α) < 2 ^ (csdLen |v| - 1) := zpow_pos two_pos _
    rw [toCsd_eq v places hv, canonical_csdText (digs_dig _ _ _)]
    by_cases h : |v| ≤ 2 / 3 ∨ 1 ≤ |v|
    · refine ⟨fun _ hc => ?_, fun _ => digs_naf _ hp (csdLen_bound_strong v h)⟩
      rcases h with h | h
      · linarith [hc.1]
      · linarith [hc.2.1]
    · rw [not_or, not_le, not_le] at h
      obtain ⟨h1, h2⟩ := h
      rw [csdLen_small h2]
      have e0 : ((0 : ℤ).toNat + places) = places := by simp
      have e1 : ((2 : α) ^ ((0 : ℤ) - 1)) = 1 / 2 := by norm_num
      rw [e0, e1]
      rcases places with _ | _ | k
      · refine ⟨fun _ h => by omega, fun _ => List.IsChain.nil⟩
      · refine ⟨fun _ h => by omega, fun _ => List.IsChain.singleton _⟩
      · refine ⟨fun hN => ?_, fun hc => absurd ⟨h1, h2, by omega⟩ hc⟩
        exfalso
        simp only [digs] at hN
        have hr := (List.isChain_cons_cons.1 hN).1
        rw [csdDigit_eq_zero_iff (by norm_num), csdDigit_eq_zero_iff (by norm_num)] at hr
        rcases hr with hr | hr
        · linarith
        · rcases csdDigit_cases (v := v) (p := 1 / 2) (by norm_num) with ⟨h, h'⟩ | ⟨h, h'⟩ | ⟨h, h', h''⟩
          · have : 0 < v := by linarith
            rw [h] at hr
            rw [abs_of_pos this] at h1 h2
            rw [abs_le] at hr
            push_cast at hr
            linarith [hr.2]
          · have : v < 0 := by linarith
            rw [h] at hr
            rw [abs_of_neg this] at h1 h2
            rw [abs_le] at hr
            push_cast at hr
            linarith [hr.1]
          · rw [← csdDigit_eq_zero_iff (by norm_num)] at hr
            have := (csdDigit_eq_zero_iff (v := v) (p := 1 / 2) (by norm_num)).1 h
            linarith

/-- The defect on a concrete value. -/
example : toCsd (3 / 4 : ℚ) 2 = "0.++".toList ∧ ¬ Canonical "0.++".toList := by
  refine ⟨by with_unfolding_all rfl, by decide⟩

/-! ## C59: from strings and back -/

theorem toCsd_csdText {n : ℕ} {ds : List ℤ} (hD : ∀ d ∈ ds, Dig d) (hN : NAF ds) (places : ℕ)
    (hl : ds.length = n + places) (hv : posVal ((2 : α) ^ ((n : ℤ) - 1)) ds ≠ 0)
    (hlen : csdLen |posVal ((2 : α) ^ ((n : ℤ) - 1)) ds| = n) :
    toCsd (posVal ((2 : α) ^ ((n : ℤ) - 1)) ds) places = csdText n ds := by
  rw [toCsd_eq _ _ hv, hlen, Int.toNat_natCast, ← hl, digs_of_naf hN hD (zpow_pos two_pos _)]

/-- The text of a digit string with integer part `ip` and fraction `fp`. -/
def joinPoint (ip fp : List Char) : List Char := if fp = [] then ip else ip ++ '.' :: fp

/-- **C59.**  Canonical strings survive `to_decimal` followed by `to_csd`.  `ip` is the integer part, `fp` the
fraction; the integer part is either `0`, or has no leading zero and the number is at least `1` in size.  A
zero value must be written `0`. -/
theorem C59_string_round_trip (ip fp : List Char) (hip : ∀ c ∈ ip, IsDigit c) (hfp : ∀ c ∈ fp, IsDigit c)
    (hcan : Canonical (joinPoint ip fp)) (v : α) (hv : toDecimal (joinPoint ip fp) = .ok v)
    (hlead : ip = ['0'] ∨ (ip.head? ≠ some '0' ∧ 1 ≤ |v|)) (hzero : v = 0 → joinPoint ip fp = ['0']) :
    toCsd v fp.length = joinPoint ip fp := by
  by_cases hv0 : v = 0
  · rw [hzero hv0, hv0]; simp [toCsd]
  have hmapc : ∀ l : List Char, (∀ c ∈ l, IsDigit c) → (l.map digVal).map digitChar = l := by
    intro l hl
    rw [List.map_map]
    conv_rhs => rw [← List.map_id l]
    apply List.map_congr_left
    intro c hc
    exact digitChar_digVal (hl c hc)
  have hval : v = ((intVal ip : ℤ) : α) + fracVal fp := by
    have : toDecimal (joinPoint ip fp) = .ok (((intVal ip : ℤ) : α) + fracVal fp) := by
      unfold joinPoint
      by_cases h : fp = []
      · rw [if_pos h, toDecimal_int ip hip, h]; simp [fracVal]
      · rw [if_neg h, toDecimal_point ip fp hip hfp]
    rw [this] at hv
    injection hv with hv
    exact hv.symm
  -- the digit list and the number of integer digits
  obtain ⟨n, ds, hD, hl, htext, hpos⟩ : ∃ (n : ℕ) (ds : List ℤ), (∀ d ∈ ds, Dig d) ∧
      ds.length = n + fp.length ∧ csdText n ds = joinPoint ip fp ∧
      ((n = 0 ∧ ip = ['0']) ∨
        (n = ip.length ∧ ip.head? ≠ some '0' ∧ 1 ≤ |v| ∧ ds = (ip ++ fp).map digVal)) := by
    rcases hlead with h | h
    · refine ⟨0, fp.map digVal, ?_, by simp, ?_, .inl ⟨rfl, h⟩⟩
      · intro d hd
        obtain ⟨c, _, rfl⟩ := List.mem_map.1 hd
        exact digVal_dig c
      · unfold csdText joinPoint
        rw [renderAt_eq, h]
        by_cases hf : fp = []
        · simp [hf]
        · simp only [if_true, List.take_zero, List.map_nil, List.nil_append, List.drop_zero]
          rw [if_neg (by simpa using hf), if_neg hf, hmapc fp hfp]
    · have hne : ip ≠ [] ∨ ip = [] := by tauto
      have hip0 : ip.length ≠ 0 := by
        intro h0
        have h0 := List.length_eq_zero_iff.1 h0
        -- the value of a pure fraction in canonical form is below one
        have hb := naf_bound (α := α) (ds := fp.map digVal) (p := 1 / 2) (by
          have : Canonical (csdText 0 (fp.map digVal)) := by
            unfold Canonical at hcan ⊢
            rw [digits_csdText, hmapc fp hfp, if_pos rfl]
            have hf : fp.filter (fun c => decide (c ≠ '.')) = fp := by
              rw [List.filter_eq_self]; intro c hc
              have := IsDigit.ne_point (hfp c hc)
              simpa using this
            have : digits (joinPoint ip fp) = fp := by
              unfold joinPoint digits
              rw [h0]
              by_cases hf' : fp = []
              · simp [hf']
              · rw [if_neg hf', List.nil_append, List.filter_cons_of_neg (by simp), hf]
            rw [this] at hcan
            rcases fp with _ | ⟨c, l⟩
            · decide
            · exact List.isChain_cons_cons.2 ⟨.inl rfl, hcan⟩
          exact (canonical_csdText (by
            intro d hd
            obtain ⟨c, _, rfl⟩ := List.mem_map.1 hd
            exact digVal_dig c)).1 this) (by
            intro d hd
            obtain ⟨c, _, rfl⟩ := List.mem_map.1 hd
            exact digVal_dig c) (by norm_num)
        have hpv : posVal (1 / 2 : α) (fp.map digVal) = v := by
          rw [posVal_intVal _ _ (by
            intro d hd
            obtain ⟨c, _, rfl⟩ := List.mem_map.1 hd
            exact digVal_dig c), hmapc fp hfp, hval, h0, fracVal_eq, List.length_map]
          simp [intVal]
          field_simp
        rw [hpv] at hb
        linarith [hb.1, h.2]
      refine ⟨ip.length, (ip ++ fp).map digVal, ?_, by simp, ?_, .inr ⟨rfl, h.1, h.2, rfl⟩⟩
      · intro d hd
        obtain ⟨c, _, rfl⟩ := List.mem_map.1 hd
        exact digVal_dig c
      · unfold csdText joinPoint
        rw [renderAt_eq, if_neg hip0]
        have h1 : ((ip ++ fp).map digVal).take ip.length = ip.map digVal := by
          rw [List.map_append, List.take_left' (by simp)]
        have h2 : ((ip ++ fp).map digVal).drop ip.length = fp.map digVal := by
          rw [List.map_append, List.drop_left' (by simp)]
        rw [h1, h2, hmapc ip hip, List.nil_append]
        by_cases hf : fp = []
        · rw [if_pos hf, hf]; simp
        · rw [if_neg hf, if_neg (by simpa using hf), hmapc fp hfp]
  have hN : NAF ds := by
    rw [← htext] at hcan
    exact (canonical_csdText hD).1 hcan
  have hvp : posVal ((2 : α) ^ ((n : ℤ) - 1)) ds = v := by
    have h1 := csdText_denotes (α := α) n ds hD (by omega)
    rw [htext] at h1
    have h2 := toDecimal_denotes h1
    rw [hv] at h2
    injection h2 with h2
    exact h2.symm
  have hlen : csdLen |v| = n := by
    rcases hpos with ⟨h0, _⟩ | ⟨h0, h1, h2, h3⟩
    · subst h0
      have hb := (naf_bound (α := α) hN hD (p := 2 ^ (((0 : ℕ) : ℤ) - 1)) (zpow_pos two_pos _)).1
      rw [hvp] at hb
      have e1 : ((2 : α) ^ (((0 : ℕ) : ℤ) - 1)) = 1 / 2 := by norm_num
      rw [e1] at hb
      rw [csdLen_small (by linarith)]; rfl
    · have hb := (naf_bound (α := α) hN hD (p := 2 ^ ((n : ℤ) - 1)) (zpow_pos two_pos _)).1
      rw [hvp] at hb
      have e : (2 : α) ^ (n : ℤ) = 2 * 2 ^ ((n : ℤ) - 1) := by
        rw [zpow_sub₀ two_ne_zero]; field_simp
      apply csdLen_unique h2
      · rw [e]; linarith
      · rcases ds with _ | ⟨d, ds⟩
        · exfalso
          simp only [posVal] at hvp
          exact hv0 hvp.symm
        · have hh := naf_head (α := α) hN hD (p := 2 ^ ((n : ℤ) - 1)) (zpow_pos two_pos _)
          rw [hvp] at hh
          have hd0 : d ≠ 0 := by
            intro hd
            rcases ip with _ | ⟨c, ip⟩
            · simp only [List.length_nil] at h0
              subst h0
              have e1 : ((2 : α) ^ (((0 : ℕ) : ℤ) - 1)) = 1 / 2 := by norm_num
              rw [e1] at hb
              linarith
            · simp only [List.cons_append, List.map_cons, List.cons.injEq] at h3
              rw [hd] at h3
              have := (digVal_eq_zero (hip c (by simp))).1 h3.1.symm
              exact h1 (by simp [this])
          by_contra hc
          exact hd0 (hh.symm.trans ((csdDigit_eq_zero_iff (zpow_pos two_pos _)).2 (not_lt.1 hc)))
  have := toCsd_csdText (α := α) hD hN fp.length hl (by rw [hvp]; exact hv0) (by rw [hvp]; exact hlen)
  rw [hvp] at this
  rw [this, htext]

/-- Non-vacuity: `+0-.0+`. -/
example : toCsd (13 / 4 : ℚ) 2 = "+0-.0+".toList := by
  refine C59_string_round_trip "+0-".toList "0+".toList (by decide) (by decide) (by decide) (13 / 4)
    ?_ (.inr ⟨by decide, by norm_num⟩) (by norm_num)
  have : joinPoint "+0-".toList "0+".toList = "+0-.0+".toList := by decide
  rw [this]
  with_unfolding_all rfl

/-- Why the size is required: `+.0-` is canonical, but `to_csd` writes the same number as `0.++`. -/
example : toDecimal "+.0-".toList = .ok (3 / 4 : ℚ) ∧ toCsd (3 / 4 : ℚ) 2 = "0.++".toList := by
  constructor <;> with_unfolding_all rfl

end Verif
