import Mathlib.Data.List.GetD
import Verif.Model.CsdNumbers
import Verif.Props.CsdMin

/-!
# The table of `csd_numbers.py` (C65)
-/
set_option linter.unusedSectionVars false

namespace Verif
open CsdSpec
variable {α : Type _} [Field α] [LinearOrder α] [IsStrictOrderedRing α]

/-- No two adjacent nonzero digits, by position. -/
def AdjZero (l : List Char) : Prop := ∀ j, (h : j + 1 < l.length) → l[j] = '0' ∨ l[j + 1] = '0'

theorem adjZero_iff_chain (l : List Char) : AdjZero l ↔ l.IsChain (fun a b => a = '0' ∨ b = '0') := by
  rw [List.isChain_iff_getElem]
  exact Iff.rfl

/-- **C65.**  `is_proper_csd` accepts exactly the lists without two adjacent nonzero digits. -/
theorem C65_is_proper_csd (l : List Char) : isProperCsd l = true ↔ AdjZero l := by
  unfold isProperCsd AdjZero
  rw [List.all_eq_true]
  constructor
  · intro h j hj
    have := h (j + 1) (by rw [List.mem_range'_1]; omega)
    rw [List.getD_eq_getElem _ _ hj, Nat.add_sub_cancel, List.getD_eq_getElem _ _ (by omega)] at this
    by_contra hc
    obtain ⟨h1, h2⟩ := not_or.1 hc
    simp [h1, h2] at this
  · intro h j hj
    rw [List.mem_range'_1] at hj
    obtain ⟨i, rfl⟩ : ∃ i, j = i + 1 := ⟨j - 1, by omega⟩
    have hi : i + 1 < l.length := by omega
    rw [List.getD_eq_getElem _ _ hi, Nat.add_sub_cancel, List.getD_eq_getElem _ _ (by omega)]
    rcases h i hi with h' | h' <;> simp [h']

/-- Proper digit strings that agree with `b` from position `i` on. -/
def TabOk (i : ℕ) (b s : List Char) : Prop :=
  s.length = b.length ∧ (∀ c ∈ s, IsDigit c) ∧ AdjZero s ∧ ∀ j, i ≤ j → s[j]? = b[j]?

/-- Two proper strings of the same length and value are the same. -/
theorem proper_unique {s t : List Char} (hl : s.length = t.length) (hs : ∀ c ∈ s, IsDigit c)
    (ht : ∀ c ∈ t, IsDigit c) (ps : AdjZero s) (pt : AdjZero t) (h : intVal s = intVal t) : s = t := by
  have hmapc : ∀ l : List Char, (∀ c ∈ l, IsDigit c) → (l.map digVal).map digitChar = l := by
    intro l hl
    rw [List.map_map]
    conv_rhs => rw [← List.map_id l]
    apply List.map_congr_left
    intro c hc
    exact digitChar_digVal (hl c hc)
  have hdig : ∀ l : List Char, ∀ d ∈ l.map digVal, Dig d := by
    intro l d hd
    obtain ⟨c, _, rfl⟩ := List.mem_map.1 hd
    exact digVal_dig c
  have e1 := digs_of_naf (α := ℚ) (naf_of_chain hs ((adjZero_iff_chain s).1 ps)) (hdig s) (p := 1) one_pos
  have e2 := digs_of_naf (α := ℚ) (naf_of_chain ht ((adjZero_iff_chain t).1 pt)) (hdig t) (p := 1) one_pos
  have hp : posVal (1 : ℚ) (s.map digVal) = posVal (1 : ℚ) (t.map digVal) := by
    rw [posVal_intVal _ _ (hdig s), posVal_intVal _ _ (hdig t), hmapc s hs, hmapc t ht, h,
      List.length_map, List.length_map, hl]
  rw [List.length_map] at e1 e2
  rw [hp, hl, e2] at e1
  rw [← hmapc s hs, ← hmapc t ht, e1]

/-- What a call at level `i` does: the first `i` positions are run through. -/
def TabLevel (i : ℕ) (f : CsdTab α → Except PyErr (CsdTab α)) : Prop :=
  ∀ st : CsdTab α, (∀ c ∈ st.num, IsDigit c) → i ≤ st.num.length → ∃ st', f st = .ok st' ∧
    st'.indent = st.indent ∧ st'.num.length = st.num.length ∧ (∀ c ∈ st'.num, IsDigit c) ∧
    (∀ j, i ≤ j → st'.num[j]? = st.num[j]?) ∧
    ∀ k s, st'.dict k = some s ↔ (TabOk i st.num s ∧ ((intVal s : ℤ) : α) = k) ∨
      ((¬ ∃ s', TabOk i st.num s' ∧ ((intVal s' : ℤ) : α) = k) ∧ st.dict k = some s)

theorem visit_level : TabLevel (α := α) 0 CsdTab.visit := by
  intro st hd _
  have hOk : ∀ s, TabOk 0 st.num s ↔ s = st.num ∧ AdjZero st.num := by
    intro s
    constructor
    · rintro ⟨h1, h2, h3, h4⟩
      have : s = st.num := List.ext_getElem? fun j => h4 j (Nat.zero_le j)
      exact ⟨this, this ▸ h3⟩
    · rintro ⟨rfl, h⟩
      exact ⟨rfl, hd, h, fun _ _ => rfl⟩
  by_cases hp : isProperCsd st.num = true
  · have hA := (C65_is_proper_csd st.num).1 hp
    refine ⟨{ st with dict := Function.update st.dict ((intVal st.num : ℤ) : α) (some st.num) }, ?_, rfl, rfl, hd,
      fun _ _ => rfl, ?_⟩
    · unfold CsdTab.visit
      rw [if_pos hp, toDecimal_int st.num hd]
    · intro k s
      simp only [hOk]
      by_cases hk : k = ((intVal st.num : ℤ) : α)
      · subst hk
        rw [Function.update_self]
        constructor
        · intro h
          injection h with h
          subst h
          exact .inl ⟨⟨rfl, hA⟩, rfl⟩
        · rintro (⟨⟨rfl, _⟩, _⟩ | ⟨h, _⟩)
          · rfl
          · exact absurd ⟨st.num, ⟨rfl, hA⟩, rfl⟩ h
      · rw [Function.update_of_ne hk]
        constructor
        · intro h
          refine .inr ⟨?_, h⟩
          rintro ⟨s', ⟨rfl, _⟩, h'⟩
          exact hk h'.symm
        · rintro (⟨⟨rfl, _⟩, h⟩ | ⟨_, h⟩)
          · exact absurd h.symm hk
          · exact h
  · refine ⟨st, ?_, rfl, rfl, hd, fun _ _ => rfl, ?_⟩
    · unfold CsdTab.visit
      rw [if_neg hp]
    · intro k s
      have hA : ¬ AdjZero st.num := fun h => hp ((C65_is_proper_csd st.num).2 h)
      simp only [hOk, hA, and_false, false_and, exists_const, false_or, not_false_eq_true, true_and]

theorem tabOk_set_congr {i : ℕ} {b b' s : List Char} {ch : Char} (hl : b.length = b'.length)
    (h : ∀ j, i + 1 ≤ j → b[j]? = b'[j]?) : TabOk i (b.set i ch) s ↔ TabOk i (b'.set i ch) s := by
  unfold TabOk
  rw [List.length_set, List.length_set, hl]
  have : ∀ j, i ≤ j → (b.set i ch)[j]? = (b'.set i ch)[j]? := by
    intro j hj
    rw [List.getElem?_set, List.getElem?_set, hl]
    by_cases hij : i = j
    · rw [if_pos hij, if_pos hij]
    · rw [if_neg hij, if_neg hij]; exact h j (by omega)
  constructor
  · rintro ⟨h1, h2, h3, h4⟩; exact ⟨h1, h2, h3, fun j hj => (h4 j hj).trans (this j hj)⟩
  · rintro ⟨h1, h2, h3, h4⟩; exact ⟨h1, h2, h3, fun j hj => (h4 j hj).trans (this j hj).symm⟩

theorem chars_level (i : ℕ) (f : CsdTab α → Except PyErr (CsdTab α)) (hf : TabLevel i f) (l : List Char)
    (hl : ∀ c ∈ l, IsDigit c) (st : CsdTab α) (hd : ∀ c ∈ st.num, IsDigit c) (hi : i < st.num.length) :
    ∃ st', CsdTab.chars i f l st = .ok st' ∧
      st'.indent = st.indent ∧ st'.num.length = st.num.length ∧ (∀ c ∈ st'.num, IsDigit c) ∧
      (∀ j, i + 1 ≤ j → st'.num[j]? = st.num[j]?) ∧
      ∀ k s, st'.dict k = some s ↔
        ((∃ ch ∈ l, TabOk i (st.num.set i ch) s) ∧ ((intVal s : ℤ) : α) = k) ∨
        ((¬ ∃ s', (∃ ch ∈ l, TabOk i (st.num.set i ch) s') ∧ ((intVal s' : ℤ) : α) = k) ∧
          st.dict k = some s) := by
  induction l generalizing st with
  | nil => exact ⟨st, rfl, rfl, rfl, hd, fun _ _ => rfl, fun k s => by simp⟩
  | cons ch l ih =>
    have hd1 : ∀ c ∈ st.num.set i ch, IsDigit c := by
      intro c hc
      rcases List.mem_or_eq_of_mem_set hc with hc | rfl
      · exact hd c hc
      · exact hl c (by simp)
    obtain ⟨st1, e1, a1, b1, c1, d1, k1⟩ := hf { st with num := st.num.set i ch } hd1 (by simp; omega)
    simp only [List.length_set] at b1
    obtain ⟨st2, e2, a2, b2, c2, d2, k2⟩ := ih (fun c hc => hl c (List.mem_cons_of_mem _ hc)) st1 c1
      (by rw [b1]; exact hi)
    have d1' : ∀ j, i + 1 ≤ j → st1.num[j]? = st.num[j]? := by
      intro j hj
      rw [d1 j (by omega), List.getElem?_set_ne (by omega)]
    refine ⟨st2, ?_, a2.trans a1, b2.trans b1, c2, fun j hj => (d2 j hj).trans (d1' j hj), ?_⟩
    · simp only [CsdTab.chars, CsdTab.store]
      rw [if_pos hi]
      simp only
      rw [e1]
      exact e2
    · intro k s
      rw [k2, k1]
      have hcongr : ∀ s', (∃ c ∈ l, TabOk i (st1.num.set i c) s') ↔ ∃ c ∈ l, TabOk i (st.num.set i c) s' :=
        fun s' => exists_congr fun c => and_congr_right fun _ => tabOk_set_congr b1 d1'
      simp only [hcongr]
      have hu : ∀ c c' s s', TabOk i (st.num.set i c) s → TabOk i (st.num.set i c') s' →
          ((intVal s : ℤ) : α) = k → ((intVal s' : ℤ) : α) = k → s = s' := by
        intro c c' s s' h h' hk hk'
        have h1 := h.1
        have h2 := h'.1
        rw [List.length_set] at h1 h2
        exact proper_unique (h1.trans h2.symm) h.2.1 h'.2.1 h.2.2.1 h'.2.2.1
          (by exact_mod_cast hk.trans hk'.symm)
      constructor
      · rintro (⟨⟨c, hc, h⟩, hk⟩ | ⟨hn, (⟨h, hk⟩ | ⟨hn', h⟩)⟩)
        · exact .inl ⟨⟨c, List.mem_cons_of_mem _ hc, h⟩, hk⟩
        · exact .inl ⟨⟨ch, by simp, h⟩, hk⟩
        · refine .inr ⟨?_, h⟩
          rintro ⟨s', ⟨c, hc, h'⟩, hk⟩
          rcases List.mem_cons.1 hc with rfl | hc
          · exact hn' ⟨s', h', hk⟩
          · exact hn ⟨s', ⟨c, hc, h'⟩, hk⟩
      · rintro (⟨⟨c, hc, h⟩, hk⟩ | ⟨hn, h⟩)
        · rcases List.mem_cons.1 hc with rfl | hc
          · by_cases hex : ∃ s', (∃ c ∈ l, TabOk i (st.num.set i c) s') ∧ ((intVal s' : ℤ) : α) = k
            · obtain ⟨s', ⟨c', hc', h'⟩, hk'⟩ := hex
              have : s = s' := hu _ _ _ _ h h' hk hk'
              subst this
              exact .inl ⟨⟨c', hc', h'⟩, hk⟩
            · exact .inr ⟨hex, .inl ⟨h, hk⟩⟩
          · exact .inl ⟨⟨c, hc, h⟩, hk⟩
        · refine .inr ⟨?_, .inr ⟨?_, h⟩⟩
          · rintro ⟨s', ⟨c, hc, h'⟩, hk⟩
            exact hn ⟨s', ⟨c, List.mem_cons_of_mem _ hc, h'⟩, hk⟩
          · rintro ⟨s', h', hk⟩
            exact hn ⟨s', ⟨ch, by simp, h'⟩, hk⟩

theorem tabOk_succ {i : ℕ} {b s : List Char} (hi : i < b.length) :
    (∃ ch ∈ ['0', '-', '+'], TabOk i (b.set i ch) s) ↔ TabOk (i + 1) b s := by
  constructor
  · rintro ⟨ch, _, h1, h2, h3, h4⟩
    refine ⟨by simpa using h1, h2, h3, fun j hj => ?_⟩
    rw [h4 j (by omega), List.getElem?_set_ne (by omega)]
  · rintro ⟨h1, h2, h3, h4⟩
    have hs : i < s.length := by omega
    refine ⟨s[i], ?_, by simpa using h1, h2, h3, fun j hj => ?_⟩
    · rcases h2 s[i] (List.getElem_mem hs) with h | h | h <;> rw [h] <;> simp
    · rw [List.getElem?_set]
      by_cases hij : i = j
      · subst hij
        rw [if_pos rfl, if_pos hi, List.getElem?_eq_getElem hs]
      · rw [if_neg hij]; exact h4 j (by omega)

theorem cycleBits_of_body (i : ℕ) (f : CsdTab α → Except PyErr (CsdTab α)) (hf : TabLevel i f) :
    TabLevel (α := α) (i + 1) (CsdTab.cycle i f) := by
  intro st hd hi
  obtain ⟨st', e, a, b, c, d, k⟩ := chars_level i f hf ['0', '-', '+'] (by decide)
    { st with indent := st.indent + 2 } hd (Nat.lt_of_succ_le hi)
  refine ⟨{ st' with indent := st'.indent - 2 }, ?_, ?_, b, c, d, ?_⟩
  · simp only [CsdTab.cycle, e]
  · simp only [a]; ring
  · intro k' s
    have := k k' s
    simp only [tabOk_succ (b := st.num) (Nat.lt_of_succ_le hi)] at this
    exact this

theorem cycleBits_level (i : ℕ) : TabLevel (α := α) (i + 1) (CsdTab.cycleBits i) := by
  induction i with
  | zero => exact cycleBits_of_body 0 CsdTab.visit visit_level
  | succ i ih => exact cycleBits_of_body (i + 1) (CsdTab.cycleBits i) ih

/-- **C65.**  After `cycle_bits(num_digits - 1)` the dictionary holds, under each key, exactly the proper
string of `num_digits` digits with that value; the keys are the integers `k` with `3|k| ≤ 2^(num_digits+1)`;
`indent_` is restored. -/
theorem C65_cycle_bits (n : ℕ) : ∃ st', CsdTab.cycleBits n (CsdTab.fresh (α := α) (n + 1)) = .ok st' ∧
    st'.indent = 2 ∧
    (∀ k s, st'.dict k = some s ↔
      s.length = n + 1 ∧ (∀ c ∈ s, IsDigit c) ∧ AdjZero s ∧ Denotes s k) ∧
    (∀ k, (∃ s, st'.dict k = some s) ↔ ∃ z : ℤ, k = z ∧ 3 * |z| ≤ 2 ^ (n + 2)) := by
  obtain ⟨st', e, a, b, c, d, k⟩ := cycleBits_level (α := α) n (CsdTab.fresh (n + 1)) (by
    intro c hc
    rw [(List.mem_replicate.1 hc).2]; exact .inr (.inr rfl)) (by simp [CsdTab.fresh])
  have hlen : (CsdTab.fresh (α := α) (n + 1)).num.length = n + 1 := by simp [CsdTab.fresh]
  have hdict : ∀ k s, st'.dict k = some s ↔
      s.length = n + 1 ∧ (∀ c ∈ s, IsDigit c) ∧ AdjZero s ∧ ((intVal s : ℤ) : α) = k := by
    intro k' s
    rw [k]
    have hno : (CsdTab.fresh (α := α) (n + 1)).dict k' = some s ↔ False := by simp [CsdTab.fresh]
    rw [hno, and_false, or_false]
    unfold TabOk
    rw [hlen]
    constructor
    · rintro ⟨⟨h1, h2, h3, _⟩, h⟩; exact ⟨h1, h2, h3, h⟩
    · rintro ⟨h1, h2, h3, h⟩
      refine ⟨⟨h1, h2, h3, fun j hj => ?_⟩, h⟩
      rw [List.getElem?_eq_none (by omega), List.getElem?_eq_none (by omega)]
  have hmapc : ∀ l : List Char, (∀ c ∈ l, IsDigit c) → (l.map digVal).map digitChar = l := by
    intro l hl
    rw [List.map_map]
    conv_rhs => rw [← List.map_id l]
    apply List.map_congr_left
    intro c hc
    exact digitChar_digVal (hl c hc)
  have hdig : ∀ l : List Char, ∀ d ∈ l.map digVal, Dig d := by
    intro l d hd
    obtain ⟨c, _, rfl⟩ := List.mem_map.1 hd
    exact digVal_dig c
  refine ⟨st', e, a, fun k' s => ?_, fun k' => ?_⟩
  · rw [hdict]
    constructor
    · rintro ⟨h1, h2, h3, rfl⟩; exact ⟨h1, h2, h3, Denotes.int s h2⟩
    · rintro ⟨h1, h2, h3, h⟩; exact ⟨h1, h2, h3, (Denotes.int (α := α) s h2).unique h⟩
  · simp only [hdict]
    constructor
    · rintro ⟨s, h1, h2, h3, rfl⟩
      refine ⟨intVal s, rfl, ?_⟩
      have hb := (naf_bound (α := ℚ) (naf_of_chain h2 ((adjZero_iff_chain s).1 h3)) (hdig s) (p := 2 ^ n)
        (by positivity)).1
      rw [posVal_intVal _ _ (hdig s), hmapc s h2, List.length_map, h1] at hb
      have e1 : (2 : ℚ) * 2 ^ n / 2 ^ (n + 1) = 1 := by rw [pow_succ]; field_simp
      rw [e1, mul_one] at hb
      have : (3 * |((intVal s : ℤ) : ℚ)|) ≤ 2 ^ (n + 2) := by
        rw [pow_add]; linarith
      exact_mod_cast this
    · rintro ⟨z, rfl, hz⟩
      have hz' : |(z : ℚ)| ≤ 4 / 3 * 2 ^ n := by
        have : (3 * |(z : ℚ)|) ≤ 2 ^ (n + 2) := by exact_mod_cast hz
        rw [pow_add] at this
        linarith
      have hp : (0 : ℚ) < 2 ^ n := by positivity
      refine ⟨(digs (n + 1) (z : ℚ) (2 ^ n)).map digitChar, by simp [digs_length], mem_map_isDigit _, ?_, ?_⟩
      · rw [adjZero_iff_chain]
        have hN := digs_naf (n + 1) hp hz'
        have hD := digs_dig (n + 1) (z : ℚ) (2 ^ n)
        have := (canonical_csdText (n := 1) hD).2 hN
        unfold Canonical at this
        rw [digits_csdText] at this
        simpa using this
      · have hval := digs_val (n + 1) (z : ℚ) (2 ^ n)
        have hres := csdRes_strong (n + 1) hp hz'
        rw [posVal_intVal _ _ (digs_dig _ _ _), digs_length] at hval
        have e1 : (2 : ℚ) * 2 ^ n / 2 ^ (n + 1) = 1 := by rw [pow_succ]; field_simp
        have e2 : (4 : ℚ) / 3 * 2 ^ n / 2 ^ (n + 1) = 2 / 3 := by rw [pow_succ]; field_simp; norm_num
        rw [e1, mul_one] at hval
        rw [e2] at hres
        generalize intVal ((digs (n + 1) (z : ℚ) (2 ^ n)).map digitChar) = y at hval ⊢
        have h1 : |(z : ℚ) - y| < 1 := by
          have : (z : ℚ) - y = csdRes (n + 1) (z : ℚ) (2 ^ n) := by linear_combination hval
          rw [this]; linarith
        have h2 : |z - y| < 1 := by exact_mod_cast h1
        have : z - y = 0 := Int.abs_lt_one_iff.1 h2
        have h3 : z = y := by omega
        rw [h3]

/-- **C65** `cycle_bits(i)` with `i` beyond the last digit raises `IndexError` before anything is entered in the table. -/
theorem C65_cycle_bits_range (i : ℕ) (st : CsdTab α) (h : st.num.length ≤ i) :
    CsdTab.cycleBits i st = .error .indexError := by
  cases i <;> simp [CsdTab.cycleBits, CsdTab.cycle, CsdTab.chars, CsdTab.store, Nat.not_lt.2 h]

/-- With three digits `cycle_bits(3)` fails. -/
example : CsdTab.cycleBits 3 (CsdTab.fresh (α := ℚ) 3) = .error .indexError :=
  C65_cycle_bits_range 3 _ (by simp [CsdTab.fresh])

/-- Non-vacuity: `+0-` is proper, `++0` is not, and a two-digit table. -/
example : isProperCsd "+0-".toList = true ∧ isProperCsd "++0".toList = false := by
  constructor <;> rfl

/-- The four-digit table of the module has the entry `-0+0` under `-6`. -/
example : ∃ st', CsdTab.cycleBits 3 (CsdTab.fresh (α := ℚ) 4) = .ok st' ∧ st'.dict (-6) = some "-0+0".toList := by
  obtain ⟨st', e, _, h, _⟩ := C65_cycle_bits (α := ℚ) 3
  refine ⟨st', e, (h _ _).2 ⟨rfl, by decide, (C65_is_proper_csd _).1 rfl, ?_⟩⟩
  have := Denotes.int (α := ℚ) "-0+0".toList (by decide)
  have e : ((intVal "-0+0".toList : ℤ) : ℚ) = -6 := by
    have : intVal "-0+0".toList = -6 := by decide
    rw [this]; norm_num
  rwa [e] at this

end Verif
