import Verif.Model.Csdigit
import Verif.Proofs.Csd
import Mathlib.Data.Nat.Bitwise

/-! # The loop of `csdigit.m` -/
namespace Verif
namespace Csdigit
open CsdSpec

/-- Length of `dec2bin d len`. -/
def width (d len : ℕ) : ℕ := max (max len d.size) 1

theorem dec2bin_length (d len : ℕ) : (dec2bin d len).length = width d len := by
  simp [dec2bin, width]

theorem dec2bin_get {d len k : ℕ} (h : k < (dec2bin d len).length) :
    (dec2bin d len)[k] = if d.testBit (width d len - 1 - k) then '1' else '0' := by
  simp [dec2bin, width]

theorem lt_two_pow_width (d len : ℕ) : d < 2 ^ width d len :=
  lt_of_lt_of_le (Nat.lt_size_self d) (Nat.pow_le_pow_right (by norm_num) (by unfold width; omega))

theorem bin2dec_ofBits (d w : ℕ) :
    bin2dec ((List.range w).map fun k => if d.testBit (w - 1 - k) then '1' else '0') = d % 2 ^ w := by
  induction w with
  | zero => simp [bin2dec, Nat.mod_one]
  | succ w ih =>
    rw [List.range_succ_eq_map, List.map_cons, List.map_map]
    have : ((fun k => if d.testBit (w + 1 - 1 - k) then '1' else '0') ∘ Nat.succ) =
        fun k => if d.testBit (w - 1 - k) then '1' else '0' := by
      funext k
      simp only [Function.comp]
      congr 3
      omega
    rw [this]
    simp only [bin2dec, List.length_map, List.length_range, ih]
    rw [Nat.mod_pow_succ]
    have h0 : w + 1 - 1 - 0 = w := by omega
    rw [h0, Nat.testBit_eq_decide_div_mod_eq]
    rcases Nat.mod_two_eq_zero_or_one (d / 2 ^ w) with h | h <;> simp [h]
    ring

theorem bin2dec_dec2bin (d len : ℕ) : bin2dec (dec2bin d len) = d := by
  have := bin2dec_ofBits d (width d len)
  rw [Nat.mod_eq_of_lt (lt_two_pow_width d len)] at this
  exact this

theorem bin2dec_set {l : List Char} {k : ℕ} (h : k < l.length) (h0 : l[k] ≠ '1') :
    bin2dec (l.set k '1') = bin2dec l + 2 ^ (l.length - 1 - k) := by
  induction l generalizing k with
  | nil => simp at h
  | cons c l ih =>
    cases k with
    | zero =>
      simp only [List.getElem_cons_zero] at h0
      simp [bin2dec, h0]; ring
    | succ k =>
      simp only [List.getElem_cons_succ] at h0
      simp only [List.length_cons] at h
      simp only [List.set_cons_succ, bin2dec, ih (by omega) h0, List.length_set, List.length_cons]
      rw [show l.length + 1 - 1 - (k + 1) = l.length - 1 - k by omega]
      ring

theorem bin2dec_zeros (w : ℕ) : bin2dec (List.replicate w '0') = 0 := by
  induction w with
  | zero => rfl
  | succ w ih => simp [List.replicate_succ, bin2dec, ih]

theorem bin2dec_adder {w k : ℕ} (h : k < w) : bin2dec ((List.replicate w '0').set k '1') = 2 ^ (w - 1 - k) := by
  rw [bin2dec_set (by simpa using h) (by simp), bin2dec_zeros]; simp

/-! ### Positions of adjacent ones -/

/-- Positions `k + 1` of a one directly after a one. -/
def runs (k : ℕ) : List Char → List ℕ
  | c :: e :: l => if c = '1' ∧ e = '1' then (k + 1) :: runs (k + 1) (e :: l) else runs (k + 1) (e :: l)
  | _ => []

theorem onesLoc_ge (k : ℕ) (l : List Char) : ∀ x ∈ onesLoc k l, k ≤ x := by
  induction l generalizing k with
  | nil => simp [onesLoc]
  | cons c l ih =>
    intro x hx
    unfold onesLoc at hx
    split_ifs at hx
    · rcases List.mem_cons.1 hx with rfl | hx
      · exact le_rfl
      · have := ih (k + 1) x hx; omega
    · have := ih (k + 1) x hx; omega

theorem onesRun_cons_far {a k : ℕ} {l : List Char} (h : a + 1 < k) :
    onesRun (a :: onesLoc k l) = onesRun (onesLoc k l) := by
  cases hl : onesLoc k l with
  | nil => rfl
  | cons b t =>
    have := onesLoc_ge k l b (by rw [hl]; simp)
    rw [onesRun, if_neg (by omega)]

theorem onesRun_onesLoc (k : ℕ) (l : List Char) : onesRun (onesLoc k l) = runs k l := by
  induction l generalizing k with
  | nil => rfl
  | cons c l ih =>
    cases l with
    | nil =>
      simp only [onesLoc, runs]
      split_ifs <;> rfl
    | cons e l =>
      rw [runs, ← ih (k + 1)]
      by_cases hc : c = '1'
      · by_cases he : e = '1'
        · rw [if_pos ⟨hc, he⟩]
          have h1 : onesLoc k (c :: e :: l) = k :: (k + 1) :: onesLoc (k + 1 + 1) l := by
            simp [onesLoc, hc, he]
          have h2 : onesLoc (k + 1) (e :: l) = (k + 1) :: onesLoc (k + 1 + 1) l := by
            simp [onesLoc, he]
          rw [h1, h2, onesRun, if_pos rfl]
        · rw [if_neg (fun h => he h.2)]
          have h1 : onesLoc k (c :: e :: l) = k :: onesLoc (k + 1 + 1) l := by
            simp [onesLoc, hc, he]
          have h2 : onesLoc (k + 1) (e :: l) = onesLoc (k + 1 + 1) l := by
            simp [onesLoc, he]
          rw [h1, h2, onesRun_cons_far (by omega)]
      · rw [if_neg (fun h => hc h.1)]
        have h1 : onesLoc k (c :: e :: l) = onesLoc (k + 1) (e :: l) := by
          rw [onesLoc, if_neg hc]
        rw [h1]

theorem mem_runs {k x : ℕ} {l : List Char} :
    x ∈ runs k l ↔ ∃ j, ∃ (h : j + 1 < l.length), x = k + (j + 1) ∧ l[j] = '1' ∧ l[j + 1] = '1' := by
  induction l generalizing k with
  | nil => simp [runs]
  | cons c l ih =>
    cases l with
    | nil => simp [runs]
    | cons e l =>
      rw [runs]
      constructor
      · intro hx
        have key : x ∈ runs (k + 1) (e :: l) →
            ∃ j, ∃ (h : j + 1 < (c :: e :: l).length), x = k + (j + 1) ∧ (c :: e :: l)[j] = '1' ∧
              (c :: e :: l)[j + 1] = '1' := by
          intro hx
          obtain ⟨j, h, h1, h2, h3⟩ := ih.1 hx
          exact ⟨j + 1, by simpa using h, by omega, by simpa using h2, by simpa using h3⟩
        split_ifs at hx with hce
        · rcases List.mem_cons.1 hx with rfl | hx
          · exact ⟨0, by simp, rfl, by simpa using hce.1, by simpa using hce.2⟩
          · exact key hx
        · exact key hx
      · rintro ⟨j, h, h1, h2, h3⟩
        cases j with
        | zero =>
          simp only [List.getElem_cons_zero, List.getElem_cons_succ] at h2 h3
          rw [if_pos ⟨h2, h3⟩, h1]
          simp
        | succ j =>
          have : x ∈ runs (k + 1) (e :: l) :=
            ih.2 ⟨j, by simpa using h, by omega, by simpa using h2, by simpa using h3⟩
          split_ifs
          · exact List.mem_cons_of_mem _ this
          · exact this

theorem runs_sorted (k : ℕ) (l : List Char) : (runs k l).Pairwise (· < ·) := by
  induction l generalizing k with
  | nil => simp [runs]
  | cons c l ih =>
    cases l with
    | nil => simp [runs]
    | cons e l =>
      rw [runs]
      split_ifs
      · refine List.pairwise_cons.2 ⟨fun x hx => ?_, ih _⟩
        obtain ⟨j, -, h, -⟩ := mem_runs.1 hx
        omega
      · exact ih _

/-- Bits `i`, `i + 1` are both set. -/
def Pair (d i : ℕ) : Prop := d.testBit i = true ∧ d.testBit (i + 1) = true

/-- The loop condition and the chosen position, in terms of bits. -/
theorem last_run (d len : ℕ) :
    ((onesRun (onesLoc 0 (dec2bin d len))).getLast? = none ∧ ∀ i, ¬ Pair d i) ∨
    ∃ i, i + 1 < width d len ∧ Pair d i ∧ (∀ q, q < i → ¬ Pair d q) ∧
      (onesRun (onesLoc 0 (dec2bin d len))).getLast? = some (width d len - 1 - i) := by
  rw [onesRun_onesLoc]
  have hmem : ∀ i, Pair d i → i + 1 < width d len ∧ width d len - 1 - i ∈ runs 0 (dec2bin d len) := by
    rintro i ⟨h1, h2⟩
    have hw : i + 1 < width d len := by
      by_contra hcon
      have := Nat.testBit_lt_two_pow (x := d) (i := i + 1)
        (lt_of_lt_of_le (lt_two_pow_width d len) (Nat.pow_le_pow_right (by norm_num) (by omega)))
      rw [this] at h2
      simp at h2
    refine ⟨hw, mem_runs.2 ⟨width d len - 1 - (i + 1), by rw [dec2bin_length]; omega, by omega, ?_, ?_⟩⟩
    · rw [dec2bin_get, if_pos]
      rwa [show width d len - 1 - (width d len - 1 - (i + 1)) = i + 1 by omega]
    · rw [dec2bin_get, if_pos]
      rwa [show width d len - 1 - (width d len - 1 - (i + 1) + 1) = i by omega]
  cases hl : (runs 0 (dec2bin d len)).getLast? with
  | none =>
    rw [List.getLast?_eq_none_iff] at hl
    refine .inl ⟨rfl, fun i hi => ?_⟩
    have := (hmem i hi).2
    rw [hl] at this
    simp at this
  | some x =>
    obtain ⟨pre, hx⟩ := List.getLast?_eq_some_iff.1 hl
    have hxm : x ∈ runs 0 (dec2bin d len) := by rw [hx]; simp
    obtain ⟨j, hj, h1, h2, h3⟩ := mem_runs.1 hxm
    rw [dec2bin_length] at hj
    rw [dec2bin_get] at h2 h3
    have b2 : d.testBit (width d len - 1 - j) = true := by
      by_contra h; rw [if_neg h] at h2; simp at h2
    have b3 : d.testBit (width d len - 1 - (j + 1)) = true := by
      by_contra h; rw [if_neg h] at h3; simp at h3
    refine .inr ⟨width d len - 1 - (j + 1), by omega, ⟨b3, ?_⟩, fun q hq hp => ?_, ?_⟩
    · rwa [show width d len - 1 - (j + 1) + 1 = width d len - 1 - j by omega]
    · obtain ⟨hq1, hq2⟩ := hmem q hp
      have hs := runs_sorted 0 (dec2bin d len)
      rw [hx] at hs hq2
      rw [List.pairwise_append] at hs
      rcases List.mem_append.1 hq2 with h | h
      · have := hs.2.2 _ h x (by simp); omega
      · simp at h; omega
    · congr 1; omega

/-! ### One step on the bits -/

theorem step_bits {d i : ℕ} (h : Pair d i) :
    (d + 2 ^ i).testBit i = false ∧ (d + 2 ^ i).testBit (i + 1) = false ∧
      ∀ q, q < i → (d + 2 ^ i).testBit q = d.testBit q := by
  rw [add_comm]
  refine ⟨by rw [Nat.testBit_two_pow_add_eq, h.1]; rfl, ?_, fun q hq => Nat.testBit_two_pow_add_gt hq d⟩
  have e1 : d.testBit i = (d / 2 ^ i).testBit 0 := by rw [Nat.testBit_div_two_pow]; simp
  have e2 : d.testBit (i + 1) = (d / 2 ^ i).testBit 1 := by rw [Nat.testBit_div_two_pow, add_comm]
  have e3 : (2 ^ i + d).testBit (i + 1) = (d / 2 ^ i + 1).testBit 1 := by
    rw [← Nat.add_div_left _ (by positivity : 0 < 2 ^ i), Nat.testBit_div_two_pow, add_comm 1 i]
  obtain ⟨h1, h2⟩ := h
  rw [e1] at h1
  rw [e2] at h2
  rw [e3]
  generalize d / 2 ^ i = m at h1 h2
  simp only [Nat.testBit, Nat.shiftRight_zero, Nat.one_and_eq_mod_two, Nat.shiftRight_one, bne_iff_ne, ne_eq] at h1 h2 ⊢
  simp
  omega

/-- Number of ones. -/
def ones : ℕ → ℕ
  | 0 => 0
  | n + 1 => (n + 1) % 2 + ones ((n + 1) / 2)
decreasing_by omega

theorem ones_bit (n : ℕ) : ones n = n % 2 + ones (n / 2) := by
  cases n with
  | zero => simp [ones]
  | succ n => rw [ones]

theorem ones_succ (n : ℕ) : ones (n + 1) ≤ ones n + 1 := by
  induction n using Nat.strong_induction_on with
  | _ n ih =>
    rw [ones_bit (n + 1), ones_bit n]
    rcases Nat.mod_two_eq_zero_or_one n with h | h
    · rw [show (n + 1) / 2 = n / 2 by omega]; omega
    · have := ih (n / 2) (by omega)
      rw [show (n + 1) / 2 = n / 2 + 1 by omega]; omega

/-- A step removes at least one `1`. -/
theorem ones_step {d i : ℕ} (h : Pair d i) : ones (d + 2 ^ i) < ones d := by
  induction i generalizing d with
  | zero =>
    obtain ⟨h1, h2⟩ := h
    simp only [Nat.testBit, Nat.shiftRight_zero, Nat.one_and_eq_mod_two, Nat.shiftRight_one, bne_iff_ne, ne_eq,
      zero_add] at h1 h2
    rw [pow_zero, ones_bit (d + 1), ones_bit ((d + 1) / 2), ones_bit d, ones_bit (d / 2)]
    have := ones_succ (d / 2 / 2)
    rw [show (d + 1) / 2 / 2 = d / 2 / 2 + 1 by omega]
    omega
  | succ i ih =>
    have h' : Pair (d / 2) i := by
      obtain ⟨h1, h2⟩ := h
      rw [Nat.testBit_succ] at h1 h2
      exact ⟨h1, h2⟩
    have := ih h'
    rw [ones_bit (d + 2 ^ (i + 1)), ones_bit d]
    rw [show (d + 2 ^ (i + 1)) / 2 = d / 2 + 2 ^ i by rw [pow_succ]; omega,
      show (d + 2 ^ (i + 1)) % 2 = d % 2 by rw [pow_succ]; omega]
    omega

/-! ### The loop invariant -/

/-- Character at weight `2 ^ p`. -/
def dg (D : List Char) (p : ℕ) : Char := (D.reverse[p]?).getD '0'

theorem dg_eq {D : List Char} {k : ℕ} (h : k < D.length) : dg D (D.length - 1 - k) = D[k] := by
  unfold dg
  rw [List.getElem?_reverse (by omega), show D.length - 1 - (D.length - 1 - k) = k by omega,
    List.getElem?_eq_getElem h]
  rfl

theorem dg_ge {D : List Char} {p : ℕ} (h : D.length ≤ p) : dg D p = '0' := by
  unfold dg
  rw [List.getElem?_eq_none (by simpa using h)]; rfl

theorem dg_cons (D : List Char) (p : ℕ) : dg ('0' :: D) p = dg D p := by
  unfold dg
  rw [List.reverse_cons]
  rcases Nat.lt_trichotomy p D.length with h | h | h
  · rw [List.getElem?_append_left (by simpa using h)]
  · rw [List.getElem?_append_right (by simp [h]), List.getElem?_eq_none (l := D.reverse) (by simp [h])]
    simp [h]
  · rw [List.getElem?_eq_none (by simp; omega), List.getElem?_eq_none (by simp; omega)]

theorem dg_set {D : List Char} {i : ℕ} (h : i < D.length) (c : Char) (p : ℕ) :
    dg (D.set (D.length - 1 - i) c) p = if p = i then c else dg D p := by
  rcases Nat.lt_or_ge p D.length with hp | hp
  · have h1 := dg_eq (D := D.set (D.length - 1 - i) c) (k := D.length - 1 - p) (by simp; omega)
    have e0 : (D.set (D.length - 1 - i) c).length - 1 - (D.length - 1 - p) = p := by rw [List.length_set]; omega
    rw [e0, List.getElem_set] at h1
    have h2 := dg_eq (D := D) (k := D.length - 1 - p) (by omega)
    rw [show D.length - 1 - (D.length - 1 - p) = p by omega] at h2
    rw [h1, h2]
    by_cases hpi : p = i
    · rw [if_pos (by omega), if_pos hpi]
    · rw [if_neg (by omega), if_neg hpi]
  · rw [dg_ge (by simpa using hp), dg_ge hp, if_neg (by omega)]

/-- The string read by `bin2dec` for `neg`. -/
def mask (D : List Char) : List Char := D.map fun c => if c = '-' then '1' else '0'

theorem mask_set (D : List Char) (k : ℕ) : mask (D.set k '-') = (mask D).set k '1' := by
  simp [mask, List.map_set]

structure Inv (n0 len N : ℕ) (D : List Char) : Prop where
  length : D.length = width N len
  chars : ∀ c ∈ D, c = '0' ∨ c = '-'
  val : N = n0 + bin2dec (mask D)
  minus : ∀ p, dg D p = '-' → N.testBit p = false ∧ N.testBit (p + 1) = false ∧ (∀ q, q + 1 = p → N.testBit q = false) ∧
    dg D (p + 1) ≠ '-' ∧ ∀ q, q ≤ p → ¬ Pair N q

theorem width_step {N len i : ℕ} (h : i + 1 < width N len) :
    width (N + 2 ^ i) len = width N len ∨ width (N + 2 ^ i) len = width N len + 1 := by
  have h1 : N.size ≤ (N + 2 ^ i).size := Nat.size_le_size (Nat.le_add_right _ _)
  have h2 : (N + 2 ^ i).size ≤ width N len + 1 := by
    rw [Nat.size_le, pow_succ]
    have := lt_two_pow_width N len
    have : 2 ^ i ≤ 2 ^ width N len := Nat.pow_le_pow_right (by norm_num) (by omega)
    omega
  unfold width at h2 ⊢
  omega

/-- The body of the loop keeps the invariant. -/
theorem inv_step {n0 len N i : ℕ} {D : List Char} (h : Inv n0 len N D) (hi : i + 1 < width N len) (hp : Pair N i)
    (hmin : ∀ q, q < i → ¬ Pair N q) :
    Inv n0 len (N + 2 ^ i)
      (if (D.set (width N len - 1 - i) '-').length < (dec2bin (N + 2 ^ i) len).length
        then '0' :: D.set (width N len - 1 - i) '-' else D.set (width N len - 1 - i) '-') := by
  have hl := h.length
  have hk : width N len - 1 - i < D.length := by omega
  have hdi : dg D i ≠ '-' := fun e => by
    have := (h.minus i e).1
    rw [hp.1] at this
    simp at this
  have hDk : D[width N len - 1 - i] ≠ '-' := by
    have := dg_eq hk
    rw [← this, hl, show width N len - 1 - (width N len - 1 - i) = i by omega]
    exact hdi
  obtain ⟨b0, b1, b2⟩ := step_bits hp
  have hold : ∀ p, dg D p = '-' → p + 2 ≤ i := by
    intro p e
    obtain ⟨-, h2, -, -, h5⟩ := h.minus p e
    by_contra hcon
    have hip : i ≤ p ∨ i = p + 1 := by omega
    rcases hip with hip | rfl
    · exact h5 i hip hp
    · rw [hp.1] at h2; simp at h2
  have hset : ∀ p, dg (D.set (width N len - 1 - i) '-') p = if p = i then '-' else dg D p := by
    intro p
    have := dg_set (D := D) (i := i) (by omega) '-' p
    rwa [hl] at this
  -- invariant of the string before padding
  have hminus : ∀ p, dg (D.set (width N len - 1 - i) '-') p = '-' →
      (N + 2 ^ i).testBit p = false ∧ (N + 2 ^ i).testBit (p + 1) = false ∧
        (∀ q, q + 1 = p → (N + 2 ^ i).testBit q = false) ∧
        dg (D.set (width N len - 1 - i) '-') (p + 1) ≠ '-' ∧ ∀ q, q ≤ p → ¬ Pair (N + 2 ^ i) q := by
    intro p e
    rw [hset] at e
    by_cases hpi : p = i
    · subst hpi
      have hprev : ∀ q, q + 1 = p → N.testBit q = false := by
        intro q hq
        by_contra hb
        exact hmin q (by omega) ⟨by simpa using hb, by rw [hq]; exact hp.1⟩
      refine ⟨b0, b1, fun q hq => by rw [b2 q (by omega)]; exact hprev q hq, ?_, ?_⟩
      · rw [hset, if_neg (by omega)]
        intro e'
        have := (h.minus _ e').1
        rw [hp.2] at this; simp at this
      · intro q hq hpair
        rcases Nat.lt_or_ge (q + 1) p with hlt | hge
        · refine hmin q (by omega) ⟨?_, ?_⟩
          · rw [← b2 q (by omega)]; exact hpair.1
          · rw [← b2 (q + 1) hlt]; exact hpair.2
        · have : q = p ∨ q + 1 = p := by omega
          rcases this with rfl | hqp
          · have := hpair.1; rw [b0] at this; simp at this
          · have := hpair.2; rw [hqp, b0] at this; simp at this
    · rw [if_neg hpi] at e
      have h2 := hold p e
      obtain ⟨m1, m2, m3, m4, m5⟩ := h.minus p e
      refine ⟨by rw [b2 p (by omega)]; exact m1, by rw [b2 (p + 1) (by omega)]; exact m2,
        fun q hq => by rw [b2 q (by omega)]; exact m3 q hq, ?_, ?_⟩
      · rw [hset, if_neg (by omega)]; exact m4
      · intro q hq hpair
        refine m5 q hq ⟨?_, ?_⟩
        · rw [← b2 q (by omega)]; exact hpair.1
        · rw [← b2 (q + 1) (by omega)]; exact hpair.2
  have hchars : ∀ c ∈ D.set (width N len - 1 - i) '-', c = '0' ∨ c = '-' := by
    intro c hc
    rcases List.mem_or_eq_of_mem_set hc with hc | rfl
    · exact h.chars c hc
    · exact .inr rfl
  have hval : N + 2 ^ i = n0 + bin2dec (mask (D.set (width N len - 1 - i) '-')) := by
    rw [mask_set, bin2dec_set (by simpa [mask] using hk) (by simp [mask, hDk]), ← add_assoc, ← h.val]
    simp only [mask, List.length_map]
    rw [hl, show width N len - 1 - (width N len - 1 - i) = i by omega]
  rw [List.length_set, dec2bin_length, hl]
  rcases width_step hi with hw | hw
  · rw [hw, if_neg (lt_irrefl _)]
    exact ⟨by rw [List.length_set, hl, hw], hchars, hval, hminus⟩
  · rw [hw, if_pos (Nat.lt_succ_self _)]
    refine ⟨by rw [List.length_cons, List.length_set, hl, hw], ?_, ?_, ?_⟩
    · intro c hc
      rcases List.mem_cons.1 hc with rfl | hc
      · exact .inl rfl
      · exact hchars c hc
    · rw [hval]; simp [mask, bin2dec]
    · intro p hp'
      rw [dg_cons] at hp' ⊢
      exact hminus p hp'

/-- The loop ends after at most `ones N` rounds, with the invariant and without adjacent ones. -/
theorem loop_spec {n0 len : ℕ} (fuel N : ℕ) (D : List Char) (h : Inv n0 len N D) (hf : ones N ≤ fuel) :
    ∃ N' D', loop len fuel (dec2bin N len) D = some (dec2bin N' len, D') ∧ Inv n0 len N' D' ∧ ∀ i, ¬ Pair N' i := by
  induction fuel generalizing N D with
  | zero =>
    rcases last_run N len with ⟨h1, h2⟩ | ⟨i, -, hp, -, -⟩
    · exact ⟨N, D, by unfold loop; rw [h1], h, h2⟩
    · have := ones_step hp; omega
  | succ fuel ih =>
    rcases last_run N len with ⟨h1, h2⟩ | ⟨i, hi, hp, hmin, hlast⟩
    · exact ⟨N, D, by unfold loop; rw [h1], h, h2⟩
    · have := ones_step hp
      have hs := inv_step h hi hp hmin
      obtain ⟨N', D', h3, h4, h5⟩ := ih _ _ hs (by omega)
      refine ⟨N', D', ?_, h4, h5⟩
      rw [loop, hlast]
      dsimp only
      rw [bin2dec_dec2bin, dec2bin_length, bin2dec_adder (by omega),
        show width N len - 1 - (width N len - 1 - i) = i by omega]
      exact h3

theorem inv_init (n len : ℕ) : Inv n len n (List.replicate (dec2bin n len).length '0') := by
  refine ⟨by rw [List.length_replicate, dec2bin_length], ?_, ?_, ?_⟩
  · intro c hc; exact .inl (List.eq_of_mem_replicate hc)
  · simp [mask, bin2dec_zeros]
  · intro p hp
    exfalso
    revert hp
    unfold dg
    rw [List.reverse_replicate]
    rcases Nat.lt_or_ge p (dec2bin n len).length with h | h
    · rw [List.getElem?_replicate_of_lt h]; simp
    · rw [List.getElem?_eq_none (by simpa using h)]; simp

/-! ### The final string -/

/-- `digits` with the `+` written in. -/
def final (N len : ℕ) (D : List Char) : List Char :=
  List.zipWith (fun b d => if b = '1' then '+' else d) (dec2bin N len) D

theorem final_length {n0 len N : ℕ} {D : List Char} (h : Inv n0 len N D) : (final N len D).length = width N len := by
  simp [final, dec2bin_length, h.length]

theorem final_digits {n0 len N : ℕ} {D : List Char} (h : Inv n0 len N D) : ∀ c ∈ final N len D, IsDigit c := by
  intro c hc
  obtain ⟨k, hk, rfl⟩ := List.mem_iff_getElem.1 hc
  have hkD : k < D.length := by rw [final_length h] at hk; rw [h.length]; exact hk
  simp only [final, List.getElem_zipWith]
  split_ifs
  · exact .inl rfl
  · rcases h.chars _ (List.getElem_mem hkD) with e | e
    · exact .inr (.inr e)
    · exact .inr (.inl e)

theorem intVal_zip (l D : List Char) (hlen : l.length = D.length) (hc : ∀ c ∈ D, c = '0' ∨ c = '-')
    (hno : ∀ k (h : k < l.length) (h' : k < D.length), D[k] = '-' → l[k] ≠ '1') :
    intVal (List.zipWith (fun b d => if b = '1' then '+' else d) l D) = (bin2dec l : ℤ) - bin2dec (mask D) := by
  induction l generalizing D with
  | nil =>
    cases D with
    | nil => simp [intVal, bin2dec, mask]
    | cons => simp at hlen
  | cons b l ih =>
    cases D with
    | nil => simp at hlen
    | cons d D =>
      simp only [List.length_cons, add_left_inj] at hlen
      have ih' := ih D hlen (fun c hcd => hc c (List.mem_cons_of_mem _ hcd)) (fun k h h' e =>
        hno (k + 1) (Nat.succ_lt_succ h) (Nat.succ_lt_succ h') e)
      have h0 := hno 0 (by simp) (by simp)
      simp only [List.getElem_cons_zero] at h0
      simp only [List.zipWith_cons_cons, intVal, ih', bin2dec, mask, List.map_cons, List.length_zipWith, hlen, min_self,
        List.length_map]
      rcases hc d (by simp) with rfl | rfl
      · by_cases hb : b = '1'
        · subst hb; simp [digVal]; ring
        · simp [hb, digVal]
      · have hb := h0 rfl
        simp [hb, digVal]; ring

theorem final_val {n0 len N : ℕ} {D : List Char} (h : Inv n0 len N D) : intVal (final N len D) = n0 := by
  have hl : (dec2bin N len).length = D.length := by rw [dec2bin_length, h.length]
  unfold final
  rw [intVal_zip _ _ hl h.chars, bin2dec_dec2bin]
  · have := h.val; omega
  · intro k hk hk' e
    have h1 := dg_eq hk'
    rw [e] at h1
    have h2 := (h.minus _ h1).1
    rw [dec2bin_get, ← h.length, h2]
    simp

theorem final_chain {n0 len N : ℕ} {D : List Char} (h : Inv n0 len N D) (hn : ∀ i, ¬ Pair N i) :
    (final N len D).IsChain (fun a b => a = '0' ∨ b = '0') := by
  rw [List.isChain_iff_getElem]
  intro k hk
  rw [final_length h] at hk
  have hl := h.length
  have hD : ∀ j (hj : j < D.length), D[j] ≠ '-' → D[j] = '0' := fun j hj hne =>
    (h.chars _ (List.getElem_mem hj)).resolve_right hne
  have e1 : dg D (width N len - 1 - k) = D[k]'(by omega) := by
    rw [← hl]; exact dg_eq (by omega)
  have e2 : dg D (width N len - 1 - (k + 1)) = D[k + 1]'(by omega) := by
    rw [← hl]; exact dg_eq (by omega)
  have hpos : width N len - 1 - (k + 1) + 1 = width N len - 1 - k := by omega
  simp only [final, List.getElem_zipWith, dec2bin_get]
  by_cases b1 : N.testBit (width N len - 1 - k) = true
  · -- the left one is `+`
    right
    have b2 : N.testBit (width N len - 1 - (k + 1)) = false := by
      by_contra hb
      exact hn _ ⟨by simpa using hb, by rw [hpos]; exact b1⟩
    simp only [b2]
    simp only [Bool.false_eq_true, if_false, Char.reduceEq]
    refine hD _ (by omega) fun e => ?_
    have := (h.minus _ (e2.trans e)).2.1
    rw [hpos, b1] at this
    simp at this
  · have b1' : N.testBit (width N len - 1 - k) = false := by simpa using b1
    by_cases dm : D[k]'(by omega) = '-'
    · right
      have hm := h.minus _ (e1.trans dm)
      have b2 : N.testBit (width N len - 1 - (k + 1)) = false := hm.2.2.1 _ hpos
      simp only [b2]
      simp only [Bool.false_eq_true, if_false, Char.reduceEq]
      refine hD _ (by omega) fun e => ?_
      have := (h.minus _ (e2.trans e)).2.2.2.1
      rw [hpos, e1] at this
      exact this dm
    · left
      simp only [b1']
      simp only [Bool.false_eq_true, if_false, Char.reduceEq]
      exact hD _ (by omega) dm

end Csdigit
end Verif
