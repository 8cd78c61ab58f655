import Mathlib.Tactic.Ring
import Mathlib.Data.List.Chain
import Mathlib.Tactic.Linarith
import Mathlib.Tactic.FieldSimp
import Mathlib.Tactic.LinearCombination
import Verif.Model.Csd
import Verif.Spec.CsdSpec

set_option linter.unusedSectionVars false

namespace Verif
open CsdSpec
variable {α : Type _} [Field α] [LinearOrder α] [IsStrictOrderedRing α]

/-! ### Digit lists -/

/-- Value of a list of digits whose first digit has weight `p`. -/
def posVal (p : α) : List ℤ → α
  | [] => 0
  | d :: ds => d * p + posVal (p / 2) ds

/-- The digits of `k` rounds of the loop. -/
def digs : ℕ → α → α → List ℤ
  | 0, _, _ => []
  | k + 1, v, p => csdDigit v p :: digs k (v - csdDigit v p * p) (p / 2)

/-- The residual after `k` rounds. -/
def csdRes : ℕ → α → α → α
  | 0, v, _ => v
  | k + 1, v, p => csdRes k (v - csdDigit v p * p) (p / 2)

/-- A legal digit. -/
def Dig (d : ℤ) : Prop := d = 1 ∨ d = -1 ∨ d = 0

/-- Digits written out, with the point before the digit at position `0`. -/
def renderAt : ℤ → List ℤ → List Char
  | _, [] => []
  | n, d :: ds => (if n = 0 then ['.'] else []) ++ digitChar d :: renderAt (n - 1) ds

theorem csdDigit_dig (v p : α) : Dig (csdDigit v p) := by
  unfold csdDigit Dig; split_ifs <;> simp

theorem csdDigit_cases {v p : α} (_hp : 0 < p) :
    (csdDigit v p = 1 ∧ p < 3 / 2 * v) ∨ (csdDigit v p = -1 ∧ 3 / 2 * v < -p) ∨
      (csdDigit v p = 0 ∧ 3 / 2 * v ≤ p ∧ -p ≤ 3 / 2 * v) := by
  unfold csdDigit
  by_cases h : p < 3 / 2 * v
  · left; exact ⟨if_pos h, h⟩
  · right
    by_cases h' : 3 / 2 * v < -p
    · left; exact ⟨(if_neg h).trans (if_pos h'), h'⟩
    · right; exact ⟨(if_neg h).trans (if_neg h'), not_lt.1 h, not_lt.1 h'⟩

theorem csdDigit_eq_zero_iff {v p : α} (hp : 0 < p) : csdDigit v p = 0 ↔ |v| ≤ 2 / 3 * p := by
  rw [abs_le]
  rcases csdDigit_cases (v := v) hp with ⟨h, h'⟩ | ⟨h, h'⟩ | ⟨h, h', h''⟩ <;> rw [h]
  · simp only [one_ne_zero, false_iff]; rintro ⟨_, b⟩; linarith
  · simp only [neg_eq_zero, one_ne_zero, false_iff]; rintro ⟨_, b⟩; linarith
  · simp only [true_iff]; constructor <;> linarith

theorem step_strong {v p : α} (hp : 0 < p) (hv : |v| ≤ 4 / 3 * p) :
    |v - csdDigit v p * p| ≤ 2 / 3 * p := by
  rw [abs_le] at hv ⊢
  obtain ⟨h1, h2⟩ := hv
  rcases csdDigit_cases (v := v) hp with ⟨h, h'⟩ | ⟨h, h'⟩ | ⟨h, h', h''⟩ <;> rw [h] <;> push_cast <;>
    constructor <;> linarith

theorem step_third {v p : α} (hp : 0 < p) (hv : |v| ≤ 4 / 3 * p) (hd : csdDigit v p ≠ 0) :
    |v - csdDigit v p * p| ≤ 1 / 3 * p := by
  rw [abs_le] at hv ⊢
  obtain ⟨h1, h2⟩ := hv
  rcases csdDigit_cases (v := v) hp with ⟨h, h'⟩ | ⟨h, h'⟩ | ⟨h, h', h''⟩
  · rw [h]; push_cast; constructor <;> linarith
  · rw [h]; push_cast; constructor <;> linarith
  · exact absurd h hd

theorem step_weak {v p : α} (hp : 0 < p) (hv : |v| < 2 * p) : |v - csdDigit v p * p| < p := by
  rw [abs_lt] at hv ⊢
  obtain ⟨h1, h2⟩ := hv
  rcases csdDigit_cases (v := v) hp with ⟨h, h'⟩ | ⟨h, h'⟩ | ⟨h, h', h''⟩ <;> rw [h] <;> push_cast <;>
    constructor <;> linarith

theorem step_half {v p : α} (hp : 0 < p) (hv : |v| < 2 * p) (hd : csdDigit v p ≠ 0) :
    |v - csdDigit v p * p| ≤ |v| / 2 := by
  rw [abs_lt] at hv
  obtain ⟨h1, h2⟩ := hv
  rcases csdDigit_cases (v := v) hp with ⟨h, h'⟩ | ⟨h, h'⟩ | ⟨h, h', h''⟩
  · have : 0 < v := by linarith
    rw [h, abs_of_pos this, abs_le]; push_cast; constructor <;> linarith
  · have : v < 0 := by linarith
    rw [h, abs_of_neg this, abs_le]; push_cast; constructor <;> linarith
  · exact absurd h hd

theorem digs_length (k : ℕ) (v p : α) : (digs k v p).length = k := by
  induction k generalizing v p with
  | zero => rfl
  | succ k ih => simp [digs, ih]

theorem digs_dig (k : ℕ) (v p : α) : ∀ d ∈ digs k v p, Dig d := by
  induction k generalizing v p with
  | zero => intro d hd; simp [digs] at hd
  | succ k ih =>
    intro d hd
    simp only [digs, List.mem_cons] at hd
    rcases hd with rfl | hd
    · exact csdDigit_dig v p
    · exact ih _ _ d hd

theorem digs_val (k : ℕ) (v p : α) : v = posVal p (digs k v p) + csdRes k v p := by
  induction k generalizing v p with
  | zero => simp [digs, posVal, csdRes]
  | succ k ih =>
    simp only [digs, posVal, csdRes]
    linear_combination ih (v - csdDigit v p * p) (p / 2)

theorem csdRes_weak (k : ℕ) {v p : α} (hp : 0 < p) (hv : |v| < 2 * p) :
    |csdRes k v p| < 2 * p / 2 ^ k := by
  induction k generalizing v p with
  | zero => simpa [csdRes] using hv
  | succ k ih =>
    have := ih (v := v - csdDigit v p * p) (p := p / 2) (by linarith)
      (by have := step_weak hp hv; linarith)
    simp only [csdRes]
    refine this.trans_eq ?_
    rw [pow_succ]; field_simp

theorem csdRes_strong (k : ℕ) {v p : α} (hp : 0 < p) (hv : |v| ≤ 4 / 3 * p) :
    |csdRes k v p| ≤ 4 / 3 * p / 2 ^ k := by
  induction k generalizing v p with
  | zero => simpa [csdRes] using hv
  | succ k ih =>
    have := ih (v := v - csdDigit v p * p) (p := p / 2) (by linarith)
      (by have := step_strong hp hv; linarith)
    simp only [csdRes]
    refine this.trans_eq ?_
    rw [pow_succ]; field_simp

/-- No two adjacent nonzero digits. -/
def NAF (ds : List ℤ) : Prop := ds.IsChain (fun a b => a = 0 ∨ b = 0)

theorem digs_naf (k : ℕ) {v p : α} (hp : 0 < p) (hv : |v| ≤ 4 / 3 * p) : NAF (digs k v p) := by
  induction k generalizing v p with
  | zero => exact List.IsChain.nil
  | succ k ih =>
    have h1 := ih (v := v - csdDigit v p * p) (p := p / 2) (by linarith)
      (by have := step_strong hp hv; linarith)
    simp only [digs]
    rcases k with _ | k
    · exact List.IsChain.singleton _
    · simp only [digs] at h1 ⊢
      refine List.isChain_cons_cons.2 ⟨?_, h1⟩
      by_cases hd : csdDigit v p = 0
      · exact .inl hd
      · right
        rw [csdDigit_eq_zero_iff (by linarith)]
        have := step_third hp hv hd
        linarith

/-- A canonical digit list is bounded by `4/3` of its first weight. -/
theorem naf_bound {ds : List ℤ} (hN : NAF ds) (hD : ∀ d ∈ ds, Dig d) {p : α} (hp : 0 < p) :
    |posVal p ds| < 4 / 3 * p ∧ (ds.head? = some 0 → |posVal p ds| < 2 / 3 * p) := by
  induction ds generalizing p with
  | nil => simp [posVal, hp]
  | cons d ds ih =>
    have ihd := ih (List.IsChain.tail hN) (fun e he => hD e (List.mem_cons_of_mem _ he)) (p := p / 2)
      (by linarith)
    have hz : d = 0 → |posVal p (d :: ds)| < 2 / 3 * p := by
      rintro rfl
      simp only [posVal, Int.cast_zero, zero_mul, zero_add]
      linarith [ihd.1]
    refine ⟨?_, fun h => hz (by simpa using h)⟩
    by_cases hd : d = 0
    · linarith [hz hd]
    · have h2 : |posVal (p / 2) ds| < 1 / 3 * p := by
        rcases ds with _ | ⟨e, ds⟩
        · simp only [posVal, abs_zero]; linarith
        · have he : e = 0 := (List.isChain_cons_cons.1 hN).1.resolve_left hd
          have := ihd.2 (by simp [he])
          linarith
      rw [abs_lt] at h2 ⊢
      simp only [posVal]
      rcases hD d (by simp) with rfl | rfl | rfl
      · push_cast; constructor <;> linarith
      · push_cast; constructor <;> linarith
      · exact absurd rfl hd

theorem naf_head {d : ℤ} {ds : List ℤ} (hN : NAF (d :: ds)) (hD : ∀ e ∈ d :: ds, Dig e) {p : α}
    (hp : 0 < p) : csdDigit (posVal p (d :: ds)) p = d := by
  have hb := naf_bound hN hD hp
  have ihd := naf_bound (ds := ds) (List.IsChain.tail hN) (fun e he => hD e (List.mem_cons_of_mem _ he))
      (p := p / 2) (by linarith)
  by_cases hd : d = 0
  · subst hd
    rw [csdDigit_eq_zero_iff hp]
    exact (hb.2 rfl).le
  · have h2 : |posVal (p / 2) ds| < 1 / 3 * p := by
      rcases ds with _ | ⟨e, ds⟩
      · simp only [posVal, abs_zero]; linarith
      · have he : e = 0 := (List.isChain_cons_cons.1 hN).1.resolve_left hd
        have := ihd.2 (by simp [he])
        linarith
    rw [abs_lt] at h2
    have hv : posVal p (d :: ds) = d * p + posVal (p / 2) ds := rfl
    unfold csdDigit
    rw [hv]
    rcases hD d (by simp) with rfl | rfl | rfl
    · exact if_pos (by push_cast; linarith)
    · refine (if_neg (by push_cast; linarith)).trans (if_pos (by push_cast; linarith))
    · exact absurd rfl hd

/-- The loop recovers a canonical digit list from its value. -/
theorem digs_of_naf {ds : List ℤ} (hN : NAF ds) (hD : ∀ d ∈ ds, Dig d) {p : α} (hp : 0 < p) :
    digs ds.length (posVal p ds) p = ds := by
  induction ds generalizing p with
  | nil => rfl
  | cons d ds ih =>
    simp only [List.length_cons, digs]
    rw [naf_head hN hD hp]
    have : posVal p (d :: ds) - d * p = posVal (p / 2) ds := by simp only [posVal]; ring
    rw [this, ih (List.IsChain.tail hN) (fun e he => hD e (List.mem_cons_of_mem _ he)) (by linarith)]

/-! ### The loop and its output -/

theorem csdLoop_eq (places : ℤ) (fuel : ℕ) (n : ℤ) (v p : α) (s : List Char)
    (h : n + places ≤ fuel) :
    csdLoop places fuel n v p s = s ++ renderAt n (digs (n + places).toNat v p) := by
  induction fuel generalizing n v p s with
  | zero =>
    have : (n + places).toNat = 0 := by omega
    simp [csdLoop, this, digs, renderAt]
  | succ k ih =>
    by_cases hc : -places < n
    · simp only [csdLoop]
      rw [if_pos hc, ih _ _ _ _ (by push_cast at h; omega)]
      have : (n + places).toNat = (n - 1 + places).toNat + 1 := by omega
      rw [this]
      simp only [digs, renderAt]
      split_ifs <;> simp
    · simp only [csdLoop]
      rw [if_neg hc]
      have : (n + places).toNat = 0 := by omega
      simp [this, digs, renderAt]

/-- The fuel given by `toCsd` is no restriction. -/
theorem csdLoop_fuel (places : ℤ) (fuel : ℕ) (n : ℤ) (v p : α) (s : List Char)
    (h : n + places ≤ fuel) :
    csdLoop places fuel n v p s = csdLoop places (n + places).toNat n v p s := by
  rw [csdLoop_eq places fuel n v p s h, csdLoop_eq places _ n v p s (Int.self_le_toNat _)]

theorem renderAt_neg {n : ℤ} (hn : n < 0) (ds : List ℤ) : renderAt n ds = ds.map digitChar := by
  induction ds generalizing n with
  | nil => rfl
  | cons d ds ih => simp [renderAt, hn.ne, ih (by omega : n - 1 < 0)]

theorem renderAt_eq (n : ℕ) (ds : List ℤ) :
    renderAt n ds = (ds.take n).map digitChar ++
      (if ds.drop n = [] then [] else '.' :: (ds.drop n).map digitChar) := by
  induction n generalizing ds with
  | zero =>
    rcases ds with _ | ⟨d, ds⟩
    · simp [renderAt]
    · simp [renderAt, renderAt_neg]
  | succ n ih =>
    rcases ds with _ | ⟨d, ds⟩
    · simp [renderAt]
    · simp only [renderAt, List.take_succ_cons, List.drop_succ_cons, List.map_cons, List.cons_append]
      rw [if_neg (by omega)]
      have : ((n + 1 : ℕ) : ℤ) - 1 = n := by push_cast; ring
      rw [this, ih]; rfl

theorem digitChar_isDigit (d : ℤ) : IsDigit (digitChar d) := by
  unfold digitChar IsDigit; split_ifs <;> simp

theorem digVal_digitChar {d : ℤ} (h : Dig d) : digVal (digitChar d) = d := by
  rcases h with rfl | rfl | rfl <;> rfl

theorem digitChar_digVal {c : Char} (h : IsDigit c) : digitChar (digVal c) = c := by
  rcases h with rfl | rfl | rfl <;> rfl

theorem digVal_dig (c : Char) : Dig (digVal c) := by
  unfold digVal Dig; split_ifs <;> simp

theorem digVal_eq_zero {c : Char} (h : IsDigit c) : digVal c = 0 ↔ c = '0' := by
  rcases h with rfl | rfl | rfl <;> decide

theorem IsDigit.ne_point {c : Char} (h : IsDigit c) : c ≠ '.' := by
  rcases h with rfl | rfl | rfl <;> decide

/-! ### `to_decimal` -/

theorem intVal_append (a b : List Char) : intVal (a ++ b) = intVal a * 2 ^ b.length + intVal b := by
  induction a with
  | nil => simp [intVal]
  | cons c a ih => simp only [List.cons_append, intVal, ih, List.length_append, pow_add]; ring

theorem fracVal_eq (l : List Char) : (fracVal l : α) = (intVal l : ℤ) / 2 ^ l.length := by
  induction l with
  | nil => simp [fracVal, intVal]
  | cons c l ih =>
    simp only [fracVal, intVal, ih, List.length_cons, pow_succ]
    push_cast
    field_simp

theorem decLoop_digits (i : ℕ) (v : α) (loc : ℕ) (l r : List Char) (h : ∀ c ∈ l, IsDigit c) :
    decLoop i v loc (l ++ r) = decLoop (i + l.length) (v * 2 ^ l.length + (intVal l : ℤ)) loc r := by
  induction l generalizing i v with
  | nil => simp [intVal]
  | cons c l ih =>
    have hl : ∀ d ∈ l, IsDigit d := fun d hd => h d (List.mem_cons_of_mem _ hd)
    simp only [List.cons_append, decLoop, List.length_cons, intVal]
    rcases h c (by simp) with rfl | rfl | rfl
    · rw [if_pos rfl, ih _ _ hl]
      congr 1
      · ring
      · simp only [digVal, if_true]; push_cast; ring
    · rw [if_neg (by decide), if_pos rfl, ih _ _ hl]
      congr 1
      · ring
      · simp only [digVal, if_true, show ¬ '-' = '+' by decide, if_false]; push_cast; ring
    · rw [if_neg (by decide), if_neg (by decide), if_pos rfl, ih _ _ hl]
      congr 1
      · ring
      · simp only [digVal, show ¬ '0' = '+' by decide, show ¬ '0' = '-' by decide, if_false]; push_cast; ring

theorem toDecimal_int (ip : List Char) (h : ∀ c ∈ ip, IsDigit c) :
    toDecimal ip = .ok (((intVal ip : ℤ) : α)) := by
  unfold toDecimal
  have := decLoop_digits (α := α) 0 0 0 ip [] h
  rw [List.append_nil] at this
  rw [this]
  simp [decLoop]

theorem toDecimal_point (ip fp : List Char) (h : ∀ c ∈ ip, IsDigit c) (h' : ∀ c ∈ fp, IsDigit c) :
    toDecimal (ip ++ '.' :: fp) = .ok (((intVal ip : ℤ) : α) + fracVal fp) := by
  unfold toDecimal
  rw [decLoop_digits (α := α) 0 0 0 ip _ h]
  have e : decLoop (0 + ip.length) ((0 : α) * 2 ^ ip.length + (intVal ip : ℤ)) 0 ('.' :: fp) =
      decLoop (ip.length + 1) (((intVal ip : ℤ)) : α) (ip.length + 1) fp := by
    simp only [decLoop]
    rw [if_neg (by decide), if_neg (by decide), if_neg (by decide), if_pos trivial]
    congr 1
    · ring
    · ring
    · ring
  rw [e]
  have := decLoop_digits (α := α) (ip.length + 1) ((intVal ip : ℤ) : α) (ip.length + 1) fp [] h'
  rw [List.append_nil] at this
  rw [this]
  simp only [decLoop]
  rw [if_pos (by omega)]
  have hl : (ip ++ '.' :: fp).length - (ip.length + 1) = fp.length := by simp; omega
  rw [hl, fracVal_eq]
  congr 1
  field_simp

theorem toDecimal_denotes {s : List Char} {q : α} (h : Denotes s q) : toDecimal s = .ok q := by
  cases h with
  | int ip h => exact toDecimal_int s h
  | point ip fp h h' => exact toDecimal_point ip fp h h'

theorem decLoop_error_iff (i : ℕ) (v : α) (loc : ℕ) (s : List Char) :
    (decLoop i v loc s = .error .valueError ∧ ∃ c ∈ s, ¬ (IsDigit c ∨ c = '.')) ∨
      (∃ r, decLoop i v loc s = .ok r) ∧ ∀ c ∈ s, IsDigit c ∨ c = '.' := by
  induction s generalizing i v loc with
  | nil => right; exact ⟨⟨_, rfl⟩, by simp⟩
  | cons c s ih =>
    simp only [decLoop]
    have main : ∀ i (v : α) loc, (IsDigit c ∨ c = '.') →
        (decLoop i v loc s = .error .valueError ∧ ∃ d ∈ c :: s, ¬ (IsDigit d ∨ d = '.')) ∨
        (∃ r, decLoop i v loc s = .ok r) ∧ ∀ d ∈ c :: s, IsDigit d ∨ d = '.' := by
      intro i v loc hc
      rcases ih i v loc with ⟨h, d, hd, hd'⟩ | ⟨h, h'⟩
      · exact .inl ⟨h, d, List.mem_cons_of_mem _ hd, hd'⟩
      · refine .inr ⟨h, fun d hd => ?_⟩
        rcases List.mem_cons.1 hd with rfl | hd
        · exact hc
        · exact h' d hd
    by_cases h1 : c = '+'
    · rw [if_pos h1]; exact main _ _ _ (.inl (.inl h1))
    rw [if_neg h1]
    by_cases h2 : c = '-'
    · rw [if_pos h2]; exact main _ _ _ (.inl (.inr (.inl h2)))
    rw [if_neg h2]
    by_cases h3 : c = '0'
    · rw [if_pos h3]; exact main _ _ _ (.inl (.inr (.inr h3)))
    rw [if_neg h3]
    by_cases h4 : c = '.'
    · rw [if_pos h4]; exact main _ _ _ (.inr h4)
    rw [if_neg h4]
    left
    refine ⟨rfl, c, by simp, ?_⟩
    rintro ((h | h | h) | h)
    exacts [h1 h, h2 h, h3 h, h4 h]

/-! ### Values of rendered digits -/

theorem posVal_append (p : α) (a b : List ℤ) :
    posVal p (a ++ b) = posVal p a + posVal (p / 2 ^ a.length) b := by
  induction a generalizing p with
  | nil => simp [posVal]
  | cons d a ih =>
    simp only [List.cons_append, posVal, ih, List.length_cons, pow_succ]
    have : p / 2 / 2 ^ a.length = p / (2 ^ a.length * 2) := by field_simp
    rw [this]; ring

theorem posVal_intVal (p : α) (ds : List ℤ) (h : ∀ d ∈ ds, Dig d) :
    posVal p ds = (intVal (ds.map digitChar) : ℤ) * (2 * p / 2 ^ ds.length) := by
  induction ds generalizing p with
  | nil => simp [posVal, intVal]
  | cons d ds ih =>
    simp only [posVal, List.map_cons, intVal, List.length_map, List.length_cons, pow_succ]
    rw [ih (p / 2) (fun e he => h e (List.mem_cons_of_mem _ he)), digVal_digitChar (h d (by simp))]
    push_cast
    field_simp

theorem mem_map_isDigit (l : List ℤ) : ∀ c ∈ l.map digitChar, IsDigit c := by
  intro c hc
  obtain ⟨d, _, rfl⟩ := List.mem_map.1 hc
  exact digitChar_isDigit d

/-- The text produced for `n` integer digits. -/
def csdText (n : ℕ) (ds : List ℤ) : List Char := (if n = 0 then ['0'] else []) ++ renderAt n ds

theorem csdText_denotes (n : ℕ) (ds : List ℤ) (hD : ∀ d ∈ ds, Dig d) (hl : n ≤ ds.length) :
    Denotes (csdText n ds) (posVal ((2 : α) ^ ((n : ℤ) - 1)) ds) := by
  have hsplit : posVal ((2 : α) ^ ((n : ℤ) - 1)) ds =
      ((intVal ((if n = 0 then ['0'] else []) ++ (ds.take n).map digitChar) : ℤ) : α) +
        fracVal ((ds.drop n).map digitChar) := by
    have h0 : intVal ((if n = 0 then ['0'] else []) ++ (ds.take n).map digitChar) =
        intVal ((ds.take n).map digitChar) := by
      rw [intVal_append]; split_ifs <;> simp [intVal, digVal]
    rw [h0]
    conv_lhs => rw [← List.take_append_drop n ds]
    have hlen : (ds.take n).length = n := by simp [hl]
    rw [posVal_append, posVal_intVal _ (ds.take n) (fun d hd => hD d (List.mem_of_mem_take hd)),
      posVal_intVal _ (ds.drop n) (fun d hd => hD d (List.mem_of_mem_drop hd)), hlen, fracVal_eq,
      List.length_map, zpow_sub₀ two_ne_zero, zpow_natCast]
    congr 1
    · field_simp
    · field_simp
  rw [hsplit, csdText, renderAt_eq]
  have hip : ∀ c ∈ (if n = 0 then ['0'] else []) ++ (ds.take n).map digitChar, IsDigit c := by
    intro c hc
    rcases List.mem_append.1 hc with hc | hc
    · split_ifs at hc
      · rw [List.mem_singleton.1 hc]; exact .inr (.inr rfl)
      · simp at hc
    · exact mem_map_isDigit _ c hc
  by_cases hd : ds.drop n = []
  · rw [if_pos hd, hd, List.append_nil]
    simp only [List.map_nil, fracVal, add_zero]
    exact Denotes.int _ hip
  · rw [if_neg hd, ← List.append_assoc]
    exact Denotes.point _ _ hip (mem_map_isDigit _)

theorem digits_csdText (n : ℕ) (ds : List ℤ) :
    digits (csdText n ds) = (if n = 0 then ['0'] else []) ++ ds.map digitChar := by
  have hf : ∀ l : List ℤ, (l.map digitChar).filter (fun c => decide (c ≠ '.')) = l.map digitChar := by
    intro l
    rw [List.filter_eq_self]
    intro c hc
    have := IsDigit.ne_point (mem_map_isDigit l c hc)
    simpa using this
  unfold digits csdText
  rw [renderAt_eq, List.filter_append, List.filter_append, hf]
  congr 1
  · split_ifs <;> rfl
  · conv_rhs => rw [← List.take_append_drop n ds, List.map_append]
    congr 1
    by_cases hd : ds.drop n = []
    · rw [if_pos hd, hd]; rfl
    · rw [if_neg hd, List.filter_cons_of_neg (by simp), hf]

theorem canonical_csdText {n : ℕ} {ds : List ℤ} (hD : ∀ d ∈ ds, Dig d) :
    Canonical (csdText n ds) ↔ NAF ds := by
  have hmap : (ds.map digitChar).IsChain (fun a b => a = '0' ∨ b = '0') ↔ NAF ds := by
    rw [List.isChain_map]
    unfold NAF
    induction ds with
    | nil => simp
    | cons d ds ih =>
      rcases ds with _ | ⟨e, ds⟩
      · simp
      · rw [List.isChain_cons_cons, List.isChain_cons_cons, ih (fun x hx => hD x (List.mem_cons_of_mem _ hx))]
        have hz : ∀ x, Dig x → (digitChar x = '0' ↔ x = 0) := by
          rintro x (rfl | rfl | rfl) <;> decide
        rw [hz d (hD d (by simp)), hz e (hD e (by simp))]
  unfold Canonical
  rw [digits_csdText, ← hmap]
  split_ifs
  · rcases hm : ds.map digitChar with _ | ⟨c, l⟩
    · simp
    · simp [List.isChain_cons_cons]
  · simp

/-- Number of nonzero digits in a digit list. -/
def wt (ds : List ℤ) : ℕ := ds.countP (· ≠ 0)

theorem weight_append (a b : List Char) : weight (a ++ b) = weight a + weight b := List.countP_append

theorem weight_map (ds : List ℤ) (hD : ∀ d ∈ ds, Dig d) : weight (ds.map digitChar) = wt ds := by
  unfold weight wt
  rw [List.countP_map]
  apply List.countP_congr
  intro d hd
  rcases hD d hd with rfl | rfl | rfl <;> simp [digitChar]

theorem weight_csdText (n : ℕ) (ds : List ℤ) (hD : ∀ d ∈ ds, Dig d) : weight (csdText n ds) = wt ds := by
  have h1 : ∀ s : List Char, weight s = weight (digits s) := by
    intro s
    unfold weight digits
    rw [List.countP_filter]
    apply List.countP_congr
    intro c _
    by_cases h : c = '.'
    · subst h; simp
    · simp [h]
  rw [h1, digits_csdText, weight_append, weight_map ds hD]
  split_ifs <;> simp [weight]

/-! ### The number of integer digits -/

section
variable [FloorSemiring α]

theorem csdLen_small {x : α} (h : x < 1) : csdLen x = 0 := if_pos h

theorem csdLen_large {x : α} (h : 1 ≤ x) :
    x ≤ 2 / 3 * 2 ^ csdLen x ∧ 2 / 3 * 2 ^ (csdLen x - 1) < x ∧ 1 ≤ csdLen x := by
  have e : csdLen x = Int.clog 2 (x * (3 / 2)) := if_neg (not_lt.2 h)
  rw [e]
  have h1 := Int.self_le_zpow_clog (b := 2) (by norm_num) (x * (3 / 2))
  have h2 := Int.zpow_pred_clog_lt_self (b := 2) (by norm_num) (r := x * (3 / 2)) (by linarith)
  push_cast at h1 h2
  refine ⟨by linarith, by linarith, ?_⟩
  by_contra hc
  have : (2 : α) ^ Int.clog 2 (x * (3 / 2)) ≤ 2 ^ (0 : ℤ) :=
    zpow_le_zpow_right₀ (by norm_num) (by omega)
  rw [zpow_zero] at this
  linarith

theorem csdLen_unique {x : α} (h : 1 ≤ x) {n : ℤ} (h1 : x ≤ 2 / 3 * 2 ^ n) (h2 : 2 / 3 * 2 ^ (n - 1) < x) :
    csdLen x = n := by
  obtain ⟨a, b, _⟩ := csdLen_large h
  have hlt : ∀ m k : ℤ, (2 : α) ^ (m - 1) < 2 ^ k → m ≤ k := by
    intro m k hmk
    have := (zpow_lt_zpow_iff_right₀ (by norm_num : (1 : α) < 2)).1 hmk
    omega
  apply le_antisymm
  · apply hlt; linarith
  · apply hlt; linarith

theorem csdLen_nonneg (x : α) : 0 ≤ csdLen x := by
  by_cases h : x < 1
  · rw [csdLen_small h]
  · have := (csdLen_large (not_lt.1 h)).2.2; omega

/-- The value is below the weight that starts the conversion. -/
theorem csdLen_bound (v : α) : |v| < 2 * 2 ^ (csdLen |v| - 1) := by
  have e : (2 : α) * 2 ^ (csdLen |v| - 1) = 2 ^ csdLen |v| := by
    rw [zpow_sub₀ two_ne_zero]; field_simp
  rw [e]
  by_cases h : |v| < 1
  · rw [csdLen_small h]; simpa using h
  · obtain ⟨a, _, _⟩ := csdLen_large (not_lt.1 h)
    have : (0 : α) < 2 ^ csdLen |v| := zpow_pos two_pos _
    linarith

theorem csdLen_bound_strong (v : α) (h : |v| ≤ 2 / 3 ∨ 1 ≤ |v|) : |v| ≤ 4 / 3 * 2 ^ (csdLen |v| - 1) := by
  have e : (2 : α) ^ csdLen |v| = 2 * 2 ^ (csdLen |v| - 1) := by
    rw [zpow_sub₀ two_ne_zero]; field_simp
  rcases h with h | h
  · rw [csdLen_small (by linarith)]
    norm_num
    linarith
  · obtain ⟨a, _, _⟩ := csdLen_large h
    linarith

theorem toCsd_eq (v : α) (places : ℕ) (hv : v ≠ 0) :
    toCsd v places = csdText (csdLen |v|).toNat
      (digs ((csdLen |v|).toNat + places) v (2 ^ (csdLen |v| - 1))) := by
  have hn := csdLen_nonneg |v|
  have hnat : (((csdLen |v|).toNat : ℕ) : ℤ) = csdLen |v| := Int.toNat_of_nonneg hn
  have htn : (csdLen |v| + (places : ℤ)).toNat = (csdLen |v|).toNat + places := by omega
  have hs : (if |v| < 1 then ['0'] else []) = if (csdLen |v|).toNat = 0 then ['0'] else [] := by
    by_cases h : |v| < 1
    · rw [if_pos h, if_pos (by rw [csdLen_small h]; rfl)]
    · have := (csdLen_large (not_lt.1 h)).2.2
      rw [if_neg h, if_neg (by omega)]
  unfold toCsd csdText
  rw [if_neg hv]
  simp only
  rw [csdLoop_eq _ _ _ _ _ _ (Int.self_le_toNat _), hs, htn, hnat]

end

end Verif
