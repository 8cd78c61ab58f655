import Verif.Props.Csd

/-!
# Canonical strings are shortest and unique (C64)
-/
set_option linter.unusedSectionVars false

namespace Verif
open CsdSpec

/-- Value of a digit list, least significant first. -/
def lval : List ℤ → ℤ
  | [] => 0
  | d :: l => d + 2 * lval l

theorem lval_head (b : List ℤ) : lval b = b.headD 0 + 2 * lval b.tail := by
  rcases b with _ | ⟨y, b⟩ <;> simp [lval]

theorem wt_head (b : List ℤ) : wt b = (if b.headD 0 = 0 then 0 else 1) + wt b.tail := by
  rcases b with _ | ⟨y, b⟩
  · simp [wt]
  · by_cases h : y = 0
    · simp [wt, h]
    · simp [wt, h]; omega

theorem dig_head {b : List ℤ} (h : ∀ d ∈ b, Dig d) : Dig (b.headD 0) := by
  rcases b with _ | ⟨y, b⟩
  · exact .inr (.inr rfl)
  · exact h y (by simp)

theorem dig_tail {b : List ℤ} (h : ∀ d ∈ b, Dig d) : ∀ d ∈ b.tail, Dig d :=
  fun d hd => h d (List.mem_of_mem_tail hd)

/-- A list without adjacent nonzeros has the fewest nonzeros, even with a carry of one unit. -/
theorem naf_min (N : ℕ) (a b : List ℤ) (c : ℤ) (hN : a.length ≤ N) (ha : NAF a) (hDa : ∀ d ∈ a, Dig d)
    (hDb : ∀ d ∈ b, Dig d) (hc : Dig c) (h : lval a = lval b + c) :
    (wt a : ℤ) ≤ wt b + |c| := by
  induction N using Nat.strong_induction_on generalizing a b c with
  | _ N ih =>
    rcases a with _ | ⟨x, a⟩
    · have : wt ([] : List ℤ) = 0 := rfl
      rw [this]; positivity
    · have hx := hDa x (by simp)
      have hy := dig_head hDb
      have hwb := wt_head b
      have hvb := lval_head b
      have hva : lval (x :: a) = x + 2 * lval a := rfl
      have hwa : wt (x :: a) = (if x = 0 then 0 else 1) + wt a := wt_head (x :: a)
      have hDa' : ∀ d ∈ a, Dig d := fun d hd => hDa d (List.mem_cons_of_mem _ hd)
      have hDb' := dig_tail hDb
      have hlen : a.length < N := by simp only [List.length_cons] at hN; omega
      have ha' : NAF a := List.IsChain.tail ha
      generalize b.headD 0 = y at hy hwb hvb
      generalize hb' : b.tail = b' at hwb hvb hDb'
      have hstep : ∀ c', Dig c' → lval a = lval b' + c' → (wt a : ℤ) ≤ wt b' + |c'| :=
        fun c' hc' he => ih a.length hlen a b' c' le_rfl ha' hDa' hDb' hc' he
      by_cases hx0 : x = 0
      · subst hx0
        have h2 : y + c = 2 * (lval a - lval b') := by linarith
        have hc' : Dig (lval a - lval b') := by
          unfold Dig
          rcases hy with rfl | rfl | rfl <;> rcases hc with rfl | rfl | rfl <;> omega
        have := hstep _ hc' (by ring)
        rw [if_pos rfl] at hwa
        rcases hy with rfl | rfl | rfl <;> rcases hc with rfl | rfl | rfl <;>
          rcases hc' with h' | h' | h' <;> rw [h'] at this h2 <;> simp at this hwa hwb ⊢ <;> omega
      · rw [if_neg hx0] at hwa
        have h2 : y + c - x = 2 * (lval a - lval b') := by linarith
        by_cases hxc : y + c = x
        · have := hstep 0 (.inr (.inr rfl)) (by omega)
          rw [abs_zero, add_zero] at this
          rcases hy with rfl | rfl | rfl <;> rcases hc with rfl | rfl | rfl <;>
            simp at hwb ⊢ <;> omega
        · have hodd : y + c = -x := by
            rcases hx with rfl | rfl | rfl <;> rcases hy with rfl | rfl | rfl <;>
              rcases hc with rfl | rfl | rfl <;> omega
          have hrhs : (1 : ℤ) + wt b' ≤ wt b + |c| := by
            rcases hx with rfl | rfl | rfl <;> rcases hy with rfl | rfl | rfl <;>
              rcases hc with rfl | rfl | rfl <;> simp at hwb ⊢ <;> omega
          refine le_trans ?_ hrhs
          rcases a with _ | ⟨z, a⟩
          · have : wt ([] : List ℤ) = 0 := rfl
            rw [this] at hwa
            omega
          · have hz : z = 0 := (List.isChain_cons_cons.1 ha).1.resolve_left hx0
            subst hz
            have hwa2 : wt (0 :: a) = 0 + wt a := wt_head (0 :: a)
            have hva2 : lval (0 :: a) = 0 + 2 * lval a := rfl
            have hy2 := dig_head hDb'
            have hwb2 := wt_head b'
            have hvb2 := lval_head b'
            have hDb2 := dig_tail hDb'
            generalize b'.headD 0 = y2 at hy2 hwb2 hvb2
            generalize b'.tail = b2 at hwb2 hvb2 hDb2
            have h3 : y2 - x = 2 * (lval a - lval b2) := by omega
            have hc' : Dig (lval a - lval b2) := by
              unfold Dig
              rcases hx with rfl | rfl | rfl <;> rcases hy2 with rfl | rfl | rfl <;> omega
            have := ih a.length (by simp only [List.length_cons] at hlen; omega) a b2 (lval a - lval b2) le_rfl
              (List.IsChain.tail ha') (fun d hd => hDa' d (List.mem_cons_of_mem _ hd)) hDb2 hc' (by ring)
            have hab : |lval a - lval b2| ≤ 1 := by
              rcases hc' with h' | h' | h' <;> rw [h'] <;> simp
            have hy20 : y2 ≠ 0 := by
              rintro rfl
              rcases hx with rfl | rfl | rfl <;> omega
            rw [if_neg hy20] at hwb2
            omega

theorem intVal_lval (s : List Char) : intVal s = lval (s.map digVal).reverse := by
  have happ : ∀ (l : List ℤ) (d : ℤ), lval (l ++ [d]) = lval l + d * 2 ^ l.length := by
    intro l d
    induction l with
    | nil => simp [lval]
    | cons e l ih => simp only [List.cons_append, lval, ih, List.length_cons, pow_succ]; ring
  induction s with
  | nil => rfl
  | cons c s ih =>
    simp only [intVal, List.map_cons, List.reverse_cons, happ, ih, List.length_reverse, List.length_map]
    ring

theorem naf_of_chain {l : List Char} (hd : ∀ c ∈ l, IsDigit c)
    (h : l.IsChain (fun a b => a = '0' ∨ b = '0')) : NAF (l.map digVal) := by
  unfold NAF
  induction l with
  | nil => exact List.IsChain.nil
  | cons c l ih =>
    rcases l with _ | ⟨e, l⟩
    · exact List.IsChain.singleton _
    · simp only [List.map_cons] at ih ⊢
      rw [List.isChain_cons_cons] at h ⊢
      refine ⟨?_, ih (fun x hx => hd x (List.mem_cons_of_mem _ hx)) h.2⟩
      rw [digVal_eq_zero (hd c (by simp)), digVal_eq_zero (hd e (by simp))]
      exact h.1

theorem wt_map_digVal {l : List Char} (hd : ∀ c ∈ l, IsDigit c) : wt (l.map digVal) = weight l := by
  unfold wt weight
  rw [List.countP_map]
  apply List.countP_congr
  intro c hc
  rcases hd c hc with rfl | rfl | rfl <;> simp [digVal]

theorem naf_reverse {l : List ℤ} (h : NAF l) : NAF l.reverse := by
  unfold NAF at h ⊢
  rw [List.isChain_reverse]
  exact h.imp fun a b hab => hab.symm

/-- Digit strings: the canonical one has the smallest weight. -/
theorem digits_min {l m : List Char} (hl : ∀ c ∈ l, IsDigit c) (hm : ∀ c ∈ m, IsDigit c)
    (hcan : l.IsChain (fun a b => a = '0' ∨ b = '0')) (h : intVal l = intVal m) : weight l ≤ weight m := by
  have hdig : ∀ k : List Char, ∀ d ∈ (k.map digVal).reverse, Dig d := by
    intro k d hd
    obtain ⟨c, _, rfl⟩ := List.mem_map.1 (List.mem_reverse.1 hd)
    exact digVal_dig c
  have := naf_min (l.map digVal).reverse.length (l.map digVal).reverse (m.map digVal).reverse 0 le_rfl
    (naf_reverse (naf_of_chain hl hcan)) (hdig l) (hdig m) (.inr (.inr rfl))
    (by rw [← intVal_lval, ← intVal_lval, h]; ring)
  have hr : ∀ k : List ℤ, wt k.reverse = wt k := fun k => by unfold wt; rw [List.countP_reverse]
  rw [hr, hr, wt_map_digVal hl, wt_map_digVal hm, abs_zero, add_zero] at this
  exact_mod_cast this

variable {α : Type _} [Field α] [LinearOrder α] [IsStrictOrderedRing α]

theorem CsdSpec.Denotes.scaled {s : List Char} {q : α} (h : Denotes s q) :
    (∀ c ∈ digits s, IsDigit c) ∧ weight (digits s) = weight s ∧
      ∃ f : ℕ, ((intVal (digits s) : ℤ) : α) = q * 2 ^ f := by
  have hw : weight (digits s) = weight s := by
    unfold weight digits
    rw [List.countP_filter]
    apply List.countP_congr
    intro c _
    by_cases h : c = '.'
    · subst h; simp
    · simp [h]
  have hf : ∀ l : List Char, (∀ c ∈ l, IsDigit c) → digits l = l := by
    intro l hl
    unfold digits
    rw [List.filter_eq_self]; intro c hc
    have := IsDigit.ne_point (hl c hc)
    simpa using this
  cases h with
  | int ip h => rw [hf s h]; exact ⟨h, rfl, 0, by simp⟩
  | point ip fp h h' =>
    have hd : digits (ip ++ '.' :: fp) = ip ++ fp := by
      have h1 := hf ip h
      have h2 := hf fp h'
      unfold digits at h1 h2 ⊢
      rw [List.filter_append, List.filter_cons_of_neg (by simp), h1, h2]
    rw [hd] at hw ⊢
    refine ⟨fun c hc => ?_, hw, fp.length, ?_⟩
    · rcases List.mem_append.1 hc with hc | hc
      · exact h c hc
      · exact h' c hc
    · rw [intVal_append, fracVal_eq]
      push_cast
      field_simp

/-- **C64, minimality.**  Among all signed-digit strings of the same value — of any length, with any number
of fractional digits — a canonical one has the fewest nonzero digits. -/
theorem C64_canonical_minimal (s t : List Char) (q : α) (hs : Denotes s q) (ht : Denotes t q)
    (hcan : Canonical s) : weight s ≤ weight t := by
  obtain ⟨hd, hw, f, hf⟩ := hs.scaled
  obtain ⟨hd', hw', g, hg⟩ := ht.scaled
  have hz : ∀ k, intVal (List.replicate k '0') = 0 := by
    intro k
    induction k with
    | zero => rfl
    | succ k ih => simp [List.replicate_succ, intVal, digVal, ih]
  have hwz : ∀ k, weight (List.replicate k '0') = 0 := by intro k; simp [weight, List.countP_replicate]
  have hpad : ∀ (l : List Char) k, (∀ c ∈ l, IsDigit c) → ∀ c ∈ l ++ List.replicate k '0', IsDigit c := by
    intro l k hl c hc
    rcases List.mem_append.1 hc with hc | hc
    · exact hl c hc
    · rw [(List.mem_replicate.1 hc).2]; exact .inr (.inr rfl)
  have := digits_min (l := digits s ++ List.replicate g '0') (m := digits t ++ List.replicate f '0')
    (hpad _ _ hd) (hpad _ _ hd') (by
      rw [List.isChain_append]
      refine ⟨hcan, ?_, ?_⟩
      · clear * -
        induction g with
        | zero => exact List.IsChain.nil
        | succ g ih =>
          rcases g with _ | g
          · exact List.IsChain.singleton _
          · exact List.isChain_cons_cons.2 ⟨.inl rfl, ih⟩
      · intro x _ y hy
        right
        have := List.mem_of_mem_head? hy
        exact (List.mem_replicate.1 this).2) (by
      have : ((intVal (digits s ++ List.replicate g '0') : ℤ) : α) =
          ((intVal (digits t ++ List.replicate f '0') : ℤ) : α) := by
        rw [intVal_append, intVal_append, hz, hz, List.length_replicate, List.length_replicate]
        push_cast
        rw [hf, hg]
        ring
      exact_mod_cast this)
  rw [weight_append, weight_append, hwz, hwz, hw, hw'] at this
  simpa using this

/-- **C64.**  The string of `to_csd` for an integer has the fewest nonzero digits of all strings of that
value. -/
theorem C64_to_csd_minimal [FloorSemiring α] (z : ℤ) (t : List Char) (ht : Denotes t (z : α)) :
    weight (toCsd (z : α) 0) ≤ weight t := by
  obtain ⟨q, hd, hq, _⟩ := C57_to_csd_error (z : α) 0
  have h2 := C56_round_trip (α := α) z 0
  simp only [pow_zero, div_one, Nat.cast_zero] at h2 hq hd
  rw [hq] at h2
  injection h2 with h2
  rw [h2] at hd
  have hcan := (C58_canonical_iff (z : α) 0).2 (by omega)
  exact C64_canonical_minimal _ t (z : α) hd ht (by simpa using hcan)

/-- **C64, uniqueness.**  A canonical string of digits with the value of a nonzero integer is the string of
`to_csd`, apart from leading zeros. -/
theorem C64_to_csd_unique [FloorSemiring α] (t : List Char) (hd : ∀ c ∈ t, IsDigit c) (hcan : Canonical t)
    (hz : intVal t ≠ 0) : ∃ k, t = List.replicate k '0' ++ toCsd ((intVal t : ℤ) : α) 0 := by
  induction t with
  | nil => exact absurd rfl hz
  | cons c t ih =>
    by_cases hc : c = '0'
    · subst hc
      have hv : intVal ('0' :: t) = intVal t := by simp [intVal, digVal]
      rw [hv] at hz ⊢
      have hcan' : Canonical t := by
        unfold Canonical at hcan ⊢
        unfold digits at hcan ⊢
        rw [List.filter_cons_of_pos (by decide)] at hcan
        exact List.IsChain.tail hcan
      obtain ⟨k, hk⟩ := ih (fun x hx => hd x (List.mem_cons_of_mem _ hx)) hcan' hz
      refine ⟨k + 1, ?_⟩
      rw [List.replicate_succ, List.cons_append, ← hk]
    · refine ⟨0, ?_⟩
      have habs : (1 : α) ≤ |((intVal (c :: t) : ℤ) : α)| := by
        have : (1 : ℤ) ≤ |intVal (c :: t)| := Int.one_le_abs hz
        exact_mod_cast this
      have := C59_string_round_trip (α := α) (c :: t) [] hd (by simp) (by simpa [joinPoint] using hcan)
        ((intVal (c :: t) : ℤ) : α) (by simpa [joinPoint] using toDecimal_int (α := α) (c :: t) hd)
        (.inr ⟨by simpa using hc, habs⟩)
        (fun h0 => absurd (by exact_mod_cast h0) hz)
      simp only [List.length_nil, Nat.cast_zero, joinPoint, if_true] at this
      simpa using this.symm

/-- Non-vacuity: `+00-` is canonical with two nonzero digits, the plain binary `+++` has three. -/
example : Canonical "+00-".toList ∧ weight "+00-".toList = 2 ∧ weight "+++".toList = 3 ∧
    intVal "+00-".toList = 7 ∧ intVal "+++".toList = 7 := by decide

end Verif
