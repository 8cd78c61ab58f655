import Verif.Props.Csd

/-!
# `to_csdfixed` (C61 – C63)
-/
set_option linter.unusedSectionVars false

namespace Verif
open CsdSpec
variable {α : Type _} [Field α] [LinearOrder α] [IsStrictOrderedRing α]

/-! ### Termination -/

theorem fixedLoop_mono (fuel fuel' : ℕ) (h : fuel ≤ fuel') (n : ℤ) (v p : α) (nnz : ℤ) (s t : List Char)
    (hr : fixedLoop fuel n v p nnz s = some t) : fixedLoop fuel' n v p nnz s = some t := by
  induction fuel generalizing fuel' n v p nnz s with
  | zero =>
    simp only [fixedLoop] at hr
    by_cases hc : 0 < n ∨ (0 < nnz ∧ tiny < |v|)
    · rw [if_pos hc] at hr; simp at hr
    · rw [if_neg hc] at hr
      rcases fuel' with _ | k <;> simp only [fixedLoop] <;> rw [if_neg hc] <;> exact hr
  | succ k ih =>
    obtain ⟨k', rfl⟩ : ∃ k', fuel' = k' + 1 := ⟨fuel' - 1, by omega⟩
    simp only [fixedLoop] at hr ⊢
    by_cases hc : 0 < n ∨ (0 < nnz ∧ tiny < |v|)
    · rw [if_pos hc] at hr ⊢
      exact ih k' (by omega) _ _ _ _ _ hr
    · rw [if_neg hc] at hr ⊢
      exact hr

theorem fixedLoop_ends (fuel : ℕ) (n : ℤ) (v p : α) (nnz : ℤ) (s : List Char) (hp : 0 < p) (hv : |v| < 2 * p)
    (hn : n ≤ fuel) (hf : 2 * p / 2 ^ fuel ≤ tiny) : ∃ t, fixedLoop fuel n v p nnz s = some t := by
  induction fuel generalizing n v p nnz s with
  | zero =>
    simp only [fixedLoop]
    rw [if_neg]
    · exact ⟨s, rfl⟩
    · rintro (h | ⟨_, h⟩)
      · simp at hn; omega
      · rw [pow_zero, div_one] at hf
        linarith
  | succ k ih =>
    simp only [fixedLoop]
    by_cases hc : 0 < n ∨ (0 < nnz ∧ tiny < |v|)
    · rw [if_pos hc]
      have hw := step_weak hp hv
      refine ih _ _ _ _ _ (by linarith) ?_ (by push_cast at hn; omega) ?_
      · split_ifs
        · rw [abs_zero]; linarith
        · linarith
        · rw [abs_zero]; linarith
        · linarith
      · refine le_trans (le_of_eq ?_) hf
        rw [pow_succ]; field_simp
    · rw [if_neg hc]; exact ⟨s, rfl⟩

theorem tiny_bound : (1 : α) / 2 ^ 333 ≤ tiny := by
  unfold tiny
  apply one_div_le_one_div_of_le (by positivity)
  have : (10 ^ 100 : ℕ) ≤ 2 ^ 333 := by rw [show 333 = 200 + 133 from rfl, pow_add]; norm_num
  exact_mod_cast this

theorem tiny_pos : (0 : α) < tiny := by unfold tiny; positivity

theorem tiny_lt_half : (tiny : α) < 1 / 2 := by
  unfold tiny
  apply one_div_lt_one_div_of_lt (by norm_num)
  have : (2 : ℕ) < 10 ^ 100 := by norm_num
  exact_mod_cast this

/-! ### The digits -/

/-- What one run of the loop writes, when the budget is positive (or used up with nothing left to write). -/
theorem fixedLoop_spec (fuel : ℕ) (n : ℤ) (v p : α) (nnz : ℕ) (s t : List Char) (hp : 0 < p)
    (hv : |v| < 2 * p) (hb : nnz = 0 → v = 0) (hr : fixedLoop fuel n v p nnz s = some t) :
    ∃ ds : List ℤ, t = s ++ renderAt n ds ∧ n ≤ ds.length ∧ (∀ d ∈ ds, Dig d) ∧ wt ds ≤ nnz ∧
      (|v - posVal p ds| ≤ |v| / 2 ^ nnz ∨ |v - posVal p ds| ≤ tiny) ∧
      (|v| ≤ 4 / 3 * p → NAF ds ∧ (|v| ≤ 2 / 3 * p → ds.head? = none ∨ ds.head? = some 0)) := by
  induction fuel generalizing n v p nnz s with
  | zero =>
    simp only [fixedLoop] at hr
    by_cases hc : 0 < n ∨ (0 < (nnz : ℤ) ∧ tiny < |v|)
    · rw [if_pos hc] at hr; simp at hr
    · rw [if_neg hc] at hr
      obtain ⟨h1, h2⟩ := not_or.1 hc
      refine ⟨[], by simpa [renderAt] using hr.symm, by simp; omega, by simp, by simp [wt], ?_,
        fun _ => ⟨List.IsChain.nil, fun _ => .inl rfl⟩⟩
      rcases Nat.eq_zero_or_pos nnz with h | h
      · left; simp [hb h, posVal]
      · right
        simp only [posVal, sub_zero]
        by_contra hh
        exact h2 ⟨by exact_mod_cast h, not_le.1 hh⟩
  | succ k ih =>
    simp only [fixedLoop] at hr
    by_cases hc : 0 < n ∨ (0 < (nnz : ℤ) ∧ tiny < |v|)
    swap
    · rw [if_neg hc] at hr
      obtain ⟨h1, h2⟩ := not_or.1 hc
      refine ⟨[], by simpa [renderAt] using hr.symm, by simp; omega, by simp, by simp [wt], ?_,
        fun _ => ⟨List.IsChain.nil, fun _ => .inl rfl⟩⟩
      rcases Nat.eq_zero_or_pos nnz with h | h
      · left; simp [hb h, posVal]
      · right
        simp only [posVal, sub_zero]
        by_contra hh
        exact h2 ⟨by exact_mod_cast h, not_le.1 hh⟩
    rw [if_pos hc] at hr
    have hw := step_weak hp hv
    have hrender : ∀ (d : ℤ) (ds : List ℤ), (if n = 0 then s ++ ['.'] else s) ++ [digitChar d] ++
        renderAt (n - 1) ds = s ++ renderAt n (d :: ds) := by
      intro d ds; simp only [renderAt]; split_ifs <;> simp
    by_cases hd : csdDigit v p = 0
    · -- a zero digit
      have hsub : v - ((csdDigit v p : ℤ) : α) * p = v := by rw [hd]; simp
      rw [hsub, if_pos hd] at hr
      have hv' : (if (nnz : ℤ) = 0 then 0 else v) = v := by
        split_ifs with h
        · exact (hb (by exact_mod_cast h)).symm
        · rfl
      rw [hv'] at hr
      have hz := (csdDigit_eq_zero_iff hp).1 hd
      obtain ⟨ds, h1, h2, h3, h4, h5, h6⟩ := ih (n - 1) v (p / 2) nnz _ (by linarith)
        (by linarith) hb hr
      refine ⟨0 :: ds, ?_, by simp; omega, ?_, ?_, ?_, fun _ => ⟨?_, fun _ => .inr rfl⟩⟩
      · rw [h1, hd, hrender]
      · intro d hd'
        rcases List.mem_cons.1 hd' with rfl | hd'
        · exact .inr (.inr rfl)
        · exact h3 d hd'
      · simpa [wt] using h4
      · simpa [posVal] using h5
      · have := (h6 (by linarith)).1
        rcases ds with _ | ⟨e, ds⟩
        · exact List.IsChain.singleton _
        · exact List.isChain_cons_cons.2 ⟨.inl rfl, this⟩
    · -- a nonzero digit
      have hv0 : v ≠ 0 := by
        rintro rfl
        exact hd ((csdDigit_eq_zero_iff hp).2 (by rw [abs_zero]; linarith))
      obtain ⟨m, rfl⟩ : ∃ m, nnz = m + 1 :=
        ⟨nnz - 1, by have : nnz ≠ 0 := fun h => hv0 (hb h); omega⟩
      have hhalf := step_half hp hv hd
      have hm : ((m + 1 : ℕ) : ℤ) - 1 = (m : ℕ) := by push_cast; ring
      rw [if_neg hd, hm] at hr
      obtain ⟨ds, h1, h2, h3, h4, h5, h6⟩ := ih (n - 1) _ (p / 2) m _ (by linarith)
        (by
          split_ifs
          · rw [abs_zero]; linarith
          · linarith) (by intro h; rw [if_pos (by exact_mod_cast h)]) hr
      have hdig := csdDigit_dig v p
      refine ⟨csdDigit v p :: ds, ?_, by simp; omega, ?_, ?_, ?_, fun hs => ⟨?_, fun h => ?_⟩⟩
      · rw [h1, hrender]
      · intro d hd'
        rcases List.mem_cons.1 hd' with rfl | hd'
        · exact hdig
        · exact h3 d hd'
      · unfold wt at h4 ⊢
        rw [List.countP_cons_of_pos (by simpa using hd)]
        omega
      · have hrw : v - posVal p (csdDigit v p :: ds) =
            (v - ((csdDigit v p : ℤ) : α) * p) - posVal (p / 2) ds := by simp only [posVal]; ring
        rw [hrw]
        rcases Nat.eq_zero_or_pos m with h | h
        · -- the budget is used up: only zeros follow
          subst h
          have hall : ∀ (l : List ℤ) (q : α), wt l ≤ 0 → posVal q l = 0 := by
            intro l
            induction l with
            | nil => intro q _; rfl
            | cons e l ihl =>
              intro q hq
              have he : e = 0 := by
                by_contra he
                unfold wt at hq
                rw [List.countP_cons_of_pos (by simpa using he)] at hq
                omega
              subst he
              simp only [posVal, Int.cast_zero, zero_mul, zero_add]
              exact ihl _ (by simpa [wt] using hq)
          left
          rw [hall ds _ h4, sub_zero]
          simpa using hhalf
        · rw [if_neg (by exact_mod_cast h.ne')] at h5
          rcases h5 with h5 | h5
          · left
            refine h5.trans ?_
            rw [pow_succ, div_le_div_iff₀ (by positivity) (by positivity)]
            have : (0 : α) < 2 ^ m := by positivity
            nlinarith [mul_le_mul_of_nonneg_right hhalf this.le]
          · exact .inr h5
      · have ht := step_third hp hs hd
        have hle : |if ((m : ℕ) : ℤ) = 0 then 0 else v - ((csdDigit v p : ℤ) : α) * p| ≤ 2 / 3 * (p / 2) := by
          split_ifs
          · rw [abs_zero]; linarith
          · linarith
        obtain ⟨hN, hh⟩ := h6 (by linarith)
        have hh := hh hle
        rcases ds with _ | ⟨e, ds⟩
        · exact List.IsChain.singleton _
        · refine List.isChain_cons_cons.2 ⟨.inr ?_, hN⟩
          simpa using hh
      · exact absurd ((csdDigit_eq_zero_iff hp).2 h) hd

/-- Without a positive budget the loop just writes the integer digits. -/
theorem fixedLoop_nonpos (fuel : ℕ) (n : ℤ) (v p : α) (nnz : ℤ) (s : List Char) (hn : n ≤ fuel)
    (hb : nnz < 0 ∨ (nnz = 0 ∧ (n ≤ 0 ∨ csdDigit v p ≠ 0))) :
    fixedLoop fuel n v p nnz s = some (csdLoop 0 fuel n v p s) := by
  induction fuel generalizing n v p nnz s with
  | zero =>
    simp only [fixedLoop, csdLoop]
    rw [if_neg]
    rintro (h | ⟨h, _⟩)
    · simp at hn; omega
    · omega
  | succ k ih =>
    simp only [fixedLoop, csdLoop]
    by_cases hc : 0 < n
    · have hneg : (if csdDigit v p = 0 then nnz else nnz - 1) < 0 := by
        split_ifs with h
        · rcases hb with hb | ⟨_, hb | hb⟩
          · exact hb
          · omega
          · exact absurd h hb
        · rcases hb with hb | ⟨hb, _⟩ <;> omega
      have hne : ¬ (if csdDigit v p = 0 then nnz else nnz - 1) = 0 := by omega
      rw [if_pos (Or.inl hc), if_neg hne, if_pos (by omega : -0 < n)]
      exact ih _ _ _ _ _ (by push_cast at hn; omega) (.inl hneg)
    · have hno : ¬ (0 < n ∨ (0 < nnz ∧ tiny < |v|)) := by
        rintro (h | ⟨h, _⟩)
        · exact hc h
        · omega
      rw [if_neg hno, if_neg (by omega : ¬ -0 < n)]

variable [FloorSemiring α]

/-! ## C63: termination -/

/-- **C63.**  The loop of `to_csdfixed` ends for every number and every budget, after at most
`fixedRounds v` rounds; allowing more rounds changes nothing. -/
theorem C63_csdfixed_terminates (v : α) (nnz : ℤ) :
    ∃ t, ∀ fuel, fixedRounds v ≤ fuel → toCsdFixed fuel v nnz = some t := by
  by_cases hv : v = 0
  · exact ⟨['0'], fun fuel _ => by simp [toCsdFixed, hv]⟩
  · have hnat : (((csdLen |v|).toNat : ℕ) : ℤ) = csdLen |v| := Int.toNat_of_nonneg (csdLen_nonneg |v|)
    obtain ⟨t, ht⟩ := fixedLoop_ends (fixedRounds v) (csdLen |v|) v (2 ^ (csdLen |v| - 1)) nnz
      (if |v| < 1 then ['0'] else []) (zpow_pos two_pos _) (csdLen_bound v)
      (by unfold fixedRounds; push_cast; omega) (by
        refine le_trans (le_of_eq ?_) tiny_bound
        unfold fixedRounds
        generalize (csdLen |v|).toNat = N at hnat
        rw [← hnat, zpow_sub₀ two_ne_zero, zpow_natCast, pow_add]
        field_simp)
    refine ⟨t, fun fuel hf => ?_⟩
    unfold toCsdFixed
    rw [if_neg hv]
    exact fixedLoop_mono _ _ hf _ _ _ _ _ _ ht

/-! ## C61, C62 -/

/-- **C61, C62.**  With a budget of at least one nonzero digit, whatever `to_csdfixed` returns is a legal
string with at most `nnz` nonzero digits, whose value is within `|v| / 2^nnz` (or `1e-100`) of the number;
and it is canonical unless `2/3 < |v| < 1`. -/
theorem C61_C62_csdfixed (v : α) (nnz : ℕ) (hnz : 1 ≤ nnz) (fuel : ℕ) (t : List Char)
    (h : toCsdFixed fuel v nnz = some t) :
    weight t ≤ nnz ∧
    (∃ q : α, Denotes t q ∧ toDecimal t = .ok q ∧ (|v - q| ≤ |v| / 2 ^ nnz ∨ |v - q| ≤ 1 / 10 ^ 100)) ∧
    (|v| ≤ 2 / 3 ∨ 1 ≤ |v| → Canonical t) := by
  by_cases hv : v = 0
  · subst hv
    have ht : t = ['0'] := by simpa [toCsdFixed, eq_comm] using h
    subst ht
    refine ⟨by simp [weight], ⟨0, ?_⟩, fun _ => by decide⟩
    have := Denotes.int (α := α) ['0'] (by decide)
    have e : (((intVal ['0'] : ℤ)) : α) = 0 := by simp [intVal, digVal]
    rw [e] at this
    exact ⟨this, toDecimal_denotes this, .inl (by simp)⟩
  · have hnat : (((csdLen |v|).toNat : ℕ) : ℤ) = csdLen |v| := Int.toNat_of_nonneg (csdLen_nonneg |v|)
    unfold toCsdFixed at h
    rw [if_neg hv] at h
    have hs : (if |v| < 1 then ['0'] else []) = if (csdLen |v|).toNat = 0 then ['0'] else [] := by
      by_cases h : |v| < 1
      · rw [if_pos h, if_pos (by rw [csdLen_small h]; rfl)]
      · have := (csdLen_large (not_lt.1 h)).2.2
        rw [if_neg h, if_neg (by omega)]
    obtain ⟨ds, h1, h2, h3, h4, h5, h6⟩ := fixedLoop_spec fuel (csdLen |v|) v (2 ^ (csdLen |v| - 1)) nnz _ t
      (zpow_pos two_pos _) (csdLen_bound v) (fun h0 => by omega) h
    have hstr := csdLen_bound_strong v
    rw [hs] at h1
    generalize hN : (csdLen |v|).toNat = N at hnat h1
    rw [← hnat] at h1 h2 h5 h6 hstr
    have htext : t = csdText N ds := h1
    have hden := csdText_denotes (α := α) N ds h3 (by omega)
    refine ⟨?_, ⟨_, ?_, ?_, h5⟩, fun hr => ?_⟩
    · rw [htext, weight_csdText N ds h3]; exact h4
    · rw [htext]; exact hden
    · rw [htext]; exact toDecimal_denotes hden
    · rw [htext, canonical_csdText h3]
      exact (h6 (hstr hr)).1

/-- **C61, the exception.**  With a budget of zero or less the limit is ignored: the result is the string of
`to_csd(v, 0)`, which for `|v| ≥ 1` has a nonzero digit. -/
theorem C61_csdfixed_no_budget (v : α) (nnz : ℤ) (hnz : nnz ≤ 0) (fuel : ℕ) (hf : fixedRounds v ≤ fuel) :
    toCsdFixed fuel v nnz = some (toCsd v 0) ∧ (1 ≤ |v| → 1 ≤ weight (toCsd v 0)) := by
  have hnat : (((csdLen |v|).toNat : ℕ) : ℤ) = csdLen |v| := Int.toNat_of_nonneg (csdLen_nonneg |v|)
  have hfirst : 1 ≤ |v| → csdDigit v (2 ^ (csdLen |v| - 1)) ≠ 0 := by
    intro h
    rw [Ne, csdDigit_eq_zero_iff (zpow_pos two_pos _), not_le]
    exact (csdLen_large h).2.1
  constructor
  · by_cases hv : v = 0
    · simp [toCsdFixed, toCsd, hv]
    · unfold toCsdFixed toCsd
      rw [if_neg hv, if_neg hv]
      simp only
      unfold fixedRounds at hf
      rw [fixedLoop_nonpos]
      · congr 1
        exact csdLoop_fuel 0 fuel _ _ _ _ (by omega)
      · omega
      · rcases lt_or_eq_of_le hnz with h | h
        · exact .inl h
        · refine .inr ⟨h, ?_⟩
          by_cases h1 : |v| < 1
          · left; rw [csdLen_small h1]
          · right; exact hfirst (not_lt.1 h1)
  · intro h
    have hv : v ≠ 0 := by rintro rfl; rw [abs_zero] at h; linarith
    have := toCsd_eq v 0 hv
    simp only [Nat.cast_zero, add_zero] at this
    rw [this, weight_csdText _ _ (digs_dig _ _ _)]
    obtain ⟨k, hk⟩ : ∃ k, (csdLen |v|).toNat = k + 1 :=
      ⟨(csdLen |v|).toNat - 1, by have := (csdLen_large h).2.2; omega⟩
    rw [hk]
    simp only [digs, wt]
    rw [List.countP_cons_of_pos (by simpa using hfirst h)]
    omega

/-- Non-vacuity: one third with four digits. -/
example : toCsdFixed 400 (1 / 3 : ℚ) 4 = some "0.0+0+0+0+".toList := by with_unfolding_all rfl

/-- The ignored budget on a concrete value. -/
example : toCsdFixed 400 (7 : ℚ) 0 = some "+00-".toList := by with_unfolding_all rfl

end Verif
