import Verif.Proofs.Chol

/-! # Loop invariants of `chol_ext.factor` -/
namespace Verif
open Finset
variable {W α : Type _} [Field α] [LinearOrder α]

/-- Contract of a (possibly caching) `getA` for the lower triangle of `A`: rows are requested in order.
`Pre i`: about to request row `i`; `In i`: some entry of row `i` has been requested. -/
structure Serves (getA : ℕ → ℕ → W → Except PyErr (W × α)) (A : ℕ → ℕ → α) (n : ℕ)
    (Pre In : ℕ → W → Prop) : Prop where
  first : ∀ i j w, i < n → j ≤ i → Pre i w → ∃ w', getA i j w = .ok (w', A i j) ∧ In i w'
  more : ∀ i j w, i < n → j ≤ i → In i w → ∃ w', getA i j w = .ok (w', A i j) ∧ In i w'
  next : ∀ i w, In i w → Pre (i + 1) w

/-- Finished part of row `i`, columns `[s, j)`. -/
def RowTo (A T : ℕ → ℕ → α) (s i j : ℕ) : Prop :=
  ∀ k, s ≤ k → k < j → T k i = T i k * T k k ∧ A i k = (∑ m ∈ Ico s k, T i m * T m k) + T k i

omit [Field α] [LinearOrder α] in
theorem set2_ne {T : ℕ → ℕ → α} {a b i j : ℕ} {x : α} (h : ¬ (i = a ∧ j = b)) :
    set2 T a b x i j = T i j := if_neg h

omit [Field α] [LinearOrder α] in
theorem set2_eq {T : ℕ → ℕ → α} {a b : ℕ} {x : α} : set2 T a b x a b = x := if_pos ⟨rfl, rfl⟩

theorem cholInner_spec {getA : ℕ → ℕ → W → Except PyErr (W × α)} {A : ℕ → ℕ → α} {n : ℕ}
    {Pre In : ℕ → W → Prop} (hS : Serves getA A n Pre In) {s i : ℕ} (hi : i < n) :
    ∀ r j T d w, s ≤ j → j + r = i → In i w → (∀ k, s ≤ k → k < i → T k k ≠ 0) → RowTo A T s i j →
      d = A i j - ∑ m ∈ Ico s j, T i m * T m j →
      ∃ w' T' d', cholInner getA s i r j T d w = .ok (w', T', d') ∧ In i w' ∧ RowTo A T' s i i ∧
        d' = A i i - ∑ m ∈ Ico s i, T' i m * T' m i ∧
        ∀ a b, ¬ (a = i ∧ s ≤ b ∧ b < i) → ¬ (b = i ∧ s ≤ a ∧ a < i) → T' a b = T a b := by
  intro r
  induction r with
  | zero =>
    intro j T d w hj hji hw _ hrow hd
    have : j = i := by omega
    subst this
    exact ⟨w, T, d, rfl, hw, hrow, hd, fun _ _ _ _ => rfl⟩
  | succ r ih =>
    intro j T d w hj hji hw hpiv hrow hd
    have hjlt : j < i := by omega
    set T1 := set2 T j i d with hT1
    have h11 : T1 j j = T j j := set2_ne (by omega)
    have hdiv : pyDiv d (T1 j j) = .ok (d / T j j) := by
      rw [h11, pyDiv, if_neg (hpiv j hj hjlt)]
    set T2 := set2 T1 i j (d / T j j) with hT2
    obtain ⟨w1, hg, hw1⟩ := hS.more i (j + 1) w hi (by omega) hw
    have hfr : ∀ a b, ¬ (a = i ∧ b = j) → ¬ (a = j ∧ b = i) → T2 a b = T a b := fun a b h1 h2 => by
      rw [hT2, set2_ne h1, hT1, set2_ne h2]
    have e1 : T2 i j = d / T j j := set2_eq
    have e2 : T2 j i = d := by rw [hT2, set2_ne (by omega), hT1, set2_eq]
    have hrow2 : RowTo A T2 s i (j + 1) := by
      intro k hk1 hk2
      have hsum : ∑ m ∈ Ico s k, T2 i m * T2 m k = ∑ m ∈ Ico s k, T i m * T m k := by
        refine Finset.sum_congr rfl fun m hm => ?_
        rw [Finset.mem_Ico] at hm
        rw [hfr i m (by omega) (by omega), hfr m k (by omega) (by omega)]
      rw [hsum]
      rcases Nat.lt_or_ge k j with hk | hk
      · rw [hfr k i (by omega) (by omega), hfr i k (by omega) (by omega), hfr k k (by omega) (by omega)]
        exact hrow k hk1 hk
      · have hkj : k = j := by omega
        subst hkj
        rw [e1, e2, hfr k k (by omega) (by omega)]
        exact ⟨(div_mul_cancel₀ d (hpiv k hj hjlt)).symm, by rw [hd]; ring⟩
    obtain ⟨w', T', d', h1, h2, h3, h4, h5⟩ := ih (j + 1) T2 _ w1 (by omega) (by omega) hw1
      (fun k hk1 hk2 => by rw [hfr k k (by omega) (by omega)]; exact hpiv k hk1 hk2) hrow2 rfl
    refine ⟨w', T', d', ?_, h2, h3, h4, fun a b ha hb => ?_⟩
    · unfold cholInner
      simp only [← hT1, hdiv, ← hT2, hg]
      exact h1
    · rw [h5 a b ha hb, hfr a b (by omega) (by omega)]

/-- Acceptance in semidefinite mode, stated on `A` alone: from index `s` on, either the rest is
positive definite, or the leading part up to the first non-positive-definite block is singular
positive semidefinite and acceptance continues *after* it. -/
inductive SemiAcc (A : ℕ → ℕ → α) (n : ℕ) : ℕ → Prop
  | pd {s} : PDon A s n → SemiAcc A n s
  | step {s i} : s ≤ i → i < n → PDon A s i → PSDon A s (i + 1) → ¬ PDon A s (i + 1) →
      SemiAcc A n (i + 1) → SemiAcc A n s

/-- What the outer loop, entered at block start `s`, establishes. -/
structure RowsPost (A : ℕ → ℕ → α) (n : ℕ) (allow : Bool) (s : ℕ) (T' : ℕ → ℕ → α) (p : ℕ × ℕ) : Prop where
  fail : p.2 ≠ 0 → ∃ m, p.2 = m + 1 ∧ s ≤ p.1 ∧ p.1 ≤ m ∧ m < n ∧
    (∀ r, p.1 ≤ r → r < m + 1 → LdlRow A T' p.1 r) ∧ (∀ r, p.1 ≤ r → r < m → 0 < T' r r) ∧
    T' m m ≤ 0 ∧ (allow = true → T' m m < 0) ∧ (allow = false → p.1 = s)
  good : p.2 = 0 → p = (0, 0) ∧ (((∀ r, s ≤ r → r < n → LdlRow A T' s r) ∧ ∀ r, s ≤ r → r < n → 0 < T' r r)
    ∨ (allow = true ∧ ∃ m, s ≤ m ∧ m < n ∧ ¬ PDon A s (m + 1)))
  nneg : p.2 = 0 → ∀ r, s ≤ r → r < n → 0 ≤ T' r r
  semi : allow = true → (p.2 = 0 ↔ SemiAcc A n s)

omit [LinearOrder α] in
theorem LdlRow.congr {A T T' : ℕ → ℕ → α} {s r : ℕ} (h : LdlRow A T s r)
    (hT : ∀ a b, s ≤ a → s ≤ b → a ≤ r → b ≤ r → T' a b = T a b) : LdlRow A T' s r := by
  refine ⟨fun j h1 h2 => ?_, fun j h1 h2 => ?_⟩
  · rw [hT j r (by omega) (by omega) (by omega) (by omega), hT r j (by omega) (by omega) (by omega) (by omega),
      hT j j (by omega) (by omega) (by omega) (by omega)]
    exact h.up j h1 h2
  · rw [hT j r (by omega) (by omega) (by omega) (by omega), h.val j h1 h2]
    congr 1
    refine Finset.sum_congr rfl fun m hm => ?_
    rw [Finset.mem_Ico] at hm
    rw [hT r m (by omega) (by omega) (by omega) (by omega), hT m j (by omega) (by omega) (by omega) (by omega)]

variable [IsStrictOrderedRing α]

theorem cholRows_spec {getA : ℕ → ℕ → W → Except PyErr (W × α)} {A : ℕ → ℕ → α} {n : ℕ}
    {Pre In : ℕ → W → Prop} (hS : Serves getA A n Pre In) (allow : Bool) (hsym : SymOn A n) :
    ∀ r i s T w, s ≤ i → i + r = n → Pre i w → (∀ k, s ≤ k → k < i → LdlRow A T s k) →
      (∀ k, s ≤ k → k < i → 0 < T k k) →
      ∃ w' T' p, cholRows getA allow r i s T w = .ok (w', T', p) ∧ RowsPost A n allow s T' p ∧
        (∀ a b, a < i → b < i → T' a b = T a b) ∧ (p.2 = 0 → Pre n w') ∧
        (∀ m, p.2 = m + 1 → In m w') := by
  intro r
  induction r with
  | zero =>
    intro i s T w hs hin hw hrow hpos
    have hin' : i = n := by omega
    subst hin'
    have hpd : PDon A s i := pd_of_pivots hs hrow hsym hpos
    exact ⟨w, T, (0, 0), rfl, ⟨fun h => absurd rfl h, fun _ => ⟨rfl, .inl ⟨hrow, hpos⟩⟩,
      fun _ k h1 h2 => (hpos k h1 h2).le, fun _ => ⟨fun _ => .pd hpd, fun _ => rfl⟩⟩,
      fun _ _ _ _ => rfl, fun _ => hw, fun m hm => absurd hm (by simp)⟩
  | succ r ih =>
    intro i s T w hs hin hw hrow hpos
    have hi : i < n := by omega
    obtain ⟨w1, hg, hw1⟩ := hS.first i s w hi hs hw
    obtain ⟨w2, T1, d, h1, hw2, hrowi, hd, hfr⟩ := cholInner_spec hS hi (i - s) s T (A i s) w1 le_rfl
      (by omega) hw1 (fun k h1 h2 => (hpos k h1 h2).ne') (fun k h1 h2 => by omega) (by simp)
    set T2 := set2 T1 i i d with hT2
    have hfr2 : ∀ a b, a < i → b < i → T2 a b = T a b := fun a b ha hb => by
      rw [hT2, set2_ne (by omega), hfr a b (by omega) (by omega)]
    have hrow2 : ∀ k, s ≤ k → k < i + 1 → LdlRow A T2 s k := by
      intro k hk1 hk2
      rcases Nat.lt_or_ge k i with hk | hk
      · exact (hrow k hk1 hk).congr fun a b _ _ ha hb => hfr2 a b (by omega) (by omega)
      · have hki : k = i := by omega
        subst hki
        refine ⟨fun j hj1 hj2 => ?_, fun j hj1 hj2 => ?_⟩
        · rw [hT2, set2_ne (by omega), set2_ne (by omega), set2_ne (by omega)]
          exact (hrowi j hj1 hj2).1
        · have hsum : ∑ m ∈ Ico s j, T2 k m * T2 m j = ∑ m ∈ Ico s j, T1 k m * T1 m j := by
            refine Finset.sum_congr rfl fun m hm => ?_
            rw [Finset.mem_Ico] at hm
            rw [hT2, set2_ne (by omega), set2_ne (by omega)]
          rw [hsum]
          rcases Nat.lt_or_ge j k with hjk | hjk
          · rw [hT2, set2_ne (by omega)]
            exact (hrowi j hj1 hjk).2
          · have hjk' : j = k := by omega
            subst hjk'
            rw [hT2, set2_eq, hd]; ring
    have hTii : T2 i i = d := set2_eq
    have hpos2 : ∀ k, s ≤ k → k < i → 0 < T2 k k := fun k hk1 hk2 => by
      rw [hfr2 k k hk2 hk2]; exact hpos k hk1 hk2
    have hsymi : SymOn A i := fun a b ha hb => hsym a b (by omega) (by omega)
    have hsymi1 : SymOn A (i + 1) := fun a b ha hb => hsym a b (by omega) (by omega)
    have hpdi : PDon A s i := pd_of_pivots hs (fun k h1 h2 => hrow2 k h1 (by omega)) hsymi hpos2
    have hrun : ∀ R, (if 0 < d then cholRows getA allow r (i + 1) s T2 w2
        else if d < 0 ∨ allow = false then .ok (w2, T2, (s, i + 1))
        else cholRows getA allow r (i + 1) (i + 1) T2 w2) = R →
        cholRows getA allow (r + 1) i s T w = R := by
      intro R hR
      unfold cholRows
      simp only [hg, h1, ← hT2]
      exact hR
    by_cases hd0 : 0 < d
    · obtain ⟨w', T', p, e1, e2, e3, e4, e5⟩ := ih (i + 1) s T2 w2 (by omega) (by omega)
        (hS.next i w2 hw2) hrow2 (fun k hk1 hk2 => by
          rcases Nat.lt_or_ge k i with hk | hk
          · exact hpos2 k hk1 hk
          · have : k = i := by omega
            subst this; rw [hTii]; exact hd0)
      refine ⟨w', T', p, hrun _ (by rw [if_pos hd0]; exact e1), e2, fun a b ha hb => ?_, e4, e5⟩
      rw [e3 a b (by omega) (by omega), hfr2 a b ha hb]
    · have hdle : T2 i i ≤ 0 := by rw [hTii]; exact not_lt.1 hd0
      have hnpd : ¬ PDon A s (i + 1) := not_pd_of_witness hs hrow2 hsymi1 hdle
      by_cases hd1 : d < 0 ∨ allow = false
      · refine ⟨w2, T2, (s, i + 1), hrun _ (by rw [if_neg hd0, if_pos hd1]), ⟨fun _ =>
          ⟨i, rfl, le_rfl, hs, hi, hrow2, hpos2, hdle, ?_, fun _ => rfl⟩, fun h => by simp at h,
          fun h => by simp at h, fun ha => ?_⟩, hfr2, fun h => by simp at h, fun m hm => ?_⟩
        · intro ha
          rw [hTii]
          rcases hd1 with h | h
          · exact h
          · rw [ha] at h; exact absurd h (by decide)
        · have hneg : d < 0 := by
            rcases hd1 with h | h
            · exact h
            · rw [ha] at h; exact absurd h (by decide)
          have hnpsd : ¬ PSDon A s (i + 1) := not_psd_of_witness hs hrow2 hsymi1 (by rw [hTii]; exact hneg)
          refine ⟨fun h => by simp at h, fun h => ?_⟩
          exfalso
          cases h with
          | pd h => exact hnpd (h.sub le_rfl (by omega))
          | @step _ i' h1 h2 h3 h4 h5 h6 =>
            rcases Nat.lt_trichotomy i' i with hlt | heq | hgt
            · exact h5 (hpdi.sub le_rfl (by omega))
            · subst heq; exact hnpsd h4
            · exact hnpd (h3.sub le_rfl (by omega))
        · simp only [Nat.add_right_cancel_iff] at hm; subst hm; exact hw2
      · push Not at hd1
        have hd00 : d = 0 := le_antisymm (not_lt.1 hd0) hd1.1
        have hall : allow = true := by simpa using hd1.2
        obtain ⟨w', T', p, e1, e2, e3, e4, e5⟩ := ih (i + 1) (i + 1) T2 w2 le_rfl (by omega)
          (hS.next i w2 hw2) (fun k h1 h2 => by omega) (fun k h1 h2 => by omega)
        have hpsd : PSDon A s (i + 1) := psd_of_pivots (by omega) hrow2 hsymi1 (fun k hk1 hk2 => by
          rcases Nat.lt_or_ge k i with hk | hk
          · exact (hpos2 k hk1 hk).le
          · have : k = i := by omega
            subst this; rw [hTii, hd00])
        refine ⟨w', T', p, hrun _ (by rw [if_neg hd0, if_neg (by push Not; exact hd1)]; exact e1),
          ⟨fun hp => ?_, fun hp => ⟨(e2.good hp).1, .inr ⟨hall, i, hs, hi, hnpd⟩⟩, fun hp k hk1 hk2 => ?_,
            fun ha => ?_⟩, fun a b ha hb => ?_, e4, e5⟩
        · obtain ⟨m, f1, f2, f3, f4, f5, f6, f7, f8, f9⟩ := e2.fail hp
          exact ⟨m, f1, by omega, f3, f4, f5, f6, f7, f8, fun h => by rw [hall] at h; exact absurd h (by decide)⟩
        · rcases Nat.lt_or_ge k (i + 1) with hk | hk
          · rw [e3 k k hk hk]
            rcases Nat.lt_or_ge k i with hk' | hk'
            · exact (hpos2 k hk1 hk').le
            · have : k = i := by omega
              subst this; rw [hTii, hd00]
          · exact e2.nneg hp k hk hk2
        · rw [e2.semi ha]
          refine ⟨fun h => .step hs hi hpdi hpsd hnpd h, fun h => ?_⟩
          cases h with
          | pd h => exact absurd (h.sub le_rfl (by omega)) hnpd
          | @step _ i' h1 h2 h3 h4 h5 h6 =>
            rcases Nat.lt_trichotomy i' i with hlt | heq | hgt
            · exact absurd (hpdi.sub le_rfl (by omega)) h5
            · subst heq; exact h6
            · exact absurd (h3.sub le_rfl (by omega)) hnpd
        · rw [e3 a b (by omega) (by omega), hfr2 a b ha hb]

/-- `factor` on any object state: outcome and invariants. -/
theorem factor_spec {getA : ℕ → ℕ → W → Except PyErr (W × α)} {A : ℕ → ℕ → α}
    {Pre In : ℕ → W → Prop} (c : CholExt α) (hS : Serves getA A c.n Pre In) (hsym : SymOn A c.n) {w : W}
    (hw : Pre 0 w) :
    ∃ w' T' p, c.factor getA w = .ok (w', { c with p := p, T := T' }, p.2 == 0) ∧
      RowsPost A c.n c.allowSemidefinite 0 T' p ∧ (p.2 = 0 → Pre c.n w') ∧ (∀ m, p.2 = m + 1 → In m w') := by
  obtain ⟨w', T', p, h1, h2, -, h4, h5⟩ := cholRows_spec hS c.allowSemidefinite hsym c.n 0 0 c.T w le_rfl
    (by omega) hw (fun k _ h => absurd h (by omega)) (fun k _ h => absurd h (by omega))
  exact ⟨w', T', p, by simp only [CholExt.factor, h1, CholExt.isSpd], h2, h4, h5⟩

omit [Field α] [LinearOrder α] [IsStrictOrderedRing α] in
/-- The stateless array reader serves its array. -/
theorem serves_readAt {size n : ℕ} (h : n ≤ size) (A B : ℕ → ℕ → α)
    (hAB : ∀ i j, i < n → j ≤ i → B i j = A i j) :
    Serves (W := W) (readAt size A) B n (fun _ _ => True) (fun _ _ => True) := by
  refine ⟨fun i j w hi hj _ => ⟨w, ?_, trivial⟩, fun i j w hi hj _ => ⟨w, ?_, trivial⟩, fun _ _ _ => trivial⟩ <;>
  · rw [readAt, if_pos (by omega), hAB i j hi hj]

end Verif
