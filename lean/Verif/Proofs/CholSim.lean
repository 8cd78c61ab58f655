import Verif.Proofs.CholLoop

/-! # Two runs of `factor` from different buffers; access log -/
namespace Verif
open Finset
variable {W α : Type _} [Field α] [LinearOrder α]

/-- Agreement of two buffers on the block `[s, e)²`. -/
def Agr (s e : ℕ) (T1 T2 : ℕ → ℕ → α) : Prop := ∀ a b, s ≤ a → a < e → s ≤ b → b < e → T1 a b = T2 a b

theorem cholInner_sim (getA : ℕ → ℕ → W → Except PyErr (W × α)) {s i : ℕ} :
    ∀ r j T1 T2 d w, s ≤ j → j + r = i → Agr s i T1 T2 →
      (∀ k, s ≤ k → k < j → T1 i k = T2 i k ∧ T1 k i = T2 k i) →
      match cholInner getA s i r j T1 d w, cholInner getA s i r j T2 d w with
      | .error e1, .error e2 => e1 = e2
      | .ok (w1, T1', d1), .ok (w2, T2', d2) => w1 = w2 ∧ d1 = d2 ∧ Agr s i T1' T2' ∧
          ∀ k, s ≤ k → k < i → T1' i k = T2' i k ∧ T1' k i = T2' k i
      | _, _ => False := by
  intro r
  induction r with
  | zero =>
    intro j T1 T2 d w hj hji hag hrow
    have : j = i := by omega
    subst this
    exact ⟨rfl, rfl, hag, hrow⟩
  | succ r ih =>
    intro j T1 T2 d w hj hji hag hrow
    have e1 : set2 T1 j i d j j = T1 j j := set2_ne (by omega)
    have e2 : set2 T2 j i d j j = T1 j j := by
      rw [set2_ne (by omega)]; exact (hag j j hj (by omega) hj (by omega)).symm
    simp only [cholInner, e1, e2]
    rcases pyDiv d (T1 j j) with e | l
    · exact rfl
    rcases getA i (j + 1) w with e | ⟨w1, a⟩
    · exact rfl
    simp only
    have hfr : ∀ (T : ℕ → ℕ → α) a b, ¬ (a = i ∧ b = j) → ¬ (a = j ∧ b = i) →
        set2 (set2 T j i d) i j l a b = T a b := fun T a b h1 h2 => by rw [set2_ne h1, set2_ne h2]
    have hrow' : ∀ k, s ≤ k → k < j + 1 →
        set2 (set2 T1 j i d) i j l i k = set2 (set2 T2 j i d) i j l i k ∧
        set2 (set2 T1 j i d) i j l k i = set2 (set2 T2 j i d) i j l k i := by
      intro k hk1 hk2
      rcases Nat.lt_or_ge k j with hk | hk
      · rw [hfr _ i k (by omega) (by omega), hfr _ i k (by omega) (by omega),
          hfr _ k i (by omega) (by omega), hfr _ k i (by omega) (by omega)]
        exact hrow k hk1 hk
      · have : k = j := by omega
        subst this
        refine ⟨by rw [set2_eq, set2_eq], ?_⟩
        rw [set2_ne (T := set2 T1 k i d) (by omega), set2_ne (T := set2 T2 k i d) (by omega), set2_eq, set2_eq]
    have hag' : Agr s i (set2 (set2 T1 j i d) i j l) (set2 (set2 T2 j i d) i j l) := by
      intro a b h1 h2 h3 h4
      rw [hfr _ a b (by omega) (by omega), hfr _ a b (by omega) (by omega)]
      exact hag a b h1 h2 h3 h4
    have hsum : ∑ m ∈ Ico s (j + 1), set2 (set2 T1 j i d) i j l i m * set2 (set2 T1 j i d) i j l m (j + 1) =
        ∑ m ∈ Ico s (j + 1), set2 (set2 T2 j i d) i j l i m * set2 (set2 T2 j i d) i j l m (j + 1) := by
      refine Finset.sum_congr rfl fun m hm => ?_
      rw [Finset.mem_Ico] at hm
      rw [(hrow' m hm.1 hm.2).1]
      rcases Nat.lt_or_ge (j + 1) i with hj1 | hj1
      · rw [hag' m (j + 1) hm.1 (by omega) (by omega) hj1]
      · have : j + 1 = i := by omega
        rw [this, (hrow' m hm.1 hm.2).2]
    rw [hsum]
    exact ih (j + 1) _ _ _ w1 (by omega) (by omega) hag' hrow'

theorem cholRows_sim (getA : ℕ → ℕ → W → Except PyErr (W × α)) (allow : Bool) :
    ∀ r i s T1 T2 w, s ≤ i → Agr s i T1 T2 →
      match cholRows getA allow r i s T1 w, cholRows getA allow r i s T2 w with
      | .error e1, .error e2 => e1 = e2
      | .ok (w1, T1', p1), .ok (w2, T2', p2) => w1 = w2 ∧ p1 = p2 ∧ Agr p1.1 p1.2 T1' T2' ∧
          (p1.2 = 0 → allow = false → Agr s (i + r) T1' T2')
      | _, _ => False := by
  intro r
  induction r with
  | zero => intro i s T1 T2 w hs hag; exact ⟨rfl, rfl, fun a b _ h => absurd h (by simp), fun _ _ => hag⟩
  | succ r ih =>
    intro i s T1 T2 w hs hag
    simp only [cholRows]
    rcases getA i s w with e | ⟨w1, d0⟩
    · exact rfl
    simp only
    have hin := cholInner_sim getA (i - s) s T1 T2 d0 w1 le_rfl (by omega) hag (fun k h1 h2 => by omega)
    generalize cholInner getA s i (i - s) s T1 d0 w1 = R1 at hin ⊢
    generalize cholInner getA s i (i - s) s T2 d0 w1 = R2 at hin ⊢
    rcases R1 with e1 | ⟨w2, T1', d⟩ <;> rcases R2 with e2 | ⟨w2', T2', d'⟩ <;> simp only at hin ⊢
    · exact hin
    obtain ⟨rfl, rfl, ha, hr⟩ := hin
    have hag2 : Agr s (i + 1) (set2 T1' i i d) (set2 T2' i i d) := by
      intro a b h1 h2 h3 h4
      by_cases hab : a = i ∧ b = i
      · obtain ⟨rfl, rfl⟩ := hab; rw [set2_eq, set2_eq]
      · rw [set2_ne hab, set2_ne hab]
        rcases Nat.lt_or_ge a i with h5 | h5
        · rcases Nat.lt_or_ge b i with h6 | h6
          · exact ha a b h1 h5 h3 h6
          · have : b = i := by omega
            subst this; exact (hr a h1 h5).2
        · have : a = i := by omega
          subst this; exact (hr b h3 (by omega)).1
    by_cases hd0 : 0 < d
    · simp only [if_pos hd0]
      have key := ih (i + 1) s _ _ w2 (by omega) hag2
      rwa [show i + 1 + r = i + (r + 1) by omega] at key
    · simp only [if_neg hd0]
      by_cases hd1 : d < 0 ∨ allow = false
      · simp only [if_pos hd1]
        exact ⟨trivial, trivial, hag2, fun h => by simp at h⟩
      · simp only [if_neg hd1]
        have key := ih (i + 1) (i + 1) (set2 T1' i i d) (set2 T2' i i d) w2 le_rfl
          (fun a b h1 h2 => by omega)
        generalize cholRows getA allow r (i + 1) (i + 1) (set2 T1' i i d) w2 = R1 at key ⊢
        generalize cholRows getA allow r (i + 1) (i + 1) (set2 T2' i i d) w2 = R2 at key ⊢
        rcases R1 with e1 | ⟨w3, T3, p3⟩ <;> rcases R2 with e2 | ⟨w4, T4, p4⟩ <;> simp only at key ⊢
        · exact key
        · exact ⟨key.1, key.2.1, key.2.2.1, fun _ h => absurd (Or.inr h) hd1⟩

/-! ### access log -/

/-- `getA` recording the index pairs it is asked for. -/
def recA (getA : ℕ → ℕ → W → Except PyErr (W × α)) (i j : ℕ) (s : W × List (ℕ × ℕ)) :
    Except PyErr ((W × List (ℕ × ℕ)) × α) :=
  match getA i j s.1 with
  | .error e => .error e
  | .ok (w, a) => .ok ((w, s.2 ++ [(i, j)]), a)

/-- Entries `(i, s), (i, s+1), ..., (i, i)`. -/
def rowAccess (i s : ℕ) : List (ℕ × ℕ) := (List.range' s (i + 1 - s)).map fun j => (i, j)

theorem cholInner_log (getA : ℕ → ℕ → W → Except PyErr (W × α)) {s i : ℕ} :
    ∀ r j T d w l w' l' T' d', j + r = i → cholInner (recA getA) s i r j T d (w, l) = .ok ((w', l'), T', d') →
      l' = l ++ (List.range' (j + 1) r).map (fun j => (i, j)) := by
  intro r
  induction r with
  | zero =>
    intro j T d w l w' l' T' d' _ h
    simp only [cholInner, Except.ok.injEq, Prod.mk.injEq] at h
    simp [h.1.2]
  | succ r ih =>
    intro j T d w l w' l' T' d' hji h
    simp only [cholInner] at h
    rcases hp : pyDiv d (set2 T j i d j j) with e | q <;> rw [hp] at h
    · simp at h
    simp only [recA] at h
    rcases hg : getA i (j + 1) w with e | ⟨w1, a⟩ <;> rw [hg] at h
    · simp at h
    simp only at h
    rw [ih _ _ _ _ _ _ _ _ _ (by omega) h]
    simp [List.range'_succ]

theorem cholRows_log (getA : ℕ → ℕ → W → Except PyErr (W × α)) (allow : Bool) :
    ∀ r i s T w l w' l' T' p, s ≤ i → cholRows (recA getA) allow r i s T (w, l) = .ok ((w', l'), T', p) →
      ∃ (rows : ℕ) (st : ℕ → ℕ), rows ≤ r ∧ rows = (if p.2 = 0 then r else p.2 - i) ∧
        (p.2 ≠ 0 → i < p.2) ∧
        (∀ k, k < rows → s ≤ st (i + k) ∧ st (i + k) ≤ i + k) ∧ (allow = false → ∀ k, st k = s) ∧
        l' = l ++ (List.range' i rows).flatMap fun k => rowAccess k (st k) := by
  intro r
  induction r with
  | zero =>
    intro i s T w l w' l' T' p hs h
    simp only [cholRows, Except.ok.injEq, Prod.mk.injEq] at h
    obtain ⟨⟨-, rfl⟩, -, rfl⟩ := h
    exact ⟨0, fun _ => s, le_rfl, by simp, by simp, by simp, fun _ _ => rfl, by simp⟩
  | succ r ih =>
    intro i s T w l w' l' T' p hs h
    simp only [cholRows] at h
    rcases hg : recA getA i s (w, l) with e | ⟨w1, d0⟩ <;> rw [hg] at h
    · simp at h
    have hl1 : w1.2 = l ++ [(i, s)] := by
      simp only [recA] at hg
      rcases hg' : getA i s w with e | ⟨w1', a⟩ <;> rw [hg'] at hg
      · simp at hg
      · simp only [Except.ok.injEq, Prod.mk.injEq] at hg
        rw [← hg.1]
    obtain ⟨w1, l1⟩ := w1
    simp only at hl1 h
    subst hl1
    rcases hin : cholInner (recA getA) s i (i - s) s T d0 (w1, l ++ [(i, s)]) with e | ⟨⟨w2, l2⟩, T1, d⟩ <;>
      rw [hin] at h
    · simp at h
    have hl2 : l2 = l ++ rowAccess i s := by
      rw [cholInner_log getA _ _ _ _ _ _ _ _ _ _ (by omega) hin, rowAccess,
        show i + 1 - s = (i - s) + 1 by omega, List.range'_succ]
      simp
    subst hl2
    simp only at h
    by_cases hd0 : 0 < d
    · rw [if_pos hd0] at h
      obtain ⟨rows, st, h1, h2, h3, h4, h5, h6⟩ := ih (i + 1) s _ _ _ _ _ _ _ (by omega) h
      refine ⟨rows + 1, fun k => if k = i then s else st k, by omega, ?_, fun hp => by have := h3 hp; omega,
        fun k hk => ?_, fun ha k => ?_, ?_⟩
      · by_cases hp : p.2 = 0
        · rw [if_pos hp] at h2 ⊢; omega
        · rw [if_neg hp] at h2 ⊢; have := h3 hp; omega
      · rcases Nat.eq_zero_or_pos k with rfl | hk0
        · simp [hs]
        · have := h4 (k - 1) (by omega)
          rw [show i + 1 + (k - 1) = i + k by omega] at this
          simp only [show ¬ (i + k = i) by omega, if_false]
          exact this
      · by_cases hk : k = i
        · simp [hk]
        · simp [hk, h5 ha k]
      · rw [h6, List.range'_succ, List.flatMap_cons, List.append_assoc]
        simp only [if_true]
        congr 2
        refine List.flatMap_congr fun k hk => ?_
        rw [List.mem_range'_1] at hk
        rw [if_neg (by omega)]
    · rw [if_neg hd0] at h
      by_cases hd1 : d < 0 ∨ allow = false
      · rw [if_pos hd1] at h
        simp only [Except.ok.injEq, Prod.mk.injEq] at h
        obtain ⟨⟨rfl, rfl⟩, rfl, rfl⟩ := h
        refine ⟨1, fun _ => s, by omega, by simp, by simp, fun k hk => ?_, fun _ _ => rfl, by simp⟩
        have : k = 0 := by omega
        subst this; exact ⟨le_rfl, hs⟩
      · rw [if_neg hd1] at h
        obtain ⟨rows, st, h1, h2, h3, h4, h5, h6⟩ := ih (i + 1) (i + 1) _ _ _ _ _ _ _ le_rfl h
        refine ⟨rows + 1, fun k => if k = i then s else st k, by omega, ?_,
          fun hp => by have := h3 hp; omega, fun k hk => ?_, fun ha k => absurd (Or.inr ha) hd1, ?_⟩
        · by_cases hp : p.2 = 0
          · rw [if_pos hp] at h2 ⊢; omega
          · rw [if_neg hp] at h2 ⊢; have := h3 hp; omega
        · rcases Nat.eq_zero_or_pos k with rfl | hk0
          · simp [hs]
          · have := h4 (k - 1) (by omega)
            rw [show i + 1 + (k - 1) = i + k by omega] at this
            simp only [show ¬ (i + k = i) by omega, if_false]
            exact ⟨by omega, this.2⟩
        · rw [h6, List.range'_succ, List.flatMap_cons, List.append_assoc]
          simp only [if_true]
          congr 2
          refine List.flatMap_congr fun k hk => ?_
          rw [List.mem_range'_1] at hk
          rw [if_neg (by omega)]

/-! ### errors come from `getA` only -/

theorem cholInner_err (getA : ℕ → ℕ → W → Except PyErr (W × α)) {s i : ℕ} :
    ∀ r j T d w e, s ≤ j → j + r = i → (∀ k, s ≤ k → k < i → T k k ≠ 0) →
      cholInner getA s i r j T d w = .error e → ∃ j' w', j' ≤ i ∧ getA i j' w' = .error e := by
  intro r
  induction r with
  | zero => intro j T d w e _ _ _ h; simp [cholInner] at h
  | succ r ih =>
    intro j T d w e hj hji hT h
    simp only [cholInner] at h
    have h1 : set2 T j i d j j = T j j := set2_ne (by omega)
    rw [h1, pyDiv, if_neg (hT j hj (by omega))] at h
    simp only at h
    rcases hg : getA i (j + 1) w with e' | ⟨w1, a⟩ <;> rw [hg] at h
    · simp only [Except.error.injEq] at h
      subst h
      exact ⟨j + 1, w, by omega, hg⟩
    · refine ih (j + 1) _ _ _ e (by omega) (by omega) (fun k h1 h2 => ?_) h
      rw [set2_ne (by omega), set2_ne (by omega)]; exact hT k h1 h2

theorem cholInner_diag (getA : ℕ → ℕ → W → Except PyErr (W × α)) {s i : ℕ} :
    ∀ r j T d w w' T' d', j + r = i → cholInner getA s i r j T d w = .ok (w', T', d') →
      ∀ k, k < i → T' k k = T k k := by
  intro r
  induction r with
  | zero =>
    intro j T d w w' T' d' _ h k _
    simp only [cholInner, Except.ok.injEq, Prod.mk.injEq] at h
    rw [← h.2.1]
  | succ r ih =>
    intro j T d w w' T' d' hji h k hk
    simp only [cholInner] at h
    rcases hp : pyDiv d (set2 T j i d j j) with e | q <;> rw [hp] at h
    · simp at h
    rcases hg : getA i (j + 1) w with e' | ⟨w1, a⟩ <;> simp only [hg] at h
    · simp at h
    rw [ih _ _ _ _ _ _ _ (by omega) h k hk, set2_ne (by omega), set2_ne (by omega)]

theorem cholRows_err (getA : ℕ → ℕ → W → Except PyErr (W × α)) (allow : Bool) (n : ℕ) :
    ∀ r i s T w e, s ≤ i → i + r = n → (∀ k, s ≤ k → k < i → T k k ≠ 0) →
      cholRows getA allow r i s T w = .error e → ∃ i' j' w', j' ≤ i' ∧ i' < n ∧ getA i' j' w' = .error e := by
  intro r
  induction r with
  | zero => intro i s T w e _ _ _ h; simp [cholRows] at h
  | succ r ih =>
    intro i s T w e hs hin hT h
    simp only [cholRows] at h
    rcases hg : getA i s w with e' | ⟨w1, d0⟩ <;> rw [hg] at h
    · simp only [Except.error.injEq] at h
      subst h
      exact ⟨i, s, w, hs, by omega, hg⟩
    simp only at h
    rcases hi : cholInner getA s i (i - s) s T d0 w1 with e' | ⟨w2, T1, d⟩ <;> rw [hi] at h
    · simp only [Except.error.injEq] at h
      subst h
      obtain ⟨j', w', h1, h2⟩ := cholInner_err getA _ _ _ _ _ _ le_rfl (by omega) hT hi
      exact ⟨i, j', w', h1, by omega, h2⟩
    simp only at h
    have hdiag := cholInner_diag getA _ _ _ _ _ _ _ _ (by omega) hi
    by_cases hd0 : 0 < d
    · rw [if_pos hd0] at h
      refine ih (i + 1) s _ _ e (by omega) (by omega) (fun k h1 h2 => ?_) h
      rcases Nat.lt_or_ge k i with hk | hk
      · rw [set2_ne (by omega), hdiag k hk]; exact hT k h1 hk
      · have : k = i := by omega
        subst this; rw [set2_eq]; exact hd0.ne'
    · rw [if_neg hd0] at h
      by_cases hd1 : d < 0 ∨ allow = false
      · rw [if_pos hd1] at h; simp at h
      · rw [if_neg hd1] at h
        exact ih (i + 1) (i + 1) _ _ e le_rfl (by omega) (fun k h1 h2 => by omega) h

end Verif
