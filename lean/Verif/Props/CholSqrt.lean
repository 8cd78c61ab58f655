import Verif.Props.Chol

/-! # C31: when `sqrt()` raises -/
namespace Verif
open Finset
variable {W α : Type _} [Field α] [LinearOrder α]

theorem cholInner_keeps_diag (getA : ℕ → ℕ → W → Except PyErr (W × α)) (start i : ℕ) :
    ∀ r j T d w w' T' d', j + r ≤ i → cholInner getA start i r j T d w = .ok (w', T', d') → ∀ k, T' k k = T k k := by
  intro r
  induction r with
  | zero => intro j T d w w' T' d' _ h k; simp only [cholInner, Except.ok.injEq, Prod.mk.injEq] at h; rw [h.2.1]
  | succ r ih =>
    intro j T d w w' T' d' hj h k
    simp only [cholInner] at h
    split at h
    · simp at h
    split at h
    · simp at h
    rw [ih _ _ _ _ _ _ _ (by omega) h k]
    simp only [set2]
    rw [if_neg (by omega), if_neg (by omega)]

theorem cholRows_diag (getA : ℕ → ℕ → W → Except PyErr (W × α)) (allow : Bool) :
    ∀ r i s T w w' T' p, s ≤ i → cholRows getA allow r i s T w = .ok (w', T', p) → p.2 = 0 →
      (∀ k, k < i → T' k k = T k k) ∧ ∀ k, i ≤ k → k < i + r → 0 ≤ T' k k := by
  intro r
  induction r with
  | zero =>
    intro i s T w w' T' p _ h _
    simp only [cholRows, Except.ok.injEq, Prod.mk.injEq] at h
    exact ⟨fun k _ => by rw [h.2.1], fun k _ _ => by omega⟩
  | succ r ih =>
    intro i s T w w' T' p hs h hp
    simp only [cholRows] at h
    split at h
    · simp at h
    split at h
    · simp at h
    rename_i w2 T1 d hi
    have hd := cholInner_keeps_diag getA s i _ _ _ _ _ _ _ _ (by omega) hi
    have fin : ∀ s', s' ≤ i + 1 → 0 ≤ d → cholRows getA allow r (i + 1) s' (set2 T1 i i d) w2 = .ok (w', T', p) →
        (∀ k, k < i → T' k k = T k k) ∧ ∀ k, i ≤ k → k < i + (r + 1) → 0 ≤ T' k k := by
      intro s' hs' h0 h
      obtain ⟨h1, h2⟩ := ih _ _ _ _ _ _ _ hs' h hp
      refine ⟨fun k hk => ?_, fun k h3 h4 => ?_⟩
      · rw [h1 k (by omega), set2, if_neg (by omega), hd]
      · rcases h3.eq_or_lt with rfl | h3
        · rw [h1 _ (by omega), set2, if_pos ⟨rfl, rfl⟩]; exact h0
        · exact h2 k h3 (by omega)
    split_ifs at h with h1 h2
    · exact fin _ (by omega) h1.le h
    · simp only [Except.ok.injEq, Prod.mk.injEq] at h
      rw [← h.2.2] at hp
      simp at hp
    · exact fin _ le_rfl (not_lt.1 fun h3 => h2 (.inl h3)) h

/-- **C31** after `factor` has returned, `sqrt()` returns if the answer was `True` and raises `AssertionError` if it was
`False`; there is no `ValueError`, whatever the entry supplier, the earlier history and `allow_semidefinite`. -/
theorem C31_sqrt_total {c c' : CholExt ℝ} {getA : ℕ → ℕ → W → Except PyErr (W × ℝ)} {w w' : W} {b : Bool}
    (h : c.factor getA w = .ok (w', c', b)) :
    (b = true → ∃ R, c'.sqrt = .ok R) ∧ (b = false → c'.sqrt = .error .assertion) := by
  simp only [CholExt.factor] at h
  split at h
  · simp at h
  rename_i w1 T' p' hr
  simp only [Except.ok.injEq, Prod.mk.injEq] at h
  obtain ⟨-, rfl, rfl⟩ := h
  refine ⟨fun hb => ?_, fun hb => by simp only [CholExt.sqrt, hb, if_true]⟩
  have hp : p'.2 = 0 := by simpa [CholExt.isSpd] using hb
  obtain ⟨-, h2⟩ := cholRows_diag getA _ _ _ _ _ _ _ _ _ le_rfl hr hp
  unfold CholExt.sqrt
  rw [if_neg (by simp [hb]), if_neg]
  · exact ⟨_, rfl⟩
  rintro ⟨k, hk, h3⟩
  exact absurd (h2 k (Nat.zero_le _) (by simpa using hk)) (not_le.2 h3)

/-- **C31** after a `factor` call in which the entry supplier raised, `is_spd()` is `True` and `sqrt()` can raise `ValueError`:
`[[-1]]` refused, then a supplier that raises at once. -/
theorem C31_sqrt_after_exception : ∃ c : CholExt ℝ, CholReach 1 c ∧ c.isSpd = true ∧ c.sqrt = .error .valueError := by
  obtain ⟨c, hc, h1⟩ : ∃ c : CholExt ℝ, CholReach 1 c ∧ c.T 0 0 = -1 ∧ c.n = 1 := by
    have h : (CholExt.init 1 : CholExt ℝ).factor (W := Unit) (readAt 1 fun _ _ => -1) () =
        .ok ((), ⟨1, false, (0, 1), fun _ => 0, set2 (fun _ _ => 0) 0 0 (-1)⟩, false) := by
      simp [CholExt.init, CholExt.factor, cholRows, cholInner, readAt, CholExt.isSpd]
      norm_num
    exact ⟨_, .factor .init h, by simp [set2], rfl⟩
  refine ⟨_, .raised c.T hc, rfl, ?_⟩
  unfold CholExt.sqrt
  rw [if_neg (by simp [CholExt.isSpd]), if_pos ⟨0, by simp [h1.2], by simp [h1.1]⟩]
end Verif
