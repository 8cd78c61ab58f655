import Verif.Model.Py
import Mathlib.Tactic

/-! Reasoning principles for `forLoop`. -/
namespace Verif

/-- `j - i` rounds that all fell through. -/
inductive Rounds {σ : Type _} (body : Nat → σ → Except PyErr (Step σ)) (i : Nat) (s : σ) :
    Nat → σ → Prop
  | refl : Rounds body i s i s
  | snoc {j s' s''} : Rounds body i s j s' → body j s' = .ok (.cont s'') →
      Rounds body i s (j + 1) s''

theorem Rounds.le {σ : Type _} {body : Nat → σ → Except PyErr (Step σ)} {i j s s'}
    (h : Rounds body i s j s') : i ≤ j := by
  induction h with
  | refl => exact le_rfl
  | snoc _ _ ih => omega

theorem Rounds.cons {σ : Type _} {body : Nat → σ → Except PyErr (Step σ)} {i j s s1 s'}
    (hb : body i s = .ok (.cont s1)) (h : Rounds body (i + 1) s1 j s') : Rounds body i s j s' := by
  induction h with
  | refl => exact .snoc .refl hb
  | snoc _ hb' ih => exact .snoc ih hb'

/-- The three ways a `for` loop can end normally. -/
theorem forLoop_ok {σ : Type _} {body : Nat → σ → Except PyErr (Step σ)} :
    ∀ {r i last s s' l}, forLoop body r i last s = .ok (s', l) →
      (∃ j s1, i ≤ j ∧ j < i + r ∧ Rounds body i s j s1 ∧ body j s1 = .ok (.brk s') ∧ l = some j) ∨
      (Rounds body i s (i + r) s' ∧ l = if r = 0 then last else some (i + r - 1)) := by
  intro r
  induction r with
  | zero =>
    intro i last s s' l h
    simp only [forLoop, Except.ok.injEq, Prod.mk.injEq] at h
    obtain ⟨rfl, rfl⟩ := h
    exact .inr ⟨.refl, by simp⟩
  | succ r ih =>
    intro i last s s' l h
    rw [forLoop] at h
    split at h
    · exact absurd h (by simp)
    · rename_i s1 hb
      simp only [Except.ok.injEq, Prod.mk.injEq] at h
      obtain ⟨rfl, rfl⟩ := h
      exact .inl ⟨i, s, le_rfl, by omega, .refl, hb, rfl⟩
    · rename_i s1 hb
      rcases ih h with ⟨j, s2, hij, hj, hr, hb', hl⟩ | ⟨hr, hl⟩
      · exact .inl ⟨j, s2, by omega, by omega, hr.cons hb, hb', hl⟩
      · refine .inr ⟨?_, ?_⟩
        · have := hr.cons hb
          rwa [show i + 1 + r = i + (r + 1) by omega] at this
        · rw [hl]
          by_cases h0 : r = 0
          · simp [h0]
          · simp [h0]

theorem forRange_ok {σ : Type _} {body : Nat → σ → Except PyErr (Step σ)} {m : Int} {s s' i}
    (h : forRange m body s = .ok (s', some i)) :
    (∃ s1, (i : Int) < m ∧ Rounds body 0 s i s1 ∧ body i s1 = .ok (.brk s')) ∨
      (((i + 1 : Nat) : Int) = m ∧ Rounds body 0 s (i + 1) s') := by
  rcases forLoop_ok h with ⟨j, s1, -, hj, hr, hb, hl⟩ | ⟨hr, hl⟩
  · obtain rfl : i = j := by simpa using hl
    exact .inl ⟨s1, by omega, hr, hb⟩
  · split at hl
    · exact absurd hl (by simp)
    · obtain rfl : i = 0 + m.toNat - 1 := by simpa using hl
      refine .inr ⟨by omega, ?_⟩
      rwa [show 0 + m.toNat - 1 + 1 = 0 + m.toNat by omega]

/-- Results related by `R`: the same exception, or related values. -/
def RelE {A B : Type _} (R : A → B → Prop) : Except PyErr A → Except PyErr B → Prop
  | .error e, .error e' => e = e'
  | .ok a, .ok b => R a b
  | _, _ => False

/-- Related steps. -/
def RelStep {A B : Type _} (R : A → B → Prop) : Step A → Step B → Prop
  | .cont a, .cont b => R a b
  | .brk a, .brk b => R a b
  | _, _ => False

theorem forLoop_sim {σ τ : Type _} {b1 : Nat → σ → Except PyErr (Step σ)}
    {b2 : Nat → τ → Except PyErr (Step τ)} (R : σ → τ → Prop)
    (hb : ∀ i s t, R s t → RelE (RelStep R) (b1 i s) (b2 i t)) :
    ∀ r i last s t, R s t →
      RelE (fun a b => R a.1 b.1 ∧ a.2 = b.2) (forLoop b1 r i last s) (forLoop b2 r i last t) := by
  intro r
  induction r with
  | zero => intro i last s t h; exact ⟨h, rfl⟩
  | succ r ih =>
    intro i last s t h
    have := hb i s t h
    simp only [forLoop]
    cases h1 : b1 i s with
    | error e =>
      cases h2 : b2 i t with
      | error e' => rw [h1, h2] at this; exact this
      | ok b => rw [h1, h2] at this; exact this.elim
    | ok a =>
      cases h2 : b2 i t with
      | error e' => rw [h1, h2] at this; exact this.elim
      | ok b =>
        rw [h1, h2] at this
        cases a with
        | cont a =>
          cases b with
          | cont b => exact ih _ _ _ _ this
          | brk b => exact this.elim
        | brk a =>
          cases b with
          | cont b => exact this.elim
          | brk b => exact ⟨this, rfl⟩

/-- If no body call raises on states satisfying an invariant, the loop does not raise. -/
theorem forLoop_total {σ : Type _} {body : Nat → σ → Except PyErr (Step σ)} (I : σ → Prop)
    (hb : ∀ i s, I s → ∃ st, body i s = .ok st ∧ ∀ s', st = .cont s' → I s') :
    ∀ r i last s, I s → ∃ res, forLoop body r i last s = .ok res := by
  intro r
  induction r with
  | zero => intro i last s _; exact ⟨_, rfl⟩
  | succ r ih =>
    intro i last s hs
    obtain ⟨st, hst, hI⟩ := hb i s hs
    cases st with
    | cont s' => simp only [forLoop, hst]; exact ih _ _ _ (hI _ rfl)
    | brk s' => simp only [forLoop, hst]; exact ⟨_, rfl⟩

theorem forLoop_last_some {σ : Type _} {body : Nat → σ → Except PyErr (Step σ)} {r i last s s' l}
    (hr : r ≠ 0) (h : forLoop body r i last s = .ok (s', l)) : ∃ j, l = some j := by
  rcases forLoop_ok h with ⟨j, _, _, _, _, _, hl⟩ | ⟨_, hl⟩
  · exact ⟨j, hl⟩
  · rw [if_neg hr] at hl; exact ⟨_, hl⟩

/-- Invariant rule: an invariant indexed by the number of rounds. -/
theorem Rounds.inv {σ : Type _} {body : Nat → σ → Except PyErr (Step σ)} {s0 : σ}
    (I : Nat → σ → Prop) (h0 : I 0 s0)
    (hs : ∀ j s s', I j s → body j s = .ok (.cont s') → I (j + 1) s') :
    ∀ {j s}, Rounds body 0 s0 j s → I j s := by
  intro j s h
  induction h with
  | refl => exact h0
  | snoc _ hb ih => exact hs _ _ _ ih hb

end Verif
