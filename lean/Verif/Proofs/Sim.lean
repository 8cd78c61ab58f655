import Verif.Model.EllHeap
import Mathlib.Tactic

/-! # Simulation between runs of the drivers -/
namespace Verif

/-- Same error, or both succeed with related results. -/
def SimRes {A B : Type _} (R : A → B → Prop) (r1 : Except PyErr A) (r2 : Except PyErr B) : Prop :=
  match r1, r2 with
  | .error e1, .error e2 => e1 = e2
  | .ok a, .ok b => R a b
  | _, _ => False

theorem SimRes.elim {A B : Type _} {R : A → B → Prop} {r1 : Except PyErr A} {r2 : Except PyErr B}
    (h : SimRes R r1 r2) : (∃ e, r1 = .error e ∧ r2 = .error e) ∨ (∃ a b, r1 = .ok a ∧ r2 = .ok b ∧ R a b) := by
  rcases r1 with e1 | a <;> rcases r2 with e2 | b
  · exact .inl ⟨e1, rfl, by rw [show e1 = e2 from h]⟩
  · exact False.elim h
  · exact False.elim h
  · exact .inr ⟨a, b, rfl, rfl, h⟩

theorem SimRes.mono {A B : Type _} {R R' : A → B → Prop} (hRR : ∀ a b, R a b → R' a b)
    {r1 : Except PyErr A} {r2 : Except PyErr B} (h : SimRes R r1 r2) : SimRes R' r1 r2 := by
  rcases h.elim with ⟨e, rfl, rfl⟩ | ⟨a, b, rfl, rfl, h⟩
  · exact rfl
  · exact hRR _ _ h

/-- Related outcomes of a loop body. -/
def SimStep {A B : Type _} (R : A → B → Prop) : Step A → Step B → Prop
  | .cont a, .cont b => R a b
  | .brk a, .brk b => R a b
  | _, _ => False

theorem forLoop_simRes {A B : Type _} {R : A → B → Prop} {b1 : ℕ → A → Except PyErr (Step A)}
    {b2 : ℕ → B → Except PyErr (Step B)}
    (hb : ∀ i s1 s2, R s1 s2 → SimRes (SimStep R) (b1 i s1) (b2 i s2)) :
    ∀ r i last s1 s2, R s1 s2 →
      SimRes (fun p q => R p.1 q.1 ∧ p.2 = q.2) (forLoop b1 r i last s1) (forLoop b2 r i last s2) := by
  intro r
  induction r with
  | zero => intro i last s1 s2 h; exact ⟨h, rfl⟩
  | succ r ih =>
    intro i last s1 s2 h
    rcases (hb i s1 s2 h).elim with ⟨e, h1, h2⟩ | ⟨a, b, h1, h2, hR⟩
    · simp only [forLoop, h1, h2]; exact rfl
    · rcases a with a | a <;> rcases b with b | b <;> simp only [forLoop, h1, h2]
      · exact ih _ _ _ _ hR
      · exact False.elim hR
      · exact False.elim hR
      · exact ⟨hR, rfl⟩

section
variable {W1 W2 X1 X2 C α T : Type _} [LT α] [DecidableLT α]

/-- Two `cutting_plane_feas` runs over related worlds. -/
theorem feas_sim {R : W1 → W2 → Prop} {S1 : Space W1 X1 C α} {S2 : Space W2 X2 C α}
    {Ω1 : X1 → W1 → Except PyErr (W1 × Option C)} {Ω2 : X2 → W2 → Except PyErr (W2 × Option C)}
    (hΩ : ∀ w1 w2, R w1 w2 → SimRes (fun p q => R p.1 q.1 ∧ p.2 = q.2) (Ω1 (S1.xc w1) w1) (Ω2 (S2.xc w2) w2))
    (hS : ∀ c w1 w2, R w1 w2 → SimRes (fun p q => R p.1 q.1 ∧ p.2 = q.2) (S1.update c w1) (S2.update c w2))
    (o : Options α) {w1 : W1} {w2 : W2} (h : R w1 w2) :
    SimRes (fun p q => R p.1 q.1 ∧ p.2 = q.2) (cuttingPlaneFeas Ω1 S1 o w1) (cuttingPlaneFeas Ω2 S2 o w2) := by
  let R' : FeasSt W1 → FeasSt W2 → Prop := fun s1 s2 =>
    R s1.w s2.w ∧ s1.feasible = s2.feasible ∧ s1.status = s2.status
  have hb : ∀ i s1 s2, R' s1 s2 → SimRes (SimStep R') (feasBody Ω1 S1 o.tol i s1) (feasBody Ω2 S2 o.tol i s2) := by
    rintro i ⟨u1, f1, st1⟩ ⟨u2, f2, st2⟩ ⟨hw, hf, hs⟩
    simp only at hw hf hs
    subst hf hs
    rcases (hΩ u1 u2 hw).elim with ⟨e, h1, h2⟩ | ⟨⟨a1, a2⟩, ⟨b1, b2⟩, h1, h2, hR, ha⟩
    · simp only [feasBody, h1, h2]; exact rfl
    · simp only at ha hR
      subst ha
      rcases a2 with _ | c
      · simp only [feasBody, h1, h2]; exact ⟨hR, rfl, rfl⟩
      · rcases (hS c a1 b1 hR).elim with ⟨e, h3, h4⟩ | ⟨⟨v1, st, t⟩, ⟨v2, st', t'⟩, h3, h4, hR', ha⟩
        · simp only [feasBody, h1, h2, h3, h4]; exact rfl
        · simp only [Prod.mk.injEq] at ha hR'
          obtain ⟨rfl, rfl⟩ := ha
          simp only [feasBody, h1, h2, h3, h4]
          by_cases c1 : st ≠ .success
          · rw [if_pos c1, if_pos c1]; exact ⟨hR', rfl, rfl⟩
          · rw [if_neg c1, if_neg c1]
            by_cases c2 : t < o.tol
            · rw [if_pos c2, if_pos c2]; exact ⟨hR', rfl, rfl⟩
            · rw [if_neg c2, if_neg c2]; exact ⟨hR', rfl, rfl⟩
  have := forLoop_simRes hb o.maxIt.toNat 0 none ⟨w1, false, .success⟩ ⟨w2, false, .success⟩ ⟨h, rfl, rfl⟩
  rcases this.elim with ⟨e, h1, h2⟩ | ⟨⟨a1, a2⟩, ⟨b1, b2⟩, h1, h2, ⟨hR, hf, hs⟩, ha⟩
  · simp only [cuttingPlaneFeas, forRange, h1, h2]; exact rfl
  · simp only at ha
    subst ha
    have hf : a1.feasible = b1.feasible := hf
    have hs : a1.status = b1.status := hs
    simp only [cuttingPlaneFeas, forRange, h1, h2]
    cases readVar a2 with
    | error e => exact rfl
    | ok i => exact ⟨hR, by simp [hf, hs]⟩

/-- Two `cutting_plane_dc` runs over related worlds; `RX w1 w2 x1 x2` relates the best points. -/
theorem dc_sim [DecidableEq T] {R : W1 → W2 → Prop} {RX : X1 → X2 → Prop}
    {S1 : Space W1 X1 C α} {S2 : Space W2 X2 C α}
    {Ω1 : X1 → T → W1 → Except PyErr (W1 × C × Option T)} {Ω2 : X2 → T → W2 → Except PyErr (W2 × C × Option T)}
    (hΩ : ∀ t w1 w2, R w1 w2 →
      SimRes (fun p q => R p.1 q.1 ∧ p.2 = q.2) (Ω1 (S1.xc w1) t w1) (Ω2 (S2.xc w2) t w2))
    (hS : ∀ c w1 w2, R w1 w2 → SimRes (fun p q => R p.1 q.1 ∧ p.2 = q.2) (S1.update c w1) (S2.update c w2))
    (hX : ∀ w1 w2, R w1 w2 → RX (S1.xc w1) (S2.xc w2))
    (t0 : T) (o : Options α) {w1 : W1} {w2 : W2} (h : R w1 w2) :
    SimRes (fun p q => R p.1 q.1 ∧ Option.Rel RX p.2.1 q.2.1 ∧ p.2.2 = q.2.2)
      (cuttingPlaneDc Ω1 S1 t0 o w1) (cuttingPlaneDc Ω2 S2 t0 o w2) := by
  let R' : DcSt W1 X1 T → DcSt W2 X2 T → Prop := fun s1 s2 =>
    R s1.w s2.w ∧ Option.Rel RX s1.xBest s2.xBest ∧ s1.t = s2.t ∧ s1.status = s2.status
  have hb : ∀ i s1 s2, R' s1 s2 → SimRes (SimStep R') (dcBody Ω1 S1 o.tol i s1) (dcBody Ω2 S2 o.tol i s2) := by
    rintro i ⟨u1, x1, t1, st1⟩ ⟨u2, x2, t2, st2⟩ ⟨hw, hx, ht, hs⟩
    simp only at hw hx ht hs
    subst ht hs
    rcases (hΩ t1 u1 u2 hw).elim with ⟨e, h1, h2⟩ | ⟨⟨a1, c, tq⟩, ⟨b1, c', tq'⟩, h1, h2, hR, ha⟩
    · simp only [dcBody, h1, h2]; exact rfl
    · simp only [Prod.mk.injEq] at ha hR
      obtain ⟨rfl, rfl⟩ := ha
      rcases (hS c a1 b1 hR).elim with ⟨e, h3, h4⟩ | ⟨⟨v1, st, t⟩, ⟨v2, st', t'⟩, h3, h4, hR', ha⟩
      · simp only [dcBody, h1, h2, h3, h4]; exact rfl
      · simp only [Prod.mk.injEq] at ha hR'
        obtain ⟨rfl, rfl⟩ := ha
        simp only [dcBody, h1, h2, h3, h4]
        have hx' : Option.Rel RX (some (S1.xc a1)) (some (S2.xc b1)) := .some (hX _ _ hR)
        by_cases c1 : st ≠ .success
        · rw [if_pos c1, if_pos c1]
          rcases tq with _ | tq
          · exact ⟨hR', hx, rfl, rfl⟩
          · exact ⟨hR', hx', rfl, rfl⟩
        · rw [if_neg c1, if_neg c1]
          by_cases c2 : t < o.tol
          · rw [if_pos c2, if_pos c2]
            rcases tq with _ | tq
            · exact ⟨hR', hx, rfl, rfl⟩
            · exact ⟨hR', hx', rfl, rfl⟩
          · rw [if_neg c2, if_neg c2]
            rcases tq with _ | tq
            · exact ⟨hR', hx, rfl, rfl⟩
            · exact ⟨hR', hx', rfl, rfl⟩
  have := forLoop_simRes hb o.maxIt.toNat 0 none ⟨w1, none, t0, .success⟩ ⟨w2, none, t0, .success⟩
    ⟨h, .none, rfl, rfl⟩
  rcases this.elim with ⟨e, h1, h2⟩ | ⟨⟨a1, a2⟩, ⟨b1, b2⟩, h1, h2, ⟨hR, hx, ht, hs⟩, ha⟩
  · simp only [cuttingPlaneDc, forRange, h1, h2]; exact rfl
  · simp only at ha
    subst ha
    have ht : a1.t = b1.t := ht
    have hs : a1.status = b1.status := hs
    simp only [cuttingPlaneDc, forRange, h1, h2]
    cases readVar a2 with
    | error e => exact rfl
    | ok i => exact ⟨hR, hx, by simp [ht, hs]⟩

end
end Verif
