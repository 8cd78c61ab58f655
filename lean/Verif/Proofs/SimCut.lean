import Verif.Proofs.Sim

/-! # Simulation between runs of the drivers whose cuts differ by a relation -/
namespace Verif
section
variable {W1 W2 X1 X2 C1 C2 α T : Type _} [LT α] [DecidableLT α]

/-- Two `cutting_plane_feas` runs over related worlds and related cuts. -/
theorem feas_simC {R : W1 → W2 → Prop} {RC : C1 → C2 → Prop} {S1 : Space W1 X1 C1 α} {S2 : Space W2 X2 C2 α}
    {Ω1 : X1 → W1 → Except PyErr (W1 × Option C1)} {Ω2 : X2 → W2 → Except PyErr (W2 × Option C2)}
    (hΩ : ∀ w1 w2, R w1 w2 → SimRes (fun p q => R p.1 q.1 ∧ Option.Rel RC p.2 q.2) (Ω1 (S1.xc w1) w1) (Ω2 (S2.xc w2) w2))
    (hS : ∀ c1 c2 w1 w2, RC c1 c2 → R w1 w2 → SimRes (fun p q => R p.1 q.1 ∧ p.2 = q.2) (S1.update c1 w1) (S2.update c2 w2))
    (o : Options α) {w1 : W1} {w2 : W2} (h : R w1 w2) :
    SimRes (fun p q => R p.1 q.1 ∧ p.2 = q.2) (cuttingPlaneFeas Ω1 S1 o w1) (cuttingPlaneFeas Ω2 S2 o w2) := by
  let R' : FeasSt W1 → FeasSt W2 → Prop := fun s1 s2 =>
    R s1.w s2.w ∧ s1.feasible = s2.feasible ∧ s1.status = s2.status
  have hb : ∀ i s1 s2, R' s1 s2 → SimRes (SimStep R') (feasBody Ω1 S1 o.tol i s1) (feasBody Ω2 S2 o.tol i s2) := by
    rintro i ⟨u1, f1, st1⟩ ⟨u2, f2, st2⟩ ⟨hw, hf, hs⟩
    simp only at hw hf hs
    subst hf hs
    rcases (hΩ u1 u2 hw).elim with ⟨e, h1, h2⟩ | ⟨⟨a1, a2⟩, ⟨b1, b2⟩, h1, h2, hR, ha⟩
    · simp only [feasBody, h1, h2]; exact rfl
    · simp only at ha hR
      cases ha with
      | none => simp only [feasBody, h1, h2]; exact ⟨hR, rfl, rfl⟩
      | @some c c' hc =>
        rcases (hS c c' a1 b1 hc hR).elim with ⟨e, h3, h4⟩ | ⟨⟨v1, st, t⟩, ⟨v2, st', t'⟩, h3, h4, hR', ha⟩
        · simp only [feasBody, h1, h2, h3, h4]; exact rfl
        · simp only [Prod.mk.injEq] at ha hR'
          obtain ⟨rfl, rfl⟩ := ha
          simp only [feasBody, h1, h2, h3, h4]
          by_cases c1 : st ≠ .success
          · rw [if_pos c1, if_pos c1]; exact ⟨hR', rfl, rfl⟩
          · rw [if_neg c1, if_neg c1]
            by_cases c2 : t < o.tol
            · rw [if_pos c2, if_pos c2]; exact ⟨hR', rfl, rfl⟩
            · rw [if_neg c2, if_neg c2]; exact ⟨hR', rfl, rfl⟩
  have := forLoop_simRes hb o.maxIt.toNat 0 none ⟨w1, false, .success⟩ ⟨w2, false, .success⟩ ⟨h, rfl, rfl⟩
  rcases this.elim with ⟨e, h1, h2⟩ | ⟨⟨a1, a2⟩, ⟨b1, b2⟩, h1, h2, ⟨hR, hf, hs⟩, ha⟩
  · simp only [cuttingPlaneFeas, forRange, h1, h2]; exact rfl
  · simp only at ha
    subst ha
    have hf : a1.feasible = b1.feasible := hf
    have hs : a1.status = b1.status := hs
    simp only [cuttingPlaneFeas, forRange, h1, h2]
    cases readVar a2 with
    | error e => exact rfl
    | ok i => exact ⟨hR, by simp [hf, hs]⟩

/-- Two `cutting_plane_dc` runs over related worlds and related cuts; `RX` relates the best points. -/
theorem dc_simC [DecidableEq T] {R : W1 → W2 → Prop} {RX : X1 → X2 → Prop} {RC : C1 → C2 → Prop}
    {S1 : Space W1 X1 C1 α} {S2 : Space W2 X2 C2 α}
    {Ω1 : X1 → T → W1 → Except PyErr (W1 × C1 × Option T)} {Ω2 : X2 → T → W2 → Except PyErr (W2 × C2 × Option T)}
    (hΩ : ∀ t w1 w2, R w1 w2 →
      SimRes (fun p q => R p.1 q.1 ∧ RC p.2.1 q.2.1 ∧ p.2.2 = q.2.2) (Ω1 (S1.xc w1) t w1) (Ω2 (S2.xc w2) t w2))
    (hS : ∀ c1 c2 w1 w2, RC c1 c2 → R w1 w2 → SimRes (fun p q => R p.1 q.1 ∧ p.2 = q.2) (S1.update c1 w1) (S2.update c2 w2))
    (hX : ∀ w1 w2, R w1 w2 → RX (S1.xc w1) (S2.xc w2))
    (t0 : T) (o : Options α) {w1 : W1} {w2 : W2} (h : R w1 w2) :
    SimRes (fun p q => R p.1 q.1 ∧ Option.Rel RX p.2.1 q.2.1 ∧ p.2.2 = q.2.2)
      (cuttingPlaneDc Ω1 S1 t0 o w1) (cuttingPlaneDc Ω2 S2 t0 o w2) := by
  let R' : DcSt W1 X1 T → DcSt W2 X2 T → Prop := fun s1 s2 =>
    R s1.w s2.w ∧ Option.Rel RX s1.xBest s2.xBest ∧ s1.t = s2.t ∧ s1.status = s2.status
  have hb : ∀ i s1 s2, R' s1 s2 → SimRes (SimStep R') (dcBody Ω1 S1 o.tol i s1) (dcBody Ω2 S2 o.tol i s2) := by
    rintro i ⟨u1, x1, t1, st1⟩ ⟨u2, x2, t2, st2⟩ ⟨hw, hx, ht, hs⟩
    simp only at hw hx ht hs
    subst ht hs
    rcases (hΩ t1 u1 u2 hw).elim with ⟨e, h1, h2⟩ | ⟨⟨a1, c, tq⟩, ⟨b1, c', tq'⟩, h1, h2, hR, hc, ha⟩
    · simp only [dcBody, h1, h2]; exact rfl
    · simp only at ha hR hc
      subst ha
      rcases (hS c c' a1 b1 hc hR).elim with ⟨e, h3, h4⟩ | ⟨⟨v1, st, t⟩, ⟨v2, st', t'⟩, h3, h4, hR', ha⟩
      · simp only [dcBody, h1, h2, h3, h4]; exact rfl
      · simp only [Prod.mk.injEq] at ha hR'
        obtain ⟨rfl, rfl⟩ := ha
        simp only [dcBody, h1, h2, h3, h4]
        have hx' : Option.Rel RX (some (S1.xc a1)) (some (S2.xc b1)) := .some (hX _ _ hR)
        by_cases c1 : st ≠ .success
        · rw [if_pos c1, if_pos c1]
          rcases tq with _ | tq
          · exact ⟨hR', hx, rfl, rfl⟩
          · exact ⟨hR', hx', rfl, rfl⟩
        · rw [if_neg c1, if_neg c1]
          by_cases c2 : t < o.tol
          · rw [if_pos c2, if_pos c2]
            rcases tq with _ | tq
            · exact ⟨hR', hx, rfl, rfl⟩
            · exact ⟨hR', hx', rfl, rfl⟩
          · rw [if_neg c2, if_neg c2]
            rcases tq with _ | tq
            · exact ⟨hR', hx, rfl, rfl⟩
            · exact ⟨hR', hx', rfl, rfl⟩
  have := forLoop_simRes hb o.maxIt.toNat 0 none ⟨w1, none, t0, .success⟩ ⟨w2, none, t0, .success⟩
    ⟨h, .none, rfl, rfl⟩
  rcases this.elim with ⟨e, h1, h2⟩ | ⟨⟨a1, a2⟩, ⟨b1, b2⟩, h1, h2, ⟨hR, hx, ht, hs⟩, ha⟩
  · simp only [cuttingPlaneDc, forRange, h1, h2]; exact rfl
  · simp only at ha
    subst ha
    have ht : a1.t = b1.t := ht
    have hs : a1.status = b1.status := hs
    simp only [cuttingPlaneDc, forRange, h1, h2]
    cases readVar a2 with
    | error e => exact rfl
    | ok i => exact ⟨hR, hx, by simp [ht, hs]⟩

/-- Two `cutting_plane_q` runs over related worlds and related cuts; `RY` relates the best points kept. -/
theorem q_simC [DecidableEq T] {Z1 Z2 Y1 Y2 : Type _} {R : W1 → W2 → Prop} {RZ : Z1 → Z2 → Prop} {RY : Y1 → Y2 → Prop}
    {RC : C1 → C2 → Prop} {copy1 : Z1 → W1 → Y1} {copy2 : Z2 → W2 → Y2} {S1 : Space W1 X1 C1 α} {S2 : Space W2 X2 C2 α}
    {Ω1 : X1 → T → Bool → W1 → Except PyErr (W1 × C1 × Z1 × Option T × Bool)}
    {Ω2 : X2 → T → Bool → W2 → Except PyErr (W2 × C2 × Z2 × Option T × Bool)}
    (hΩ : ∀ t r w1 w2, R w1 w2 → SimRes (fun p q => R p.1 q.1 ∧ RC p.2.1 q.2.1 ∧ RZ p.2.2.1 q.2.2.1 ∧ p.2.2.2 = q.2.2.2)
      (Ω1 (S1.xc w1) t r w1) (Ω2 (S2.xc w2) t r w2))
    (hS : ∀ c1 c2 w1 w2, RC c1 c2 → R w1 w2 → SimRes (fun p q => R p.1 q.1 ∧ p.2 = q.2) (S1.update c1 w1) (S2.update c2 w2))
    (hY : ∀ z1 z2 w1 w2, RZ z1 z2 → R w1 w2 → RY (copy1 z1 w1) (copy2 z2 w2))
    (t0 : T) (o : Options α) {w1 : W1} {w2 : W2} (h : R w1 w2) :
    SimRes (fun p q => R p.1 q.1 ∧ Option.Rel RY p.2.1 q.2.1 ∧ p.2.2 = q.2.2)
      (cuttingPlaneQ Ω1 copy1 S1 t0 o w1) (cuttingPlaneQ Ω2 copy2 S2 t0 o w2) := by
  let R' : QSt W1 Y1 T → QSt W2 Y2 T → Prop := fun s1 s2 =>
    R s1.w s2.w ∧ Option.Rel RY s1.xBest s2.xBest ∧ s1.t = s2.t ∧ s1.status = s2.status
  have hb : ∀ i s1 s2, R' s1 s2 → SimRes (SimStep R') (qBody Ω1 copy1 S1 o.tol i s1) (qBody Ω2 copy2 S2 o.tol i s2) := by
    rintro i ⟨u1, x1, t1, st1⟩ ⟨u2, x2, t2, st2⟩ ⟨hw, hx, ht, hs⟩
    simp only at hw hx ht hs
    subst ht hs
    rcases (hΩ t1 (decide (st1 = .noeffect)) u1 u2 hw).elim with
      ⟨e, h1, h2⟩ | ⟨⟨a1, c, z, tq, mo⟩, ⟨b1, c', z', tq', mo'⟩, h1, h2, hR, hc, hz, ha⟩
    · simp only [qBody, h1, h2]; exact rfl
    · simp only [Prod.mk.injEq] at ha hR hc hz
      obtain ⟨rfl, rfl⟩ := ha
      rcases (hS c c' a1 b1 hc hR).elim with ⟨e, h3, h4⟩ | ⟨⟨v1, st, t⟩, ⟨v2, st', t'⟩, h3, h4, hR', ha⟩
      · simp only [qBody, h1, h2, h3, h4]; exact rfl
      · simp only [Prod.mk.injEq] at ha hR'
        obtain ⟨rfl, rfl⟩ := ha
        simp only [qBody, h1, h2, h3, h4]
        have hx' : Option.Rel RY (some (copy1 z a1)) (some (copy2 z' b1)) := .some (hY _ _ _ _ hz hR)
        split_ifs <;> rcases tq with _ | tq <;>
          first
          | exact ⟨hR', hx, rfl, rfl⟩
          | exact ⟨hR', hx', rfl, rfl⟩
  have := forLoop_simRes hb o.maxIt.toNat 0 none ⟨w1, none, t0, .nosoln⟩ ⟨w2, none, t0, .nosoln⟩
    ⟨h, .none, rfl, rfl⟩
  rcases this.elim with ⟨e, h1, h2⟩ | ⟨⟨a1, a2⟩, ⟨b1, b2⟩, h1, h2, ⟨hR, hx, ht, hs⟩, ha⟩
  · simp only [cuttingPlaneQ, forRange, h1, h2]; exact rfl
  · simp only at ha
    subst ha
    have ht : a1.t = b1.t := ht
    have hs : a1.status = b1.status := hs
    simp only [cuttingPlaneQ, forRange, h1, h2]
    cases readVar a2 with
    | error e => exact rfl
    | ok i => exact ⟨hR, hx, by simp [ht, hs]⟩

end
end Verif
