import Verif.Proofs.Feas
import Verif.Proofs.Dc
import Verif.Model.FloatRuns

/-! What the answer of a run says, on any search space: it was accepted by the oracle in a state reached by the run. -/
namespace Verif
variable {W V X C G α T : Type _} [LT α] [DecidableLT α]

omit [LT α] [DecidableLT α] in
theorem beside_update {S : Space V X C α} {c : C} {w w' : W × V} {st : CUTStatus} {tsq : α}
    (h : (S.beside W).update c w = .ok (w', st, tsq)) : w'.1 = w.1 := by
  unfold Space.beside at h
  dsimp only at h
  split at h
  · simp at h
  · simp only [Except.ok.injEq, Prod.mk.injEq] at h
    rw [← h.1]

theorem liftOracle_eq {A : Type _} {f : W → Except PyErr (W × A)} {w w' : W × V} {a : A} (h : liftOracle f w = .ok (w', a)) :
    f w.1 = .ok (w'.1, a) ∧ w'.2 = w.2 := by
  unfold liftOracle at h
  split at h
  · simp at h
  · rename_i w1 a1 hf
    simp only [Except.ok.injEq, Prod.mk.injEq] at h
    obtain ⟨rfl, rfl⟩ := h
    exact ⟨hf, rfl⟩

theorem feas_any {Ω : X → W → Except PyErr (W × Option C)} {S : Space V X C α} {o : Options α} {I : W → Prop}
    (hI : ∀ x w w' a, I w → Ω x w = .ok (w', a) → I w') {w₀ w : W} {v₀ v : V} {info : CInfo} (h0 : I w₀)
    (h : cuttingPlaneFeas (fun x => liftOracle (Ω x)) (S.beside W) o (w₀, v₀) = .ok ((w, v), info)) :
    I w ∧ (info.feasible = true → ∃ u, I u ∧ Ω (S.xc v) u = .ok (w, none)) := by
  obtain ⟨s, i, hf, hw, hinfo⟩ := feas_ok h
  have hround : ∀ {j s1}, Rounds (feasBody (fun x => liftOracle (Ω x)) (S.beside W) o.tol) 0 ⟨(w₀, v₀), false, .success⟩ j s1 →
      I s1.w.1 ∧ s1.feasible = false := fun {j s1} hr =>
    Rounds.inv (fun _ s1 => I s1.w.1 ∧ s1.feasible = false) ⟨h0, rfl⟩ (fun j s s' ⟨hs, hb⟩ hcont => by
      obtain ⟨w1, c, w2, tsq, h1, h2, -, rfl⟩ := feasBody_cont hcont
      have h3 := (liftOracle_eq h1).1
      refine ⟨?_, hb⟩
      rw [show ({ s with w := w2 } : FeasSt (W × V)).w.1 = w1.1 from beside_update h2]
      exact hI _ _ _ _ hs h3) hr
  rcases forRange_ok hf with ⟨s1, -, hr, hb⟩ | ⟨-, hr⟩
  · obtain ⟨hs1, hfe⟩ := hround hr
    rcases feasBody_brk hb with ⟨w1, h1, rfl⟩ | ⟨w1, c, w2, st, tsq, h1, h2, -, rfl⟩ | ⟨w1, c, w2, tsq, h1, h2, -, rfl⟩
    · obtain ⟨h3, h4⟩ := liftOracle_eq h1
      dsimp only at hw
      rw [← hw] at h3 h4
      dsimp only at h3 h4
      refine ⟨hI _ _ _ _ hs1 h3, fun _ => ⟨s1.w.1, hs1, ?_⟩⟩
      rw [h4]
      exact h3
    all_goals
      have h3 := (liftOracle_eq h1).1
      have h4 := beside_update h2
      dsimp only at hw
      rw [← hw] at h4
      refine ⟨?_, fun hc => ?_⟩
      · rw [show w = w1.1 from h4]; exact hI _ _ _ _ hs1 h3
      · rw [hinfo] at hc; dsimp only at hc; rw [hfe] at hc; exact absurd hc (by simp)
  · obtain ⟨hs1, hfe⟩ := hround hr
    rw [← hw] at hs1
    exact ⟨hs1, fun hc => by rw [hinfo] at hc; dsimp only at hc; rw [hfe] at hc; exact absurd hc (by simp)⟩

theorem dc_any [DecidableEq T] {Ω : X → T → W → Except PyErr (W × C × Option T)} {S : Space V X C α} {o : Options α} {I : W → Prop}
    {P : T → Prop} (hI : ∀ x t w w' a, I w → P t → Ω x t w = .ok (w', a) → I w')
    (hP : ∀ x t w w' c t', I w → P t → Ω x t w = .ok (w', c, some t') → P t') {t0 : T} {w₀ w : W} {v₀ v : V} {xb : Option X} {t : T} {info : CInfo}
    (h0 : I w₀) (hP0 : P t0)
    (h : cuttingPlaneDc (fun x t => liftOracle (Ω x t)) (S.beside W) t0 o (w₀, v₀) = .ok ((w, v), xb, t, info)) :
    I w ∧ P t ∧ ((xb = none ∧ t = t0) ∨ ∃ x s u u' c, xb = some x ∧ I u ∧ P s ∧ Ω x s u = .ok (u', c, some t)) := by
  obtain ⟨s, i, hf, hw, hxb, ht, hinfo⟩ := dc_ok h
  let J : DcSt (W × V) X T → Prop := fun s1 => I s1.w.1 ∧ P s1.t ∧ ((s1.xBest = none ∧ s1.t = t0) ∨
    ∃ x r u u' c, s1.xBest = some x ∧ I u ∧ P r ∧ Ω x r u = .ok (u', c, some s1.t))
  have hafter : ∀ (s1 : DcSt (W × V) X T) w1 c t1, J s1 →
      liftOracle (Ω ((S.beside W).xc s1.w) s1.t) s1.w = .ok (w1, c, t1) → J (dcAfter (S.beside W) s1 w1 t1) := by
    intro s1 w1 c t1 ⟨h1, hp, h2⟩ hq
    obtain ⟨h3, h4⟩ := liftOracle_eq hq
    have h5 := hI _ _ _ _ _ h1 hp h3
    cases t1 with
    | none => exact ⟨h5, hp, h2⟩
    | some t' =>
      refine ⟨h5, hP _ _ _ _ _ _ h1 hp h3, .inr ⟨_, s1.t, s1.w.1, w1.1, c, rfl, h1, hp, ?_⟩⟩
      rw [show (S.beside W).xc w1 = (S.beside W).xc s1.w by simp only [Space.beside, h4]]
      exact h3
  have hupd : ∀ (s1 : DcSt (W × V) X T) c w2 st tsq b, J s1 → (S.beside W).update c s1.w = .ok (w2, st, tsq) →
      J { s1 with w := w2, status := b } := fun s1 c w2 st tsq b ⟨h1, h2⟩ hu =>
    ⟨by rw [show ({ s1 with w := w2, status := b } : DcSt (W × V) X T).w.1 = s1.w.1 from beside_update hu]; exact h1, h2⟩
  have hw1 : ∀ (s1 : DcSt (W × V) X T) w1 t1, (dcAfter (S.beside W) s1 w1 t1).w = w1 := fun s1 w1 t1 => by cases t1 <;> rfl
  have hround : ∀ {j s1}, Rounds (dcBody (fun x t => liftOracle (Ω x t)) (S.beside W) o.tol) 0 ⟨(w₀, v₀), none, t0, .success⟩ j s1 →
      J s1 := fun {j s1} hr => Rounds.inv (fun _ => J) ⟨h0, hP0, .inl ⟨rfl, rfl⟩⟩ (fun j s s' hs hcont => by
      obtain ⟨w1, c, t1, w2, tsq, h1, h2, -, rfl⟩ := dcBody_cont hcont
      exact hupd _ _ _ _ _ _ (hafter _ _ _ _ hs h1) (by rw [hw1]; exact h2)) hr
  have hfin : J s := by
    rcases forRange_ok hf with ⟨s1, -, hr, hb⟩ | ⟨-, hr⟩
    · obtain ⟨w1, c, t1, w2, st, tsq, h1, h2, h3⟩ := dcBody_brk hb
      have h4 := hafter _ _ _ _ (hround hr) h1
      rcases h3 with ⟨-, rfl⟩ | ⟨-, -, rfl⟩
      · exact hupd _ _ _ _ _ _ h4 (by rw [hw1]; exact h2)
      · exact hupd _ _ _ _ _ _ h4 (by rw [hw1]; exact h2)
    · exact hround hr
  subst hxb ht
  obtain ⟨h1, h2⟩ := hfin
  rw [← hw] at h1
  exact ⟨h1, h2⟩

end Verif
