import Verif.Spec.FeasSpec
import Verif.Proofs.ForLoop

namespace Verif
variable {W X C α : Type _} [LT α] [DecidableLT α]

theorem feasBody_cont {Ω : X → W → Except PyErr (W × Option C)} {S : Space W X C α} {tol : α} {i s s'}
    (h : feasBody Ω S tol i s = .ok (.cont s')) :
    ∃ w1 c w2 tsq, Ω (S.xc s.w) s.w = .ok (w1, some c) ∧ S.update c w1 = .ok (w2, .success, tsq) ∧
      ¬ tsq < tol ∧ s' = { s with w := w2 } := by
  unfold feasBody at h
  split at h
  · simp at h
  · simp at h
  · rename_i w1 c hq
    split at h
    · simp at h
    · rename_i w2 st tsq hu
      split_ifs at h with h1 h2
      · simp at h
      · simp at h
      · simp only [Except.ok.injEq, Step.cont.injEq] at h
        have : st = .success := by simpa using h1
        subst this
        exact ⟨w1, c, w2, tsq, hq, hu, h2, h.symm⟩

theorem feasBody_brk {Ω : X → W → Except PyErr (W × Option C)} {S : Space W X C α} {tol : α} {i s s'}
    (h : feasBody Ω S tol i s = .ok (.brk s')) :
    (∃ w1, Ω (S.xc s.w) s.w = .ok (w1, none) ∧ s' = { s with w := w1, feasible := true }) ∨
    (∃ w1 c w2 st tsq, Ω (S.xc s.w) s.w = .ok (w1, some c) ∧ S.update c w1 = .ok (w2, st, tsq) ∧
      st ≠ .success ∧ s' = { s with w := w2, status := st }) ∨
    (∃ w1 c w2 tsq, Ω (S.xc s.w) s.w = .ok (w1, some c) ∧ S.update c w1 = .ok (w2, .success, tsq) ∧
      tsq < tol ∧ s' = { s with w := w2, status := .smallenough }) := by
  unfold feasBody at h
  split at h
  · simp at h
  · rename_i w1 hq
    simp only [Except.ok.injEq, Step.brk.injEq] at h
    exact .inl ⟨w1, hq, h.symm⟩
  · rename_i w1 c hq
    split at h
    · simp at h
    · rename_i w2 st tsq hu
      split_ifs at h with h1 h2
      · simp only [Except.ok.injEq, Step.brk.injEq] at h
        exact .inr (.inl ⟨w1, c, w2, st, tsq, hq, hu, h1, h.symm⟩)
      · simp only [Except.ok.injEq, Step.brk.injEq] at h
        have : st = .success := by simpa using h1
        subst this
        exact .inr (.inr ⟨w1, c, w2, tsq, hq, hu, h2, h.symm⟩)
      · simp at h

/-- Unfolding of a successful `cuttingPlaneFeas`. -/
theorem feas_ok {Ω : X → W → Except PyErr (W × Option C)} {S : Space W X C α} {o : Options α} {w w' info}
    (h : cuttingPlaneFeas Ω S o w = .ok (w', info)) :
    ∃ s i, forRange o.maxIt (feasBody Ω S o.tol) ⟨w, false, .success⟩ = .ok (s, some i) ∧
      w' = s.w ∧ info = ⟨s.feasible, i + 1, s.status⟩ := by
  unfold cuttingPlaneFeas at h
  split at h
  · simp at h
  · rename_i s last hf
    cases last with
    | none => simp [readVar] at h
    | some i =>
      simp only [readVar, Except.ok.injEq, Prod.mk.injEq] at h
      exact ⟨s, i, hf, h.1.symm, h.2.symm⟩

omit [LT α] [DecidableLT α] in
theorem logCall_ok {Q A : Type _} {f : W → Except PyErr (W × A)} {q : Q}
    {wl wl' : W × List (Event W Q A C α)} {a : A}
    (h : logCall f q wl = .ok (wl', a)) :
    ∃ w', f wl.1 = .ok (w', a) ∧ wl' = (w', wl.2 ++ [.query wl.1 q a w']) := by
  unfold logCall at h
  split at h
  · simp at h
  · rename_i w' a' hf
    simp only [Except.ok.injEq, Prod.mk.injEq] at h
    obtain ⟨h1, rfl⟩ := h
    exact ⟨w', hf, h1.symm⟩

omit [LT α] [DecidableLT α] in
theorem logSpace_xc {Q A : Type _} (S : Space W X C α) (wl : W × List (Event W Q A C α)) :
    (logSpace Q A S).xc wl = S.xc wl.1 := rfl

omit [LT α] [DecidableLT α] in
theorem logSpace_update_ok {Q A : Type _} {S : Space W X C α} {c : C}
    {wl wl' : W × List (Event W Q A C α)} {st tsq}
    (h : (logSpace Q A S).update c wl = .ok (wl', st, tsq)) :
    ∃ w', S.update c wl.1 = .ok (w', st, tsq) ∧ wl' = (w', wl.2 ++ [.update wl.1 c st tsq w']) := by
  unfold logSpace at h
  dsimp only at h
  split at h
  · simp at h
  · rename_i w' st' tsq' hf
    simp only [Except.ok.injEq, Prod.mk.injEq] at h
    obtain ⟨h1, rfl, rfl⟩ := h
    exact ⟨w', hf, h1.symm⟩

/-- Master theorem: every run of `cutting_plane_feas` is one of the four outcomes. -/
theorem feas_outcome {Ω : X → W → Except PyErr (W × Option C)} {S : Space W X C α} {o : Options α}
    {w w' log info}
    (h : cuttingPlaneFeas (logFeas Ω) (logSpace X (Option C) S) o (w, []) = .ok ((w', log), info)) :
    FeasOutcome Ω S o.tol o.maxIt w log w' info := by
  obtain ⟨s, i, hf, hw, rfl⟩ := feas_ok h
  have key : ∀ {j s1}, Rounds (feasBody (logFeas Ω) (logSpace X (Option C) S) o.tol) 0
      ⟨(w, []), false, .success⟩ j s1 →
      PassingRounds Ω S o.tol w j s1.w.2 s1.w.1 ∧ s1.feasible = false ∧ s1.status = .success := by
    intro j s1 hr
    refine Rounds.inv (fun j s1 => PassingRounds Ω S o.tol w j s1.w.2 s1.w.1 ∧ s1.feasible = false ∧
      s1.status = .success) ⟨.nil, rfl, rfl⟩ ?_ hr
    rintro j s s' ⟨hp, hfe, hst⟩ hb
    obtain ⟨w1, c, w2, tsq, hq, hu, ht, rfl⟩ := feasBody_cont hb
    obtain ⟨w1', hq', rfl⟩ := logCall_ok hq
    obtain ⟨w2', hu', rfl⟩ := logSpace_update_ok hu
    refine ⟨?_, hfe, hst⟩
    simp only [List.append_assoc]
    exact .snoc hp hq' hu' ht
  have hw1 : w' = s.w.1 := by rw [← hw]
  have hlog : log = s.w.2 := by rw [← hw]
  subst hw1 hlog
  rcases forRange_ok hf with ⟨s1, hi, hr, hb⟩ | ⟨hi, hr⟩
  · obtain ⟨hp, hfe, hst⟩ := key hr
    rcases feasBody_brk hb with ⟨w1, hq, rfl⟩ | ⟨w1, c, w2, st, tsq, hq, hu, hne, rfl⟩ |
      ⟨w1, c, w2, tsq, hq, hu, ht, rfl⟩
    · obtain ⟨w1', hq', rfl⟩ := logCall_ok hq
      simp only [hst]
      exact .accepted hp hi hq'
    · obtain ⟨w1', hq', rfl⟩ := logCall_ok hq
      obtain ⟨w2', hu', rfl⟩ := logSpace_update_ok hu
      simp only [hfe, List.append_assoc]
      exact .stopped hp hi hq' hu' hne
    · obtain ⟨w1', hq', rfl⟩ := logCall_ok hq
      obtain ⟨w2', hu', rfl⟩ := logSpace_update_ok hu
      simp only [hfe, List.append_assoc]
      exact .small hp hi hq' hu' ht
  · obtain ⟨hp, hfe, hst⟩ := key hr
    simp only [hfe, hst]
    exact .exhausted hp hi (by omega)

/-- Recording does not change the run. -/
theorem feas_log_transparent (Ω : X → W → Except PyErr (W × Option C)) (S : Space W X C α)
    (o : Options α) (w : W) :
    RelE (fun a b => a.1.1 = b.1 ∧ a.2 = b.2)
      (cuttingPlaneFeas (logFeas Ω) (logSpace X (Option C) S) o (w, []))
      (cuttingPlaneFeas Ω S o w) := by
  have hsim := forLoop_sim (b1 := feasBody (logFeas Ω) (logSpace X (Option C) S) o.tol)
    (b2 := feasBody Ω S o.tol)
    (fun a b => a.w.1 = b.w ∧ a.feasible = b.feasible ∧ a.status = b.status) ?_
    o.maxIt.toNat 0 none ⟨(w, []), false, .success⟩ ⟨w, false, .success⟩ ⟨rfl, rfl, rfl⟩
  · unfold cuttingPlaneFeas forRange
    revert hsim
    cases forLoop (feasBody (logFeas Ω) (logSpace X (Option C) S) o.tol) o.maxIt.toNat 0 none
        ⟨(w, []), false, .success⟩ <;>
      cases forLoop (feasBody Ω S o.tol) o.maxIt.toNat 0 none ⟨w, false, .success⟩ <;>
      intro hsim
    · exact hsim
    · exact hsim.elim
    · exact hsim.elim
    · rename_i a b
      obtain ⟨⟨h1, h2, h3⟩, h4⟩ := hsim
      obtain ⟨a1, a2⟩ := a
      obtain ⟨b1, b2⟩ := b
      dsimp only at *
      subst h4
      cases a2
      · rfl
      · exact ⟨h1, by simp [h2, h3]⟩
  · rintro i ⟨⟨w, l⟩, fe, st⟩ ⟨_, _, _⟩ ⟨rfl, rfl, rfl⟩
    simp only [feasBody, logFeas, logCall, logSpace]
    cases hq : Ω (S.xc w) w with
    | error e => exact rfl
    | ok r =>
      obtain ⟨w1, a⟩ := r
      cases a with
      | none => exact ⟨rfl, rfl, rfl⟩
      | some c =>
        dsimp only
        cases hu : S.update c w1 with
        | error e => exact rfl
        | ok r =>
          obtain ⟨w2, st', tsq⟩ := r
          dsimp only
          split_ifs <;> exact ⟨rfl, rfl, rfl⟩

end Verif
