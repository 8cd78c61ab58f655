import Verif.Spec.DcSpec
import Verif.Proofs.Feas

namespace Verif
variable {W X C α T : Type _}

section basics
@[simp] theorem improvements_nil : improvements ([] : List (DcEvent W X C α T)) = [] := rfl

@[simp] theorem improvements_append (l l' : List (DcEvent W X C α T)) :
    improvements (l ++ l') = improvements l ++ improvements l' := by
  simp [improvements]

@[simp] theorem improvements_query_none (w : W) (q : X × T) (c : C) (w' : W)
    (l : List (DcEvent W X C α T)) :
    improvements (.query w q (c, none) w' :: l) = improvements l := by
  simp [improvements]

@[simp] theorem improvements_query_some (w : W) (q : X × T) (c : C) (t : T) (w' : W)
    (l : List (DcEvent W X C α T)) :
    improvements (.query w q (c, some t) w' :: l) = (w', t) :: improvements l := by
  simp [improvements]

@[simp] theorem improvements_update (w : W) (c : C) (st : CUTStatus) (tsq : α) (w' : W)
    (l : List (DcEvent W X C α T)) :
    improvements (.update w c st tsq w' :: l) = improvements l := by
  simp [improvements]

end basics

variable [LT α] [DecidableLT α]

/-- State after lines 100-103 of `cutting_plane_dc`. -/
def dcAfter (S : Space W X C α) (s : DcSt W X T) (w1 : W) (t1 : Option T) : DcSt W X T :=
  match t1 with
  | some t' => { s with w := w1, t := t', xBest := some (S.xc w1) }
  | none => { s with w := w1 }

theorem dcBody_cont {Ω : X → T → W → Except PyErr (W × C × Option T)} {S : Space W X C α} {tol : α}
    {i s s'} (h : dcBody Ω S tol i s = .ok (.cont s')) :
    ∃ w1 c t1 w2 tsq, Ω (S.xc s.w) s.t s.w = .ok (w1, c, t1) ∧
      S.update c w1 = .ok (w2, .success, tsq) ∧ ¬ tsq < tol ∧
      s' = { dcAfter S s w1 t1 with w := w2 } := by
  unfold dcBody at h
  split at h
  · simp at h
  · rename_i w1 c t1 hq
    dsimp only at h
    split at h
    · simp at h
    · rename_i w2 st tsq hu
      split_ifs at h with h1 h2
      · simp at h
      · simp at h
      · simp only [Except.ok.injEq, Step.cont.injEq] at h
        have : st = .success := by simpa using h1
        subst this
        exact ⟨w1, c, t1, w2, tsq, hq, hu, h2, by rw [← h]; cases t1 <;> rfl⟩

theorem dcBody_brk {Ω : X → T → W → Except PyErr (W × C × Option T)} {S : Space W X C α} {tol : α}
    {i s s'} (h : dcBody Ω S tol i s = .ok (.brk s')) :
    ∃ w1 c t1 w2 st tsq, Ω (S.xc s.w) s.t s.w = .ok (w1, c, t1) ∧
      S.update c w1 = .ok (w2, st, tsq) ∧
      ((st ≠ .success ∧ s' = { dcAfter S s w1 t1 with w := w2, status := st }) ∨
       (st = .success ∧ tsq < tol ∧
          s' = { dcAfter S s w1 t1 with w := w2, status := .smallenough })) := by
  unfold dcBody at h
  split at h
  · simp at h
  · rename_i w1 c t1 hq
    dsimp only at h
    split at h
    · simp at h
    · rename_i w2 st tsq hu
      split_ifs at h with h1 h2
      · simp only [Except.ok.injEq, Step.brk.injEq] at h
        exact ⟨w1, c, t1, w2, st, tsq, hq, hu, .inl ⟨h1, by rw [← h]; cases t1 <;> rfl⟩⟩
      · simp only [Except.ok.injEq, Step.brk.injEq] at h
        exact ⟨w1, c, t1, w2, st, tsq, hq, hu,
          .inr ⟨by simpa using h1, h2, by rw [← h]; cases t1 <;> rfl⟩⟩
      · simp at h

theorem dc_ok [DecidableEq T] {Ω : X → T → W → Except PyErr (W × C × Option T)} {S : Space W X C α}
    {t0 : T} {o : Options α} {w w' xb t info}
    (h : cuttingPlaneDc Ω S t0 o w = .ok (w', xb, t, info)) :
    ∃ s i, forRange o.maxIt (dcBody Ω S o.tol) ⟨w, none, t0, .success⟩ = .ok (s, some i) ∧
      w' = s.w ∧ xb = s.xBest ∧ t = s.t ∧ info = ⟨decide (s.t ≠ t0), i + 1, s.status⟩ := by
  unfold cuttingPlaneDc at h
  split at h
  · simp at h
  · rename_i s last hf
    cases last with
    | none => simp [readVar] at h
    | some i =>
      simp only [readVar, Except.ok.injEq, Prod.mk.injEq] at h
      exact ⟨s, i, hf, h.1.symm, h.2.1.symm, h.2.2.1.symm, h.2.2.2.symm⟩

/-- The pair `(x_best, t)` described through the history. -/
def DcBest (S : Space W X C α) (t0 : T) (log : List (DcEvent W X C α T)) (xb : Option X) (t : T) :
    Prop :=
  t = bestT t0 log ∧ xb = (improvements log).getLast?.map (fun p => S.xc p.1)

omit [LT α] [DecidableLT α] in
theorem dcBest_step {S : Space W X C α} {t0 : T} {log : List (DcEvent W X C α T)}
    {s : DcSt (W × List (DcEvent W X C α T)) X T} {wl1 : W × List (DcEvent W X C α T)}
    {w w1 w2 : W} {q c t1 st tsq}
    (hb : DcBest S t0 log s.xBest s.t) (hwl : wl1.1 = w1) :
    DcBest S t0 (log ++ [.query w q (c, t1) w1, .update w1 c st tsq w2])
      (dcAfter (logSpace (X × T) (C × Option T) S) s wl1 t1).xBest
      (dcAfter (logSpace (X × T) (C × Option T) S) s wl1 t1).t := by
  obtain ⟨h1, h2⟩ := hb
  subst hwl
  cases t1 with
  | none =>
    constructor
    · simp only [dcAfter, h1, bestT, improvements_append, improvements_query_none,
        improvements_update, improvements_nil, List.append_nil]
    · simp [dcAfter, h2]
  | some t' =>
    constructor
    · simp [dcAfter, bestT]
    · simp [dcAfter, logSpace]

theorem dc_outcome [DecidableEq T] {Ω : X → T → W → Except PyErr (W × C × Option T)}
    {S : Space W X C α} {t0 : T} {o : Options α} {w w' log xb t info}
    (h : cuttingPlaneDc (logDc Ω) (logSpace (X × T) (C × Option T) S) t0 o (w, []) =
      .ok ((w', log), xb, t, info)) :
    DcOutcome Ω S o.tol o.maxIt t0 w log w' info.numIters info.status ∧
    DcBest S t0 log xb t ∧ info.feasible = decide (t ≠ t0) := by
  obtain ⟨s, i, hf, hw, rfl, rfl, rfl⟩ := dc_ok h
  have key : ∀ {j s1}, Rounds (dcBody (logDc Ω) (logSpace (X × T) (C × Option T) S) o.tol) 0
      ⟨(w, []), none, t0, .success⟩ j s1 →
      DcRounds Ω S o.tol t0 w j s1.w.2 s1.w.1 ∧ DcBest S t0 s1.w.2 s1.xBest s1.t ∧
        s1.status = .success := by
    intro j s1 hr
    refine Rounds.inv (fun j s1 => DcRounds Ω S o.tol t0 w j s1.w.2 s1.w.1 ∧
      DcBest S t0 s1.w.2 s1.xBest s1.t ∧ s1.status = .success) ⟨.nil, ⟨rfl, rfl⟩, rfl⟩ ?_ hr
    rintro j s s' ⟨hp, hb1, hst⟩ hb
    obtain ⟨wl1, c, t1, wl2, tsq, hq, hu, ht, rfl⟩ := dcBody_cont hb
    obtain ⟨w1, hq', rfl⟩ := logCall_ok hq
    obtain ⟨w2, hu', rfl⟩ := logSpace_update_ok hu
    rw [hb1.1] at hq'
    refine ⟨?_, ?_, ?_⟩
    · have := DcRounds.snoc hp hq' hu' ht
      simpa only [List.append_assoc, List.cons_append, List.nil_append, hb1.1, logSpace_xc] using this
    · dsimp only
      rw [List.append_assoc]
      exact dcBest_step hb1 rfl
    · cases t1 <;> exact hst
  have hw1 : w' = s.w.1 := by rw [← hw]
  have hlog : log = s.w.2 := by rw [← hw]
  subst hw1 hlog
  refine ⟨?_, ?_, rfl⟩ <;> rcases forRange_ok hf with ⟨s1, hi, hr, hb⟩ | ⟨hi, hr⟩
  · obtain ⟨hp, hb1, hst⟩ := key hr
    obtain ⟨wl1, c, t1, wl2, st, tsq, hq, hu, ⟨hne, rfl⟩ | ⟨rfl, ht, rfl⟩⟩ := dcBody_brk hb <;>
    · obtain ⟨w1, hq', rfl⟩ := logCall_ok hq
      obtain ⟨w2, hu', rfl⟩ := logSpace_update_ok hu
      rw [hb1.1] at hq'
      first
      | have := DcOutcome.stopped hp hi hq' hu' hne
        simpa only [List.append_assoc, List.cons_append, List.nil_append, hb1.1, logSpace_xc] using this
      | have := DcOutcome.small hp hi hq' hu' ht
        simpa only [List.append_assoc, List.cons_append, List.nil_append, hb1.1, logSpace_xc] using this
  · obtain ⟨hp, hb1, hst⟩ := key hr
    simp only [hst]
    exact .exhausted hp hi (by omega)
  · obtain ⟨hp, hb1, hst⟩ := key hr
    obtain ⟨wl1, c, t1, wl2, st, tsq, hq, hu, ⟨hne, rfl⟩ | ⟨rfl, ht, rfl⟩⟩ := dcBody_brk hb <;>
    · obtain ⟨w1, hq', rfl⟩ := logCall_ok hq
      obtain ⟨w2, hu', rfl⟩ := logSpace_update_ok hu
      dsimp only
      rw [List.append_assoc]
      exact dcBest_step hb1 rfl
  · exact (key hr).2.1

/-- Recording does not change the run. -/
theorem dc_log_transparent [DecidableEq T] (Ω : X → T → W → Except PyErr (W × C × Option T))
    (S : Space W X C α) (t0 : T) (o : Options α) (w : W) :
    (cuttingPlaneDc (logDc Ω) (logSpace (X × T) (C × Option T) S) t0 o (w, [])).map
      (fun r => (r.1.1, r.2)) = cuttingPlaneDc Ω S t0 o w := by
  have hb : ∀ i (s : DcSt (W × List (DcEvent W X C α T)) X T) (u : DcSt W X T),
      (s.w.1 = u.w ∧ s.xBest = u.xBest ∧ s.t = u.t ∧ s.status = u.status) →
      RelE (RelStep fun (a : DcSt (W × List (DcEvent W X C α T)) X T) (b : DcSt W X T) =>
        a.w.1 = b.w ∧ a.xBest = b.xBest ∧ a.t = b.t ∧ a.status = b.status)
      (dcBody (logDc Ω) (logSpace (X × T) (C × Option T) S) o.tol i s) (dcBody Ω S o.tol i u) := by
    rintro i ⟨⟨w, l⟩, xb, t, st⟩ ⟨_, _, _, _⟩ ⟨rfl, rfl, rfl, rfl⟩
    simp only [dcBody, logDc, logCall, logSpace]
    cases hq : Ω (S.xc w) t w with
    | error e => exact rfl
    | ok r =>
      obtain ⟨w1, c, t1⟩ := r
      dsimp only
      cases hu : S.update c w1 with
      | error e => cases t1 <;> exact rfl
      | ok r =>
        obtain ⟨w2, st', tsq⟩ := r
        dsimp only
        cases t1 <;> split_ifs <;> exact ⟨rfl, rfl, rfl, rfl⟩
  have hsim := forLoop_sim _ hb o.maxIt.toNat 0 none ⟨(w, []), none, t0, .success⟩
    ⟨w, none, t0, .success⟩ ⟨rfl, rfl, rfl, rfl⟩
  unfold cuttingPlaneDc forRange
  revert hsim
  cases forLoop (dcBody (logDc Ω) (logSpace (X × T) (C × Option T) S) o.tol) o.maxIt.toNat 0 none
      ⟨(w, []), none, t0, .success⟩ <;>
    cases forLoop (dcBody Ω S o.tol) o.maxIt.toNat 0 none ⟨w, none, t0, .success⟩ <;>
    intro hsim
  · simp only [RelE] at hsim; subst hsim; rfl
  · exact hsim.elim
  · exact hsim.elim
  · rename_i a b
    obtain ⟨⟨h1, h2, h3, h5⟩, h4⟩ := hsim
    obtain ⟨a1, a2⟩ := a
    obtain ⟨b1, b2⟩ := b
    dsimp only at *
    subst h4
    cases a2
    · rfl
    · simp [readVar, Except.map, h1, h2, h3, h5]

end Verif
