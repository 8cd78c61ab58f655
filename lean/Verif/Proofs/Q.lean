import Verif.Spec.QSpec
import Verif.Proofs.Feas

namespace Verif
variable {W X C α T X0 Y : Type _}

section basics
variable (copy : X0 → W → Y)

@[simp] theorem improvementsQ_nil :
    improvementsQ copy ([] : List (QEvent W X C α T X0)) = [] := rfl

@[simp] theorem improvementsQ_append (l l' : List (QEvent W X C α T X0)) :
    improvementsQ copy (l ++ l') = improvementsQ copy l ++ improvementsQ copy l' := by
  simp [improvementsQ]

@[simp] theorem improvementsQ_query_none (w : W) (q : X × T × Bool) (c : C) (x0 : X0) (b : Bool) (w' : W)
    (l : List (QEvent W X C α T X0)) :
    improvementsQ copy (.query w q (c, x0, none, b) w' :: l) = improvementsQ copy l := by
  simp [improvementsQ]

@[simp] theorem improvementsQ_query_some (w : W) (q : X × T × Bool) (c : C) (x0 : X0) (t : T) (b : Bool)
    (w' : W) (l : List (QEvent W X C α T X0)) :
    improvementsQ copy (.query w q (c, x0, some t, b) w' :: l) =
      (copy x0 w', t) :: improvementsQ copy l := by
  simp [improvementsQ]

@[simp] theorem improvementsQ_update (w : W) (c : C) (st : CUTStatus) (tsq : α) (w' : W)
    (l : List (QEvent W X C α T X0)) :
    improvementsQ copy (.update w c st tsq w' :: l) = improvementsQ copy l := by
  simp [improvementsQ]

end basics

variable [LT α] [DecidableLT α]

def qAfter (copy : X0 → W → Y) (s : QSt W Y T) (w1 : W) (x0 : X0) (t1 : Option T) : QSt W Y T :=
  match t1 with
  | some t' => { s with w := w1, t := t', xBest := some (copy x0 w1) }
  | none => { s with w := w1 }

theorem qBody_ok {Ω : X → T → Bool → W → Except PyErr (W × C × X0 × Option T × Bool)}
    {copy : X0 → W → Y} {S : Space W X C α} {tol : α} {i s r}
    (h : qBody Ω copy S tol i s = .ok r) :
    ∃ w1 c x0 t1 alt w2 st tsq,
      Ω (S.xc s.w) s.t (decide (s.status = .noeffect)) s.w = .ok (w1, c, x0, t1, alt) ∧
      S.update c w1 = .ok (w2, st, tsq) ∧
      ((r = .cont { qAfter copy s w1 x0 t1 with w := w2, status := st } ∧
          st ≠ .nosoln ∧ (st = .noeffect → alt = true) ∧ ¬ tsq < tol) ∨
       (∃ st', r = .brk { qAfter copy s w1 x0 t1 with w := w2, status := st' } ∧
        (st = .noeffect ∧ alt = false ∧ st' = .noeffect ∨ st = .nosoln ∧ st' = .nosoln ∨
        st ≠ .nosoln ∧ (st = .noeffect → alt = true) ∧ tsq < tol ∧ st' = .smallenough))) := by
  unfold qBody at h
  dsimp only at h
  split at h
  · simp at h
  · rename_i w1 c x0 t1 alt hq
    split at h
    · simp at h
    · rename_i w2 st tsq hu
      refine ⟨w1, c, x0, t1, alt, w2, st, tsq, hq, hu, ?_⟩
      split_ifs at h with h1 h2 h3
      · simp only [Except.ok.injEq] at h
        refine .inr ⟨.noeffect, ?_, .inl ⟨h1.1, h1.2, rfl⟩⟩
        rw [← h, h1.1]; cases t1 <;> rfl
      · simp only [Except.ok.injEq] at h
        refine .inr ⟨.nosoln, ?_, .inr (.inl ⟨h2, rfl⟩)⟩
        rw [← h, h2]; cases t1 <;> rfl
      · simp only [Except.ok.injEq] at h
        refine .inr ⟨.smallenough, ?_, .inr (.inr ⟨h2, ?_, h3, rfl⟩)⟩
        · rw [← h]; cases t1 <;> rfl
        · intro hn; by_contra ha; exact h1 ⟨hn, by simpa using ha⟩
      · simp only [Except.ok.injEq] at h
        refine .inl ⟨?_, h2, ?_, h3⟩
        · rw [← h]; cases t1 <;> rfl
        · intro hn; by_contra ha; exact h1 ⟨hn, by simpa using ha⟩

theorem q_ok [DecidableEq T] {Ω : X → T → Bool → W → Except PyErr (W × C × X0 × Option T × Bool)}
    {copy : X0 → W → Y} {S : Space W X C α} {t0 : T} {o : Options α} {w w' xb t info}
    (h : cuttingPlaneQ Ω copy S t0 o w = .ok (w', xb, t, info)) :
    ∃ s i, forRange o.maxIt (qBody Ω copy S o.tol) ⟨w, none, t0, .nosoln⟩ = .ok (s, some i) ∧
      w' = s.w ∧ xb = s.xBest ∧ t = s.t ∧ info = ⟨decide (s.t ≠ t0), i + 1, s.status⟩ := by
  unfold cuttingPlaneQ at h
  split at h
  · simp at h
  · rename_i s last hf
    cases last with
    | none => simp [readVar] at h
    | some i =>
      simp only [readVar, Except.ok.injEq, Prod.mk.injEq] at h
      exact ⟨s, i, hf, h.1.symm, h.2.1.symm, h.2.2.1.symm, h.2.2.2.symm⟩

/-- `(x_best, t)` described through the history. -/
def QBest (copy : X0 → W → Y) (t0 : T) (log : List (QEvent W X C α T X0)) (xb : Option Y) (t : T) :
    Prop :=
  t = bestTQ copy t0 log ∧ xb = (improvementsQ copy log).getLast?.map Prod.fst

omit [LT α] [DecidableLT α] in
theorem qBest_step {copy : X0 → W → Y} {t0 : T} {log : List (QEvent W X C α T X0)}
    {s : QSt (W × List (QEvent W X C α T X0)) Y T} {wl1 : W × List (QEvent W X C α T X0)}
    {w w1 w2 : W} {q c x0 t1 alt st tsq}
    (hb : QBest copy t0 log s.xBest s.t) (hwl : wl1.1 = w1) :
    QBest copy t0 (log ++ [.query w q (c, x0, t1, alt) w1, .update w1 c st tsq w2])
      (qAfter (fun x wl => copy x wl.1) s wl1 x0 t1).xBest
      (qAfter (fun x wl => copy x wl.1) s wl1 x0 t1).t := by
  obtain ⟨h1, h2⟩ := hb
  subst hwl
  cases t1 with
  | none =>
    constructor
    · simp only [qAfter, h1, bestTQ, improvementsQ_append, improvementsQ_query_none,
        improvementsQ_update, improvementsQ_nil, List.append_nil]
    · simp [qAfter, h2]
  | some t' =>
    constructor
    · simp [qAfter, bestTQ]
    · simp [qAfter]

/-- The `retry` flag described through the history. -/
def QRetry (log : List (QEvent W X C α T X0)) (w : W) (st : CUTStatus) : Prop :=
  decide (st = .noeffect) = endsNoEffect log ∧
    (log ≠ [] → ∃ w1 c tsq, log.getLast? = some (.update w1 c st tsq w))

omit [DecidableLT α] in
theorem QRounds.ne_nil {Ω : X → T → Bool → W → Except PyErr (W × C × X0 × Option T × Bool)}
    {copy : X0 → W → Y} {S : Space W X C α} {tol : α} {t0 w0 k l w}
    (h : QRounds Ω copy S tol t0 w0 k l w) (hk : 0 < k) : l ≠ [] := by
  cases h with
  | nil => omega
  | snoc => simp

theorem q_outcome [DecidableEq T]
    {Ω : X → T → Bool → W → Except PyErr (W × C × X0 × Option T × Bool)}
    {copy : X0 → W → Y} {S : Space W X C α} {t0 : T} {o : Options α} {w w' log xb t info}
    (h : cuttingPlaneQ (logQ Ω) (fun x wl => copy x wl.1)
      (logSpace (X × T × Bool) (C × X0 × Option T × Bool) S) t0 o (w, []) =
      .ok ((w', log), xb, t, info)) :
    QOutcome Ω copy S o.tol o.maxIt t0 w log w' info.numIters info.status ∧
    QBest copy t0 log xb t ∧ info.feasible = decide (t ≠ t0) := by
  obtain ⟨s, i, hf, hw, rfl, rfl, rfl⟩ := q_ok h
  have key : ∀ {j s1}, Rounds (qBody (logQ Ω) (fun x wl => copy x wl.1)
      (logSpace (X × T × Bool) (C × X0 × Option T × Bool) S) o.tol) 0
      ⟨(w, []), none, t0, .nosoln⟩ j s1 →
      QRounds Ω copy S o.tol t0 w j s1.w.2 s1.w.1 ∧ QBest copy t0 s1.w.2 s1.xBest s1.t ∧
        QRetry s1.w.2 s1.w.1 s1.status := by
    intro j s1 hr
    refine Rounds.inv (fun j s1 => QRounds Ω copy S o.tol t0 w j s1.w.2 s1.w.1 ∧
      QBest copy t0 s1.w.2 s1.xBest s1.t ∧ QRetry s1.w.2 s1.w.1 s1.status)
      ⟨.nil, ⟨rfl, rfl⟩, rfl, by simp⟩ ?_ hr
    rintro j s s' ⟨hp, hb1, hre⟩ hb
    obtain ⟨wl1, c, x0, t1, alt, wl2, st, tsq, hq, hu, ⟨he, hns, hne, ht⟩ | ⟨_, he, _⟩⟩ := qBody_ok hb
    · simp only [Step.cont.injEq] at he
      subst he
      obtain ⟨w1, hq', rfl⟩ := logCall_ok hq
      obtain ⟨w2, hu', rfl⟩ := logSpace_update_ok hu
      rw [hb1.1, hre.1, logSpace_xc] at hq'
      refine ⟨?_, ?_, ?_, ?_⟩
      · have := QRounds.snoc hp hq' hu' hns hne ht
        simpa only [List.append_assoc, List.cons_append, List.nil_append, hb1.1, hre.1,
          logSpace_xc] using this
      · dsimp only
        rw [List.append_assoc]
        exact qBest_step hb1 rfl
      · cases st <;> simp [endsNoEffect]
      · simp
    · simp at he
  have hw1 : w' = s.w.1 := by rw [← hw]
  have hlog : log = s.w.2 := by rw [← hw]
  subst hw1 hlog
  refine ⟨?_, ?_, rfl⟩ <;> rcases forRange_ok hf with ⟨s1, hi, hr, hb⟩ | ⟨hi, hr⟩
  · obtain ⟨hp, hb1, hre⟩ := key hr
    obtain ⟨wl1, c, x0, t1, alt, wl2, st, tsq, hq, hu, ⟨he, _⟩ | ⟨st', he, hcase⟩⟩ := qBody_ok hb
    · simp at he
    · simp only [Step.brk.injEq] at he
      subst he
      obtain ⟨w1, hq', rfl⟩ := logCall_ok hq
      obtain ⟨w2, hu', rfl⟩ := logSpace_update_ok hu
      rw [hb1.1, hre.1, logSpace_xc] at hq'
      have := QOutcome.stopped hp hi hq' hu' hcase
      simpa only [List.append_assoc, List.cons_append, List.nil_append, hb1.1, hre.1,
          logSpace_xc] using this
  · obtain ⟨hp, hb1, hre⟩ := key hr
    exact .exhausted hp hi (Nat.succ_pos _) (hre.2 (hp.ne_nil (Nat.succ_pos _)))
  · obtain ⟨hp, hb1, hre⟩ := key hr
    obtain ⟨wl1, c, x0, t1, alt, wl2, st, tsq, hq, hu, ⟨he, _⟩ | ⟨st', he, hcase⟩⟩ := qBody_ok hb
    · simp at he
    · simp only [Step.brk.injEq] at he
      subst he
      obtain ⟨w1, hq', rfl⟩ := logCall_ok hq
      obtain ⟨w2, hu', rfl⟩ := logSpace_update_ok hu
      dsimp only
      rw [List.append_assoc]
      exact qBest_step hb1 rfl
  · exact (key hr).2.1

/-- Recording does not change the run. -/
theorem q_log_transparent [DecidableEq T]
    (Ω : X → T → Bool → W → Except PyErr (W × C × X0 × Option T × Bool))
    (copy : X0 → W → Y) (S : Space W X C α) (t0 : T) (o : Options α) (w : W) :
    (cuttingPlaneQ (logQ Ω) (fun x wl => copy x wl.1)
      (logSpace (X × T × Bool) (C × X0 × Option T × Bool) S) t0 o (w, [])).map
      (fun r => (r.1.1, r.2)) = cuttingPlaneQ Ω copy S t0 o w := by
  have hb : ∀ i (s : QSt (W × List (QEvent W X C α T X0)) Y T) (u : QSt W Y T),
      (s.w.1 = u.w ∧ s.xBest = u.xBest ∧ s.t = u.t ∧ s.status = u.status) →
      RelE (RelStep fun (a : QSt (W × List (QEvent W X C α T X0)) Y T) (b : QSt W Y T) =>
        a.w.1 = b.w ∧ a.xBest = b.xBest ∧ a.t = b.t ∧ a.status = b.status)
      (qBody (logQ Ω) (fun x wl => copy x wl.1)
        (logSpace (X × T × Bool) (C × X0 × Option T × Bool) S) o.tol i s)
      (qBody Ω copy S o.tol i u) := by
    rintro i ⟨⟨w, l⟩, xb, t, st⟩ ⟨_, _, _, _⟩ ⟨rfl, rfl, rfl, rfl⟩
    simp only [qBody, logQ, logCall, logSpace]
    cases hq : Ω (S.xc w) t (decide (st = .noeffect)) w with
    | error e => exact rfl
    | ok r =>
      obtain ⟨w1, c, x0, t1, alt⟩ := r
      dsimp only
      cases hu : S.update c w1 with
      | error e => cases t1 <;> exact rfl
      | ok r =>
        obtain ⟨w2, st', tsq⟩ := r
        dsimp only
        cases t1 <;> split_ifs <;> exact ⟨rfl, rfl, rfl, rfl⟩
  have hsim := forLoop_sim _ hb o.maxIt.toNat 0 none ⟨(w, []), none, t0, .nosoln⟩
    ⟨w, none, t0, .nosoln⟩ ⟨rfl, rfl, rfl, rfl⟩
  unfold cuttingPlaneQ forRange
  revert hsim
  cases forLoop (qBody (logQ Ω) (fun x wl => copy x wl.1)
      (logSpace (X × T × Bool) (C × X0 × Option T × Bool) S) o.tol) o.maxIt.toNat 0 none
      ⟨(w, []), none, t0, .nosoln⟩ <;>
    cases forLoop (qBody Ω copy S o.tol) o.maxIt.toNat 0 none ⟨w, none, t0, .nosoln⟩ <;>
    intro hsim
  · simp only [RelE] at hsim; subst hsim; rfl
  · exact hsim.elim
  · exact hsim.elim
  · rename_i a b
    obtain ⟨⟨h1, h2, h3, h5⟩, h4⟩ := hsim
    obtain ⟨a1, a2⟩ := a
    obtain ⟨b1, b2⟩ := b
    dsimp only at *
    subst h4
    cases a2
    · rfl
    · simp [readVar, Except.map, h1, h2, h3, h5]

end Verif
