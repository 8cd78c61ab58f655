import Verif.Spec.Log
import Verif.Proofs.Feas

namespace Verif
variable {W α : Type _} [Field α] [LinearOrder α]

abbrev BsEvent (W α : Type _) := Event W α Bool Unit α

theorem bsBody_ok {Ω : α → W → Except PyErr (W × Bool)} {conv : α → α} {tol : α} {i s r}
    (h : bsearchBody Ω conv tol i s = .ok r) :
    ((s.upper - s.lower) / 2 < tol ∧ r = .brk { s with status := .smallenough }) ∨
    (¬ (s.upper - s.lower) / 2 < tol ∧ ∃ w1 b,
      Ω (conv (s.lower + (s.upper - s.lower) / 2)) s.w = .ok (w1, b) ∧
      r = .cont (if b then { s with w := w1, upper := conv (s.lower + (s.upper - s.lower) / 2) }
        else { s with w := w1, lower := conv (s.lower + (s.upper - s.lower) / 2) })) := by
  unfold bsearchBody at h
  dsimp only at h
  split_ifs at h with h1
  · exact .inl ⟨h1, by simpa using h.symm⟩
  · refine .inr ⟨h1, ?_⟩
    split at h
    · simp at h
    · rename_i w1 hq
      exact ⟨w1, true, hq, by simpa using h.symm⟩
    · rename_i w1 hq
      exact ⟨w1, false, hq, by simpa using h.symm⟩

theorem bsearch_ok {Ω : α → W → Except PyErr (W × Bool)} {conv : α → α} {lo up : α} {o : Options α}
    {w w' u info} (h : bsearch Ω conv lo up o w = .ok (w', u, info)) :
    ∃ s i, forRange o.maxIt (bsearchBody Ω conv o.tol) ⟨w, lo, up, .success⟩ = .ok (s, some i) ∧
      w' = s.w ∧ u = s.upper ∧ info = ⟨decide (s.upper ≠ up), i, s.status⟩ := by
  unfold bsearch at h
  split at h
  · simp at h
  · rename_i s last hf
    cases last with
    | none => simp [readVar] at h
    | some i =>
      simp only [readVar, Except.ok.injEq, Prod.mk.injEq] at h
      exact ⟨s, i, hf, h.1.symm, h.2.1.symm, h.2.2.symm⟩

/-- General invariant rule for `bsearch` on the recording world: `I k log lower upper` holds after `k`
rounds; a run ends either by `smallenough` after `k` rounds (reporting `k`) or after `max_it` rounds
(reporting `max_it - 1`). -/
theorem bsearch_rule {Ω : α → W → Except PyErr (W × Bool)} {conv : α → α} {lo up : α} {o : Options α}
    {w w' log u info} (I : Nat → List (BsEvent W α) → α → α → Prop) (h0 : I 0 [] lo up)
    (hs : ∀ k log l u w w1 b, I k log l u → ¬ (u - l) / 2 < o.tol →
      Ω (conv (l + (u - l) / 2)) w = .ok (w1, b) →
      I (k + 1) (log ++ [.query w (conv (l + (u - l) / 2)) b w1])
        (if b then l else conv (l + (u - l) / 2)) (if b then conv (l + (u - l) / 2) else u))
    (h : bsearch (logBs Ω) conv lo up o (w, []) = .ok ((w', log), u, info)) :
    ∃ k l, I k log l u ∧ info.feasible = decide (u ≠ up) ∧
      ((info.status = .smallenough ∧ info.numIters = k ∧ (k : Int) < o.maxIt ∧ (u - l) / 2 < o.tol) ∨
       (info.status = .success ∧ info.numIters + 1 = k ∧ (k : Int) = o.maxIt)) := by
  obtain ⟨s, i, hf, hw, rfl, rfl⟩ := bsearch_ok h
  have key : ∀ {j s1}, Rounds (bsearchBody (logBs Ω) conv o.tol) 0 ⟨(w, []), lo, up, .success⟩ j s1 →
      I j s1.w.2 s1.lower s1.upper ∧ s1.status = .success := by
    intro j s1 hr
    refine Rounds.inv (fun j s1 => I j s1.w.2 s1.lower s1.upper ∧ s1.status = .success)
      ⟨h0, rfl⟩ ?_ hr
    rintro j s s' ⟨hI, hst⟩ hb
    rcases bsBody_ok hb with ⟨_, he⟩ | ⟨hn, wl1, b, hq, he⟩
    · simp at he
    · simp only [Step.cont.injEq] at he
      obtain ⟨w1, hq', rfl⟩ := logCall_ok hq
      have := hs _ _ _ _ _ _ _ hI hn hq'
      subst he
      cases b <;> exact ⟨this, hst⟩
  have hlog : log = s.w.2 := by rw [← hw]
  subst hlog
  rcases forRange_ok hf with ⟨s1, hi, hr, hb⟩ | ⟨hi, hr⟩
  · obtain ⟨hI, hst⟩ := key hr
    rcases bsBody_ok hb with ⟨hn, he⟩ | ⟨_, wl1, b, hq, he⟩
    · simp only [Step.brk.injEq] at he
      subst he
      exact ⟨i, s1.lower, hI, rfl, .inl ⟨rfl, rfl, hi, hn⟩⟩
    · simp at he
  · obtain ⟨hI, hst⟩ := key hr
    exact ⟨i + 1, s.lower, hI, rfl, .inr ⟨hst, rfl, hi⟩⟩

theorem bsearch_log_transparent (Ω : α → W → Except PyErr (W × Bool)) (conv : α → α) (lo up : α)
    (o : Options α) (w : W) :
    (bsearch (logBs Ω) conv lo up o (w, [])).map (fun r => (r.1.1, r.2)) =
      bsearch Ω conv lo up o w := by
  have hb : ∀ i (s : BsSt (W × List (BsEvent W α)) α) (u : BsSt W α),
      (s.w.1 = u.w ∧ s.lower = u.lower ∧ s.upper = u.upper ∧ s.status = u.status) →
      RelE (RelStep fun (a : BsSt (W × List (BsEvent W α)) α) (b : BsSt W α) =>
        a.w.1 = b.w ∧ a.lower = b.lower ∧ a.upper = b.upper ∧ a.status = b.status)
      (bsearchBody (logBs Ω) conv o.tol i s) (bsearchBody Ω conv o.tol i u) := by
    rintro i ⟨⟨w, l⟩, lo, up, st⟩ ⟨_, _, _, _⟩ ⟨rfl, rfl, rfl, rfl⟩
    simp only [bsearchBody, logBs, logCall]
    split_ifs
    · exact ⟨rfl, rfl, rfl, rfl⟩
    · cases hq : Ω (conv (lo + (up - lo) / 2)) w with
      | error e => exact rfl
      | ok r =>
        obtain ⟨w1, b⟩ := r
        cases b <;> exact ⟨rfl, rfl, rfl, rfl⟩
  have hsim := forLoop_sim _ hb o.maxIt.toNat 0 none ⟨(w, []), lo, up, .success⟩
    ⟨w, lo, up, .success⟩ ⟨rfl, rfl, rfl, rfl⟩
  unfold bsearch forRange
  revert hsim
  cases forLoop (bsearchBody (logBs Ω) conv o.tol) o.maxIt.toNat 0 none
      ⟨(w, []), lo, up, .success⟩ <;>
    cases forLoop (bsearchBody Ω conv o.tol) o.maxIt.toNat 0 none ⟨w, lo, up, .success⟩ <;>
    intro hsim
  · simp only [RelE] at hsim; subst hsim; rfl
  · exact hsim.elim
  · exact hsim.elim
  · rename_i a b
    obtain ⟨⟨h1, h2, h3, h5⟩, h4⟩ := hsim
    obtain ⟨a1, a2⟩ := a
    obtain ⟨b1, b2⟩ := b
    dsimp only at *
    subst h4
    cases a2
    · rfl
    · simp [readVar, Except.map, h1, h3, h5]

end Verif
