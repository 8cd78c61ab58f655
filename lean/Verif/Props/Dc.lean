import Verif.Proofs.Dc
import Verif.Spec.Sound

/-! # C05-C07: `cutting_plane_dc` -/
namespace Verif
variable {W X C α T : Type _} [LT α] [DecidableLT α]

section
omit [DecidableLT α]

private theorem DcRounds.counts {Ω : X → T → W → Except PyErr (W × C × Option T)} {S : Space W X C α}
    {tol : α} {t0 w0 k l w} (h : DcRounds Ω S tol t0 w0 k l w) :
    l.countP Event.isQuery = k ∧ l.countP Event.isUpdate = k := by
  induction h with
  | nil => simp
  | snoc _ _ _ _ ih => simp [List.countP_append, List.countP_cons, Event.isQuery, Event.isUpdate, ih]

/-- Every query of a history was made with the best-so-far value of the preceding part, at the centre
of that moment. -/
private theorem DcRounds.query_args {Ω : X → T → W → Except PyErr (W × C × Option T)}
    {S : Space W X C α} {tol : α} {t0 w0 k l w} (h : DcRounds Ω S tol t0 w0 k l w) :
    ∀ l1 l2 u q a u', l = l1 ++ Event.query u q a u' :: l2 → q = (S.xc u, bestT t0 l1) ∧
      Ω (S.xc u) (bestT t0 l1) u = .ok (u', a) := by
  induction h with
  | nil => intro l1 l2 u q a u' h; simp at h
  | @snoc k l w w1 w2 c t1 tsq hr hq hu ht ih =>
    intro l1 l2 u q a u' h
    rcases List.append_eq_append_iff.1 h with ⟨as, rfl, h2⟩ | ⟨as, rfl, h2⟩
    · cases as with
      | nil =>
        simp only [List.nil_append, List.cons.injEq, Event.query.injEq] at h2
        obtain ⟨⟨rfl, rfl, rfl, rfl⟩, -⟩ := h2
        simpa using hq
      | cons a as =>
        cases as with
        | nil => simp at h2
        | cons b as => simp at h2
    · cases as with
      | nil =>
        simp only [List.nil_append, List.cons.injEq, Event.query.injEq] at h2
        obtain ⟨⟨rfl, rfl, rfl, rfl⟩, -⟩ := h2
        simpa using hq
      | cons b as =>
        simp only [List.cons_append, List.cons.injEq] at h2
        obtain ⟨rfl, -⟩ := h2
        exact ih _ _ _ _ _ _ rfl

end

variable [DecidableEq T] {Ω : X → T → W → Except PyErr (W × C × Option T)} {S : Space W X C α}
  {o : Options α} {w w' : W} {t0 t : T} {xb : Option X}
  {log : List (DcEvent W X C α T)} {info : CInfo}

/-- C05.  `(x_best, t)` belong to the last improving oracle answer; `feasible` says whether the
returned `t` differs from the one passed in. -/
theorem C05_dc_last_improvement
    (h : cuttingPlaneDc (logDc Ω) (logSpace (X × T) (C × Option T) S) t0 o (w, []) =
      .ok ((w', log), xb, t, info)) :
    ((improvements log = [] → xb = none ∧ t = t0) ∧
     (∀ l u t', improvements log = l ++ [(u, t')] → xb = some (S.xc u) ∧ t = t')) ∧
    (info.feasible = true ↔ t ≠ t0) := by
  obtain ⟨-, ⟨h1, h2⟩, h3⟩ := dc_outcome h
  refine ⟨⟨fun h => ?_, fun l u t' h => ?_⟩, by simp [h3]⟩
  · rw [h1, h2, bestT, h]; exact ⟨rfl, rfl⟩
  · rw [h1, h2, bestT, h]; simp

/-- C05 (accounting): every query is made at the current centre with the best value so far, and
`num_iters` counts both the oracle calls and the updates. -/
theorem C05_dc_accounting
    (h : cuttingPlaneDc (logDc Ω) (logSpace (X × T) (C × Option T) S) t0 o (w, []) =
      .ok ((w', log), xb, t, info)) :
    1 ≤ info.numIters ∧ (info.numIters : Int) ≤ o.maxIt ∧
    log.countP Event.isQuery = info.numIters ∧ log.countP Event.isUpdate = info.numIters ∧
    (∀ l1 l2 u q a u', log = l1 ++ Event.query u q a u' :: l2 → q = (S.xc u, bestT t0 l1) ∧
      Ω (S.xc u) (bestT t0 l1) u = .ok (u', a)) := by
  obtain ⟨ho, -, -⟩ := dc_outcome h
  generalize info.numIters = k at ho
  generalize info.status = st at ho
  have aux : ∀ {k : Nat} {l : List (DcEvent W X C α T)} {v : W} {ev1 ev2 : DcEvent W X C α T}
      {u0 q0 a0 u0'}, DcRounds Ω S o.tol t0 w k l v → ev1 = .query u0 q0 a0 u0' →
      (∀ u q a u', ev2 ≠ .query u q a u') → q0 = (S.xc u0, bestT t0 l) →
      Ω (S.xc u0) (bestT t0 l) u0 = .ok (u0', a0) →
      ∀ l1 l2 u q a u', l ++ [ev1, ev2] = l1 ++ Event.query u q a u' :: l2 →
        q = (S.xc u, bestT t0 l1) ∧ Ω (S.xc u) (bestT t0 l1) u = .ok (u', a) := by
    intro k l v ev1 ev2 u0 q0 a0 u0' hr he1 he2 hq0 hΩ0 l1 l2 u q a u' h
    subst he1
    rcases List.append_eq_append_iff.1 h with ⟨as, rfl, h2⟩ | ⟨as, rfl, h2⟩
    · cases as with
      | nil =>
        simp only [List.nil_append, List.cons.injEq, Event.query.injEq] at h2
        obtain ⟨⟨rfl, rfl, rfl, rfl⟩, -⟩ := h2
        simpa using ⟨hq0, hΩ0⟩
      | cons a as =>
        cases as with
        | nil =>
          simp only [List.cons_append, List.nil_append, List.cons.injEq] at h2
          exact absurd h2.2.1 (he2 _ _ _ _)
        | cons b as => simp at h2
    · cases as with
      | nil =>
        simp only [List.nil_append, List.cons.injEq, Event.query.injEq] at h2
        obtain ⟨⟨rfl, rfl, rfl, rfl⟩, -⟩ := h2
        rw [List.append_nil] at hq0 hΩ0
        exact ⟨hq0, hΩ0⟩
      | cons b as =>
        simp only [List.cons_append, List.cons.injEq] at h2
        obtain ⟨rfl, -⟩ := h2
        exact hr.query_args _ _ _ _ _ _ rfl
  cases ho with
  | stopped hp hi hq hu hne =>
    have := hp.counts
    refine ⟨by simp, by push_cast; omega, ?_, ?_, aux hp rfl (by simp) rfl hq⟩ <;>
      simp [List.countP_append, List.countP_cons, Event.isQuery, Event.isUpdate, this]
  | small hp hi hq hu ht =>
    have := hp.counts
    refine ⟨by simp, by push_cast; omega, ?_, ?_, aux hp rfl (by simp) rfl hq⟩ <;>
      simp [List.countP_append, List.countP_cons, Event.isQuery, Event.isUpdate, this]
  | exhausted hp hi hk =>
    have := hp.counts
    exact ⟨hk, le_of_eq hi, this.1, this.2, hp.query_args⟩

/-- C05 (exit status). -/
theorem C05_dc_status
    (h : cuttingPlaneDc (logDc Ω) (logSpace (X × T) (C × Option T) S) t0 o (w, []) =
      .ok ((w', log), xb, t, info)) :
    ∃ u c st tsq, log.getLast? = some (.update u c st tsq w') ∧
      ((st ≠ .success ∧ info.status = st) ∨
       (st = .success ∧ tsq < o.tol ∧ info.status = .smallenough) ∨
       (st = .success ∧ ¬ tsq < o.tol ∧ info.status = .success ∧ (info.numIters : Int) = o.maxIt)) := by
  obtain ⟨ho, -, -⟩ := dc_outcome h
  generalize info.numIters = k at ho
  generalize info.status = st at ho
  cases ho with
  | @stopped k l v w1 w2 c t1 st tsq hp hi hq hu hne =>
    exact ⟨w1, c, st, tsq, by simp, .inl ⟨hne, rfl⟩⟩
  | @small k l v w1 w2 c t1 tsq hp hi hq hu ht =>
    exact ⟨w1, c, .success, tsq, by simp, .inr (.inl ⟨rfl, ht, rfl⟩)⟩
  | exhausted hp hi hk =>
    cases hp with
    | nil => omega
    | @snoc k l v w1 w2 c t1 tsq hp hq hu ht =>
      exact ⟨w1, c, .success, tsq, by simp, .inr (.inr ⟨rfl, ht, rfl, hi⟩)⟩

/-- The empty range raises. -/
theorem C05_dc_empty_range (Ω : X → T → W → Except PyErr (W × C × Option T)) (S : Space W X C α)
    (ho : o.maxIt ≤ 0) : cuttingPlaneDc Ω S t0 o w = .error .unboundLocal := by
  have : o.maxIt.toNat = 0 := by omega
  simp [cuttingPlaneDc, forRange, this, forLoop, readVar]

/-- Recording is transparent. -/
theorem C05_recording_transparent (Ω : X → T → W → Except PyErr (W × C × Option T))
    (S : Space W X C α) (t0 : T) (o : Options α) (w : W) :
    (cuttingPlaneDc (logDc Ω) (logSpace (X × T) (C × Option T) S) t0 o (w, [])).map
      (fun r => (r.1.1, r.2)) = cuttingPlaneDc Ω S t0 o w := dc_log_transparent Ω S t0 o w

omit [DecidableLT α] [DecidableEq T] in
private theorem improvements_chain {better : T → T → Prop} (htr : ∀ a b c, better a b → better b c →
    better a c) (hΩ : ∀ x s u u' c t', Ω x s u = .ok (u', c, some t') → better t' s)
    {tol : α} {k l u} (h : DcRounds Ω S tol t0 w k l u) :
    (bestT t0 l = t0 ∧ improvements l = [] ∨ better (bestT t0 l) t0 ∧ improvements l ≠ []) ∧
    ∀ p ∈ improvements l, bestT t0 l = p.2 ∨ better (bestT t0 l) p.2 := by
  induction h with
  | nil => simp [bestT]
  | @snoc k l w w1 w2 c t1 tsq hr hq hu ht ih =>
    cases t1 with
    | none => simpa [bestT] using ih
    | some t' =>
      have hb := hΩ _ _ _ _ _ _ hq
      have hbt : bestT t0 (l ++ [Event.query w (S.xc w, bestT t0 l) (c, some t') w1,
        Event.update w1 c .success tsq w2]) = t' := by simp [bestT]
      rw [hbt]
      refine ⟨.inr ⟨?_, by simp⟩, ?_⟩
      · rcases ih.1 with ⟨h, -⟩ | ⟨h, -⟩
        · rw [h] at hb; exact hb
        · exact htr _ _ _ hb h
      · intro p hp
        simp only [improvements_append, improvements_query_some, improvements_update,
          improvements_nil, List.mem_append, List.mem_singleton] at hp
        rcases hp with hp | rfl
        · rcases ih.2 p hp with h | h
          · exact .inr (h ▸ hb)
          · exact .inr (htr _ _ _ hb h)
        · exact .inl rfl

/-- C06.  If the oracle only reports strictly better values, the returned `t` is at least as good as
everything reported and as the initial value, and `feasible` says exactly whether there is a
solution.  `better` is `<` for minimisation, `>` for maximisation. -/
theorem C06_dc_monotone {better : T → T → Prop}
    (htr : ∀ a b c, better a b → better b c → better a c) (hirr : ∀ a, ¬ better a a)
    (hΩ : ∀ x s u u' c t', Ω x s u = .ok (u', c, some t') → better t' s)
    (h : cuttingPlaneDc (logDc Ω) (logSpace (X × T) (C × Option T) S) t0 o (w, []) =
      .ok ((w', log), xb, t, info)) :
    (t = t0 ∨ better t t0) ∧ (∀ p ∈ improvements log, t = p.2 ∨ better t p.2) ∧
    (info.feasible = true ↔ xb ≠ none) := by
  obtain ⟨ho, ⟨h1, h2⟩, h3⟩ := dc_outcome h
  have hchain : (bestT t0 log = t0 ∧ improvements log = [] ∨
      better (bestT t0 log) t0 ∧ improvements log ≠ []) ∧
      ∀ p ∈ improvements log, bestT t0 log = p.2 ∨ better (bestT t0 log) p.2 := by
    generalize info.numIters = k at ho
    generalize info.status = st at ho
    have aux : ∀ {k l v w1 w2 c t1 st tsq}, DcRounds Ω S o.tol t0 w k l v →
        Ω (S.xc v) (bestT t0 l) v = .ok (w1, c, t1) →
        let l' := l ++ [Event.query v (S.xc v, bestT t0 l) (c, t1) w1, Event.update w1 c st tsq w2]
        (bestT t0 l' = t0 ∧ improvements l' = [] ∨ better (bestT t0 l') t0 ∧ improvements l' ≠ []) ∧
        ∀ p ∈ improvements l', bestT t0 l' = p.2 ∨ better (bestT t0 l') p.2 := by
      intro k l v w1 w2 c t1 st tsq hr hq
      have ih := improvements_chain htr hΩ hr
      cases t1 with
      | none => simpa [bestT] using ih
      | some t' =>
        have hb := hΩ _ _ _ _ _ _ hq
        have hbt : bestT t0 (l ++ [Event.query v (S.xc v, bestT t0 l) (c, some t') w1,
          Event.update w1 c st tsq w2]) = t' := by simp [bestT]
        dsimp only
        rw [hbt]
        refine ⟨.inr ⟨?_, by simp⟩, ?_⟩
        · rcases ih.1 with ⟨h, -⟩ | ⟨h, -⟩
          · rw [h] at hb; exact hb
          · exact htr _ _ _ hb h
        · intro p hp
          simp only [improvements_append, improvements_query_some, improvements_update,
            improvements_nil, List.mem_append, List.mem_singleton] at hp
          rcases hp with hp | rfl
          · rcases ih.2 p hp with h | h
            · exact .inr (h ▸ hb)
            · exact .inr (htr _ _ _ hb h)
          · exact .inl rfl
    cases ho with
    | stopped hp hi hq hu hne => exact aux hp hq
    | small hp hi hq hu ht => exact aux hp hq
    | exhausted hp hi hk => exact improvements_chain htr hΩ hp
  refine ⟨?_, ?_, ?_⟩
  · rw [h1]; rcases hchain.1 with h | h
    · exact .inl h.1
    · exact .inr h.1
  · rw [h1]; exact hchain.2
  · rw [h3, h2, h1]
    rcases hchain.1 with ⟨ha, hb⟩ | ⟨ha, hb⟩
    · simp [ha, hb]
    · have : bestT t0 log ≠ t0 := fun he => hirr _ (he ▸ ha)
      simp [this, hb]

/-- C07.  Optimality certificate.  `adm t` is the set of points strictly better than `t`. -/
theorem C07_dc_certificate {P : Type _} {Inv : W → Prop} {mem : W → Set P} {sat : X → C → Set P}
    (adm : T → Set P) (hS : SoundSpace S Inv mem sat) (hΩ : ∀ x s, Frame S Inv mem (Ω x s))
    (hmono : ∀ x s u u' c t', Ω x s u = .ok (u', c, some t') → adm t' ⊆ adm s)
    (hvalid : ∀ s u u' c t1, Inv u → Ω (S.xc u) s u = .ok (u', c, t1) →
      ∀ p ∈ adm (t1.getD s), p ∈ sat (S.xc u) c)
    (hw : Inv w) (h : cuttingPlaneDc Ω S t0 o w = .ok (w', xb, t, info)) :
    (∀ p ∈ adm t, p ∈ mem w → p ∈ mem w') ∧ Inv w' ∧ adm t ⊆ adm t0 ∧
    (info.status = .nosoln → ∀ p ∈ mem w, p ∉ adm t) := by
  obtain ⟨s, i, hf, rfl, rfl, rfl, rfl⟩ := dc_ok h
  have hafter : ∀ (s : DcSt W X T) w1 t1, (dcAfter S s w1 t1).t = t1.getD s.t := by
    intro s w1 t1; cases t1 <;> rfl
  have step : ∀ (s : DcSt W X T) u1 c t1 u2 st tsq, Inv s.w → Ω (S.xc s.w) s.t s.w = .ok (u1, c, t1) →
      S.update c u1 = .ok (u2, st, tsq) →
      Inv u2 ∧ (∀ p ∈ adm (t1.getD s.t), p ∈ mem s.w → p ∈ mem u2) ∧
      adm (t1.getD s.t) ⊆ adm s.t ∧
      (st = .nosoln → ∀ p ∈ adm (t1.getD s.t), p ∉ mem s.w) := by
    intro s u1 c t1 u2 st tsq hu hq hup
    have hx := (hΩ _ _).xc _ _ _ hq
    have hm := (hΩ _ _).mem _ _ _ hq
    have hi := (hΩ _ _).inv _ _ _ hu hq
    refine ⟨hS.inv _ _ _ _ _ hi hup, fun p hp hpm => ?_, ?_, ?_⟩
    · exact hS.keep _ _ _ _ _ hi hup p (hm ▸ hpm) (hx ▸ hvalid _ _ _ _ _ hu hq p hp)
    · cases t1 with
      | none => exact subset_rfl
      | some t' => exact hmono _ _ _ _ _ _ hq
    · rintro rfl p hp hpm
      exact hS.nosoln _ _ _ _ hi hup p (hm ▸ hpm) (hx ▸ hvalid _ _ _ _ _ hu hq p hp)
  have key : ∀ {j s1}, Rounds (dcBody Ω S o.tol) 0 ⟨w, none, t0, .success⟩ j s1 →
      (∀ p ∈ adm s1.t, p ∈ mem w → p ∈ mem s1.w) ∧ Inv s1.w ∧ adm s1.t ⊆ adm t0 ∧
        s1.status = .success := by
    intro j s1 hr
    refine Rounds.inv (fun j s1 => (∀ p ∈ adm s1.t, p ∈ mem w → p ∈ mem s1.w) ∧ Inv s1.w ∧
      adm s1.t ⊆ adm t0 ∧ s1.status = .success) ⟨fun _ _ h => h, hw, subset_rfl, rfl⟩ ?_ hr
    rintro j s s' ⟨h1, h2, h3, h4⟩ hb
    obtain ⟨w1, c, t1, w2, tsq, hq, hu, ht, rfl⟩ := dcBody_cont hb
    obtain ⟨a, b, d, -⟩ := step _ _ _ _ _ _ _ h2 hq hu
    dsimp only
    rw [hafter]
    refine ⟨fun p hp hpm => b p hp (h1 p (d hp) hpm), a, d.trans h3, ?_⟩
    cases t1 <;> exact h4
  rcases forRange_ok hf with ⟨s1, hi, hr, hb⟩ | ⟨hi, hr⟩
  · obtain ⟨h1, h2, h3, h4⟩ := key hr
    obtain ⟨w1, c, t1, w2, st, tsq, hq, hu, ⟨hne, rfl⟩ | ⟨rfl, ht, rfl⟩⟩ := dcBody_brk hb
    · obtain ⟨a, b, d, e⟩ := step _ _ _ _ _ _ _ h2 hq hu
      dsimp only
      rw [hafter]
      exact ⟨fun p hp hpm => b p hp (h1 p (d hp) hpm), a, d.trans h3,
        fun hst p hpm hp => e hst p hp (h1 p (d hp) hpm)⟩
    · obtain ⟨a, b, d, e⟩ := step _ _ _ _ _ _ _ h2 hq hu
      dsimp only
      rw [hafter]
      exact ⟨fun p hp hpm => b p hp (h1 p (d hp) hpm), a, d.trans h3, by simp⟩
  · obtain ⟨h1, h2, h3, h4⟩ := key hr
    exact ⟨h1, h2, h3, by simp [h4]⟩

end Verif
