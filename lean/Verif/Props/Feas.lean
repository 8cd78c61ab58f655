import Verif.Proofs.Feas
import Verif.Spec.Sound

/-! # C01-C04: `cutting_plane_feas` -/
namespace Verif
variable {W X C α : Type _} [LT α] [DecidableLT α]

section
omit [DecidableLT α]

private theorem PassingRounds.no_none {Ω : X → W → Except PyErr (W × Option C)} {S : Space W X C α}
    {tol : α} {w0 k l w} (h : PassingRounds Ω S tol w0 k l w) :
    ∀ w1 x w2, Event.query w1 x none w2 ∉ l := by
  induction h with
  | nil => simp
  | snoc _ _ _ _ ih => intro w1 x w2; simp [ih]

private theorem PassingRounds.counts {Ω : X → W → Except PyErr (W × Option C)} {S : Space W X C α}
    {tol : α} {w0 k l w} (h : PassingRounds Ω S tol w0 k l w) :
    l.countP Event.isQuery = k ∧ l.countP Event.isUpdate = k := by
  induction h with
  | nil => simp
  | snoc _ _ _ _ ih => simp [List.countP_append, List.countP_cons, Event.isQuery, Event.isUpdate, ih]

private theorem PassingRounds.all {Ω : X → W → Except PyErr (W × Option C)} {S : Space W X C α}
    {tol : α} {w0 k l w} (h : PassingRounds Ω S tol w0 k l w) :
    ∀ w1 c st tsq w2, Event.update w1 c st tsq w2 ∈ l → st = .success ∧ ¬ tsq < tol := by
  induction h with
  | nil => simp
  | snoc _ _ _ ht ih =>
    intro w1 c st tsq w2 hm
    rcases List.mem_append.1 hm with hm | hm
    · exact ih _ _ _ _ _ hm
    · simp only [List.mem_cons, reduceCtorEq, Event.update.injEq, List.not_mem_nil, or_false,
        false_or] at hm
      obtain ⟨-, -, rfl, rfl, -⟩ := hm
      exact ⟨rfl, ht⟩

private theorem PassingRounds.last {Ω : X → W → Except PyErr (W × Option C)} {S : Space W X C α}
    {tol : α} {w0 k l w} (h : PassingRounds Ω S tol w0 k l w) (hk : 0 < k) :
    ∃ w1 c tsq, l.getLast? = some (.update w1 c .success tsq w) ∧ ¬ tsq < tol := by
  cases h with
  | nil => omega
  | snoc _ _ _ ht => exact ⟨_, _, _, by simp; exact ⟨rfl, rfl⟩, ht⟩

end

variable {Ω : X → W → Except PyErr (W × Option C)} {S : Space W X C α} {o : Options α} {w w' : W}
  {log : List (FeasEvent W X C α)} {info : CInfo}

/-- C01.  `feasible = True` iff the last query was answered `None`; that query was made at the centre
at that time, nothing happened afterwards, and the status is `success`. -/
theorem C01_feas_accepted
    (h : cuttingPlaneFeas (logFeas Ω) (logSpace X (Option C) S) o (w, []) = .ok ((w', log), info)) :
    (info.feasible = true → info.status = .success ∧
      ∃ l w1, log = l ++ [.query w1 (S.xc w1) none w'] ∧ Ω (S.xc w1) w1 = .ok (w', none) ∧
        ∀ w2 x w3, Event.query w2 x none w3 ∉ l) ∧
    (info.feasible = false → ∀ w2 x w3, Event.query w2 x none w3 ∉ log) := by
  cases feas_outcome h with
  | accepted hp hi hq => exact ⟨fun _ => ⟨rfl, _, _, rfl, hq, hp.no_none⟩, by simp⟩
  | stopped hp hi hq hu hne =>
    exact ⟨by simp, fun _ w2 x w3 => by simp [hp.no_none]⟩
  | small hp hi hq hu ht =>
    exact ⟨by simp, fun _ w2 x w3 => by simp [hp.no_none]⟩
  | exhausted hp hi hk => exact ⟨by simp, fun _ => hp.no_none⟩

/-- C01, caller's view: on the driver itself, if the oracle does not modify the search space's centre,
`feasible = True` means that the oracle answers `None` at the very centre the caller finds in `S`. -/
theorem C01_feas_point
    (hfr : ∀ x u u' a, Ω x u = .ok (u', a) → S.xc u' = S.xc u)
    (h : cuttingPlaneFeas Ω S o w = .ok (w', info)) (hf : info.feasible = true) :
    ∃ u, Ω (S.xc w') u = .ok (w', none) := by
  have ht := feas_log_transparent Ω S o w
  rw [h] at ht
  cases hl : cuttingPlaneFeas (logFeas Ω) (logSpace X (Option C) S) o (w, []) with
  | error e => rw [hl] at ht; exact ht.elim
  | ok r =>
    obtain ⟨⟨w2, log⟩, info2⟩ := r
    rw [hl] at ht
    obtain ⟨h1, h2⟩ := ht
    dsimp only at h1 h2
    subst h1 h2
    obtain ⟨-, l, w1, -, hq, -⟩ := (C01_feas_accepted hl).1 hf
    exact ⟨w1, by rw [hfr _ _ _ _ hq]; exact hq⟩

/-- C02 (accounting). -/
theorem C02_feas_accounting
    (h : cuttingPlaneFeas (logFeas Ω) (logSpace X (Option C) S) o (w, []) = .ok ((w', log), info)) :
    1 ≤ info.numIters ∧ (info.numIters : Int) ≤ o.maxIt ∧
    log.countP Event.isQuery = info.numIters ∧
    log.countP Event.isUpdate + (if info.feasible then 1 else 0) = info.numIters := by
  cases feas_outcome h with
  | accepted hp hi hq =>
    have := hp.counts
    refine ⟨by simp, by push_cast; omega, ?_, ?_⟩ <;>
      simp [List.countP_append, List.countP_cons, Event.isQuery, Event.isUpdate, this]
  | stopped hp hi hq hu hne =>
    have := hp.counts
    refine ⟨by simp, by push_cast; omega, ?_, ?_⟩ <;>
      simp [List.countP_append, List.countP_cons, Event.isQuery, Event.isUpdate, this]
  | small hp hi hq hu ht =>
    have := hp.counts
    refine ⟨by simp, by push_cast; omega, ?_, ?_⟩ <;>
      simp [List.countP_append, List.countP_cons, Event.isQuery, Event.isUpdate, this]
  | exhausted hp hi hk =>
    have := hp.counts
    exact ⟨hk, le_of_eq hi, this.1, by simpa using this.2⟩

/-- C02 (empty range).  With `max_it ≤ 0` the call raises `UnboundLocalError`, whatever the oracle and
the space are (in particular even if every call of them would raise, so none is made). -/
theorem C02_feas_empty_range (Ω : X → W → Except PyErr (W × Option C)) (S : Space W X C α)
    (ho : o.maxIt ≤ 0) : cuttingPlaneFeas Ω S o w = .error .unboundLocal := by
  have : o.maxIt.toNat = 0 := by omega
  simp [cuttingPlaneFeas, forRange, this, forLoop, readVar]

/-- C02 (the only exceptions are those of the oracle and of the space). -/
theorem C02_feas_total (Inv : W → Prop) (ho : 0 < o.maxIt)
    (hΩ : ∀ u, Inv u → ∃ u' a, Ω (S.xc u) u = .ok (u', a) ∧ Inv u')
    (hS : ∀ u c, Inv u → ∃ u' st tsq, S.update c u = .ok (u', st, tsq) ∧ Inv u') (hw : Inv w) :
    ∃ w' info, cuttingPlaneFeas Ω S o w = .ok (w', info) := by
  have hb : ∀ i (s : FeasSt W), Inv s.w → ∃ st, feasBody Ω S o.tol i s = .ok st ∧
      ∀ s', st = .cont s' → Inv s'.w := by
    intro i s hs
    obtain ⟨w1, a, hq, h1⟩ := hΩ s.w hs
    cases a with
    | none => simp only [feasBody, hq]; exact ⟨_, rfl, by simp⟩
    | some c =>
      obtain ⟨w2, st, tsq, hu, h2⟩ := hS w1 c h1
      simp only [feasBody, hq, hu]
      split_ifs
      · exact ⟨_, rfl, by simp⟩
      · exact ⟨_, rfl, by simp⟩
      · refine ⟨_, rfl, fun s' hs' => ?_⟩
        simp only [Step.cont.injEq] at hs'
        subst hs'; exact h2
  obtain ⟨⟨s, l⟩, hr⟩ := forLoop_total (fun s : FeasSt W => Inv s.w) hb
    o.maxIt.toNat 0 none ⟨w, false, .success⟩ hw
  obtain ⟨j, rfl⟩ := forLoop_last_some (by omega) hr
  exact ⟨s.w, ⟨s.feasible, j + 1, s.status⟩, by simp only [cuttingPlaneFeas, forRange, hr, readVar]⟩

/-- C03.  The meaning of every exit status, in terms of the last call of `S.update`. -/
theorem C03_feas_status
    (h : cuttingPlaneFeas (logFeas Ω) (logSpace X (Option C) S) o (w, []) = .ok ((w', log), info)) :
    (∀ st, st = .nosoln ∨ st = .noeffect →
      (info.status = st ↔ ∃ u c tsq, log.getLast? = some (.update u c st tsq w'))) ∧
    (info.status = .smallenough ↔ ∃ u c st tsq, log.getLast? = some (.update u c st tsq w') ∧
      (st = .smallenough ∨ st = .success ∧ tsq < o.tol)) ∧
    (info.status = .success ∧ info.feasible = false ↔
      (info.numIters : Int) = o.maxIt ∧ log.countP Event.isUpdate = info.numIters ∧
      ∀ u c st tsq u', Event.update u c st tsq u' ∈ log → st = .success ∧ ¬ tsq < o.tol) := by
  cases feas_outcome h with
  | accepted hp hi hq =>
    refine ⟨?_, ?_, ?_⟩
    · rintro st (rfl | rfl) <;> simp
    · simp
    · have := hp.counts
      simp [List.countP_append, Event.isUpdate, this]
  | @stopped k l u w1 w2 c st tsq hp hi hq hu hne =>
    refine ⟨?_, ?_, ?_⟩
    · rintro st' (rfl | rfl) <;> simp
    · simp only [List.getLast?_append, List.getLast?_cons_cons, List.getLast?_singleton,
        Option.some_or, Option.some.injEq, Event.update.injEq]
      constructor
      · rintro rfl
        exact ⟨_, _, _, _, ⟨rfl, rfl, rfl, rfl, trivial⟩, .inl rfl⟩
      · rintro ⟨_, _, _, _, ⟨-, -, rfl, rfl, -⟩, h | h⟩
        · exact h
        · exact absurd h.1 hne
    · constructor
      · rintro ⟨h, -⟩; exact absurd h hne
      · rintro ⟨-, -, h⟩
        exact absurd (h w1 c st tsq w' (by simp)).1 hne
  | @small k l u w1 w2 c tsq hp hi hq hu ht =>
    refine ⟨?_, ?_, ?_⟩
    · rintro st' (rfl | rfl) <;> simp
    · simp only [List.getLast?_append, List.getLast?_cons_cons, List.getLast?_singleton,
        Option.some_or, Option.some.injEq, Event.update.injEq, true_iff]
      exact ⟨_, _, _, _, ⟨rfl, rfl, rfl, rfl, trivial⟩, .inr ⟨rfl, ht⟩⟩
    · constructor
      · rintro ⟨h, -⟩; exact absurd h (by simp)
      · rintro ⟨-, -, h⟩
        exact absurd ht (h w1 c .success tsq w' (by simp)).2
  | exhausted hp hi hk =>
    obtain ⟨u, c, tsq, hl, ht⟩ := hp.last hk
    refine ⟨?_, ?_, ?_⟩
    · rintro st' (rfl | rfl) <;> simp [hl]
    · simp only [reduceCtorEq, hl, Option.some.injEq, Event.update.injEq, false_iff, not_exists]
      rintro _ _ _ _ ⟨⟨-, -, rfl, rfl, -⟩, h | h⟩
      · exact absurd h (by simp)
      · exact ht h.2
    · simp only [and_self, true_iff]
      exact ⟨hi, hp.counts.2, hp.all⟩

/-- Recording is transparent: the statements on the recorded run are statements about the run. -/
theorem C01_C03_recording_transparent (Ω : X → W → Except PyErr (W × Option C)) (S : Space W X C α)
    (o : Options α) (w : W) :
    (cuttingPlaneFeas (logFeas Ω) (logSpace X (Option C) S) o (w, [])).map (fun r => (r.1.1, r.2)) =
      cuttingPlaneFeas Ω S o w := by
  have := feas_log_transparent Ω S o w
  revert this
  cases cuttingPlaneFeas (logFeas Ω) (logSpace X (Option C) S) o (w, []) <;>
    cases cuttingPlaneFeas Ω S o w <;> intro h
  · simp only [RelE] at h; subst h; rfl
  · exact h.elim
  · exact h.elim
  · obtain ⟨h1, h2⟩ := h
    simp [Except.map, h1, h2]

/-- C04.  With valid cuts and a sound space, no point of `K` that was in the initial space is lost, and
`nosoln` certifies that there was none. -/
theorem C04_feas_certificate {P : Type _} {Inv : W → Prop} {mem : W → Set P} {sat : X → C → Set P}
    (K : Set P) (hS : SoundSpace S Inv mem sat) (hΩ : ∀ x, Frame S Inv mem (Ω x))
    (hvalid : ∀ u u' c, Inv u → Ω (S.xc u) u = .ok (u', some c) → ∀ p ∈ K, p ∈ sat (S.xc u) c)
    (hw : Inv w) (h : cuttingPlaneFeas Ω S o w = .ok (w', info)) :
    (∀ p ∈ K, p ∈ mem w → p ∈ mem w') ∧ Inv w' ∧
    (info.status = .nosoln → ∀ p ∈ K, p ∉ mem w) := by
  obtain ⟨s, i, hf, rfl, rfl⟩ := feas_ok h
  have step : ∀ u u1 c u2 st tsq, Inv u → Ω (S.xc u) u = .ok (u1, some c) →
      S.update c u1 = .ok (u2, st, tsq) →
      Inv u2 ∧ (∀ p ∈ K, p ∈ mem u → p ∈ mem u2) ∧
      (st = .nosoln → ∀ p ∈ K, p ∉ mem u) := by
    intro u u1 c u2 st tsq hu hq hup
    have hx := (hΩ _).xc _ _ _ hq
    have hm := (hΩ _).mem _ _ _ hq
    have hi := (hΩ _).inv _ _ _ hu hq
    refine ⟨hS.inv _ _ _ _ _ hi hup, fun p hp hpm => ?_, ?_⟩
    · exact hS.keep _ _ _ _ _ hi hup p (hm ▸ hpm) (hx ▸ hvalid _ _ _ hu hq p hp)
    · rintro rfl p hp hpm
      exact hS.nosoln _ _ _ _ hi hup p (hm ▸ hpm) (hx ▸ hvalid _ _ _ hu hq p hp)
  have key : ∀ {j s1}, Rounds (feasBody Ω S o.tol) 0 ⟨w, false, .success⟩ j s1 →
      (∀ p ∈ K, p ∈ mem w → p ∈ mem s1.w) ∧ Inv s1.w ∧ s1.status = .success := by
    intro j s1 hr
    refine Rounds.inv (fun j s1 => (∀ p ∈ K, p ∈ mem w → p ∈ mem s1.w) ∧ Inv s1.w ∧
      s1.status = .success) ⟨fun _ _ h => h, hw, rfl⟩ ?_ hr
    rintro j s s' ⟨h1, h2, h3⟩ hb
    obtain ⟨w1, c, w2, tsq, hq, hu, ht, rfl⟩ := feasBody_cont hb
    obtain ⟨a, b, -⟩ := step _ _ _ _ _ _ h2 hq hu
    exact ⟨fun p hp hpm => b p hp (h1 p hp hpm), a, h3⟩
  rcases forRange_ok hf with ⟨s1, hi, hr, hb⟩ | ⟨hi, hr⟩
  · obtain ⟨h1, h2, h3⟩ := key hr
    rcases feasBody_brk hb with ⟨w1, hq, rfl⟩ | ⟨w1, c, w2, st, tsq, hq, hu, hne, rfl⟩ |
      ⟨w1, c, w2, tsq, hq, hu, ht, rfl⟩
    · refine ⟨fun p hp hpm => ?_, (hΩ _).inv _ _ _ h2 hq, ?_⟩
      · show p ∈ mem w1
        rw [(hΩ _).mem _ _ _ hq]; exact h1 p hp hpm
      · simp [h3]
    · obtain ⟨a, b, c⟩ := step _ _ _ _ _ _ h2 hq hu
      exact ⟨fun p hp hpm => b p hp (h1 p hp hpm), a, fun hst p hp hpm => c hst p hp (h1 p hp hpm)⟩
    · obtain ⟨a, b, c⟩ := step _ _ _ _ _ _ h2 hq hu
      exact ⟨fun p hp hpm => b p hp (h1 p hp hpm), a, by simp⟩
  · obtain ⟨h1, h2, h3⟩ := key hr
    exact ⟨h1, h2, by simp [h3]⟩

end Verif
