import Verif.Proofs.Q
import Verif.Spec.Sound

/-! # C09, C10 (and C68): `cutting_plane_q` -/
namespace Verif
variable {W X C α T X0 Y : Type _} [LT α] [DecidableLT α]

section
omit [DecidableLT α]
variable {Ω : X → T → Bool → W → Except PyErr (W × C × X0 × Option T × Bool)} {copy : X0 → W → Y}
  {S : Space W X C α} {tol : α} {t0 : T} {w0 : W}

private theorem QRounds.counts {k l w} (h : QRounds Ω copy S tol t0 w0 k l w) :
    l.countP Event.isQuery = k ∧ l.countP Event.isUpdate = k := by
  induction h with
  | nil => simp
  | snoc _ _ _ _ _ _ ih =>
    simp [List.countP_append, List.countP_cons, Event.isQuery, Event.isUpdate, ih]

omit [LT α] in
/-- One more round appended to a history: split a decomposition of it. -/
private theorem split_round {l l1 l2 : List (QEvent W X C α T X0)} {w q a w1 c st tsq w2 u q' a' u'}
    (h : l ++ [Event.query w q a w1, Event.update w1 c st tsq w2] = l1 ++ Event.query u q' a' u' :: l2) :
    (l1 = l ∧ u = w ∧ q' = q ∧ a' = a ∧ u' = w1 ∧ l2 = [Event.update w1 c st tsq w2]) ∨
    ∃ l3, l = l1 ++ Event.query u q' a' u' :: l3 ∧
      l2 = l3 ++ [Event.query w q a w1, Event.update w1 c st tsq w2] := by
  rcases List.append_eq_append_iff.1 h with ⟨as, rfl, h2⟩ | ⟨as, rfl, h2⟩
  · cases as with
    | nil =>
      simp only [List.nil_append, List.cons.injEq, Event.query.injEq] at h2
      obtain ⟨⟨rfl, rfl, rfl, rfl⟩, rfl⟩ := h2
      exact .inl (by simp)
    | cons a as =>
      cases as with
      | nil => simp at h2
      | cons b as => simp at h2
  · cases as with
    | nil =>
      simp only [List.nil_append, List.cons.injEq, Event.query.injEq] at h2
      obtain ⟨⟨rfl, rfl, rfl, rfl⟩, rfl⟩ := h2
      exact .inl (by simp)
    | cons b as =>
      simp only [List.cons_append, List.cons.injEq] at h2
      obtain ⟨rfl, rfl⟩ := h2
      exact .inr ⟨as, rfl, rfl⟩

/-- Protocol of a history: arguments of every query, and no passing round is one that must stop. -/
private theorem QRounds.protocol {k l w} (h : QRounds Ω copy S tol t0 w0 k l w) :
    ∀ l1 l2 u q a u', l = l1 ++ Event.query u q a u' :: l2 →
      q = (S.xc u, bestTQ copy t0 l1, endsNoEffect l1) ∧ Ω (S.xc u) q.2.1 q.2.2 u = .ok (u', a) ∧
      ∃ st tsq u'' l3, l2 = Event.update u' a.1 st tsq u'' :: l3 ∧ st ≠ .nosoln ∧
        (st = .noeffect → a.2.2.2 = true) ∧ ¬ tsq < tol := by
  induction h with
  | nil => intro l1 l2 u q a u' h; simp at h
  | @snoc k l w w1 w2 c x0 t1 alt st tsq hr hq hu hns hne ht ih =>
    intro l1 l2 u q a u' h
    rcases split_round h with ⟨rfl, rfl, rfl, rfl, rfl, rfl⟩ | ⟨l3, rfl, rfl⟩
    · exact ⟨rfl, hq, st, tsq, w2, [], rfl, hns, hne, ht⟩
    · obtain ⟨h1, h2, st', tsq', u'', l4, rfl, h3⟩ := ih _ _ _ _ _ _ rfl
      exact ⟨h1, h2, st', tsq', u'', _, rfl, h3⟩

end

variable [DecidableEq T] {Ω : X → T → Bool → W → Except PyErr (W × C × X0 × Option T × Bool)}
  {copy : X0 → W → Y} {S : Space W X C α} {o : Options α} {w w' : W} {t0 t : T} {xb : Option Y}
  {log : List (QEvent W X C α T X0)} {info : CInfo}

/-- C09.  Every query is made at the current centre, with the best-so-far value and with `retry = True`
exactly when the immediately preceding update had no effect (so `False` on the first call).  The
round is followed by exactly one update with the returned cut.  If that update has no effect then the
run goes on exactly if an alternative was announced and `tsq ≥ tol`. -/
theorem C09_q_retry_protocol
    (h : cuttingPlaneQ (logQ Ω) (fun x wl => copy x wl.1)
      (logSpace (X × T × Bool) (C × X0 × Option T × Bool) S) t0 o (w, []) =
      .ok ((w', log), xb, t, info)) :
    ∀ l1 l2 u q a u', log = l1 ++ Event.query u q a u' :: l2 →
      q.1 = S.xc u ∧ q.2.1 = bestTQ copy t0 l1 ∧
      (q.2.2 = true ↔ ∃ v c tsq, l1.getLast? = some (.update v c .noeffect tsq u)) ∧
      Ω (S.xc u) q.2.1 q.2.2 u = .ok (u', a) ∧
      ∃ st tsq u'' l3, l2 = Event.update u' a.1 st tsq u'' :: l3 ∧
        (l3 ≠ [] → st ≠ .nosoln ∧ (st = .noeffect → a.2.2.2 = true) ∧ ¬ tsq < o.tol) ∧
        (l3 = [] → (info.numIters : Int) = o.maxIt ∨ st = .nosoln ∨ tsq < o.tol ∨
          st = .noeffect ∧ a.2.2.2 = false) := by
  obtain ⟨ho, -, -⟩ := q_outcome h
  -- adjacency: a history ending in an update ends in the current world
  have adj : ∀ {k l v}, QRounds Ω copy S o.tol t0 w k l v →
      (endsNoEffect l = true ↔ ∃ v' c tsq, l.getLast? = some (.update v' c .noeffect tsq v)) := by
    intro k l v hr
    cases hr with
    | nil => simp [endsNoEffect]
    | @snoc k l w1 w2 w3 c x0 t1 alt st tsq _ _ _ _ _ _ =>
      cases st <;> simp [endsNoEffect]
  have adjAll : ∀ {k l v}, QRounds Ω copy S o.tol t0 w k l v → ∀ l1 l2 u q a u',
      l = l1 ++ Event.query u q a u' :: l2 →
      (endsNoEffect l1 = true ↔ ∃ v' c tsq, l1.getLast? = some (.update v' c .noeffect tsq u)) := by
    intro k l v hr
    induction hr with
    | nil => intro l1 l2 u q a u' h; simp at h
    | snoc hr hq hu hns hne ht ih =>
      intro l1 l2 u q a u' h
      rcases split_round h with ⟨rfl, rfl, rfl, rfl, rfl, rfl⟩ | ⟨l3, rfl, rfl⟩
      · exact adj hr
      · exact ih _ _ _ _ _ _ rfl
  generalize hk : info.numIters = n at ho
  generalize info.status = fst at ho
  intro l1 l2 u q a u' hl
  cases ho with
  | @stopped k l v w1 w2 c x0 t1 alt st st' tsq hr hi hq hu hcase =>
    rcases split_round hl with ⟨rfl, rfl, rfl, rfl, rfl, rfl⟩ | ⟨l3, rfl, rfl⟩
    · refine ⟨rfl, rfl, adj hr, hq, st, tsq, w', [], rfl, by simp, fun _ => ?_⟩
      rcases hcase with ⟨h1, h2, -⟩ | ⟨h1, -⟩ | ⟨-, -, h3, -⟩
      · exact .inr (.inr (.inr ⟨h1, h2⟩))
      · exact .inr (.inl h1)
      · exact .inr (.inr (.inl h3))
    · obtain ⟨rfl, h2, st', tsq', u'', l4, rfl, h3⟩ := hr.protocol _ _ _ _ _ _ rfl
      exact ⟨rfl, rfl, adjAll hr _ _ _ _ _ _ rfl, h2, st', tsq', u'', _, rfl, fun _ => h3, by simp⟩
  | exhausted hr hi hk' hlast =>
    obtain ⟨rfl, h2, st', tsq', u'', l4, rfl, h3⟩ := hr.protocol _ _ _ _ _ _ hl
    exact ⟨rfl, rfl, adjAll hr _ _ _ _ _ _ hl, h2, st', tsq', u'', _, rfl, fun _ => h3,
      fun _ => .inl (by omega)⟩

/-- C10.  Results and accounting.  `x_best` is a value (a private copy), determined by the history up
to the improving call. -/
theorem C10_q_results
    (h : cuttingPlaneQ (logQ Ω) (fun x wl => copy x wl.1)
      (logSpace (X × T × Bool) (C × X0 × Option T × Bool) S) t0 o (w, []) =
      .ok ((w', log), xb, t, info)) :
    ((improvementsQ copy log = [] → xb = none ∧ t = t0) ∧
     (∀ l y t', improvementsQ copy log = l ++ [(y, t')] → xb = some y ∧ t = t')) ∧
    (info.feasible = true ↔ t ≠ t0) ∧
    1 ≤ info.numIters ∧ (info.numIters : Int) ≤ o.maxIt ∧
    log.countP Event.isQuery = info.numIters ∧ log.countP Event.isUpdate = info.numIters ∧
    ∃ u c st tsq, log.getLast? = some (.update u c st tsq w') ∧
      (info.status = st ∨ info.status = .smallenough ∧ tsq < o.tol ∧ st ≠ .nosoln) ∧
      (info.status = st → st = .noeffect ∨ st = .nosoln ∨ (info.numIters : Int) = o.maxIt ∨
        st = .smallenough) := by
  obtain ⟨ho, ⟨h1, h2⟩, h3⟩ := q_outcome h
  refine ⟨⟨fun h => ?_, fun l u t' h => ?_⟩, by simp [h3], ?_⟩
  · rw [h1, h2, bestTQ, h]; exact ⟨rfl, rfl⟩
  · rw [h1, h2, bestTQ, h]; simp
  · generalize info.numIters = n at ho
    generalize info.status = fst at ho
    cases ho with
    | @stopped k l v w1 w2 c x0 t1 alt st st' tsq hr hi hq hu hcase =>
      have := hr.counts
      refine ⟨by simp, by push_cast; omega, ?_, ?_, w1, c, st, tsq, by simp, ?_, ?_⟩
      · simp [List.countP_append, List.countP_cons, Event.isQuery, this]
      · simp [List.countP_append, List.countP_cons, Event.isUpdate, this]
      · rcases hcase with ⟨h1, h2, h3⟩ | ⟨h1, h2⟩ | ⟨h1, -, h3, h4⟩
        · exact .inl (by rw [h1, h3])
        · exact .inl (by rw [h1, h2])
        · exact .inr ⟨h4, h3, h1⟩
      · rintro rfl
        rcases hcase with ⟨h1, h2, h3⟩ | ⟨h1, h2⟩ | ⟨h1, -, h3, h4⟩
        · exact .inl h1
        · exact .inr (.inl h1)
        · exact .inr (.inr (.inr h4))
    | @exhausted k l v st hr hi hk hlast =>
      have := hr.counts
      obtain ⟨w1, c, tsq, hl⟩ := hlast
      exact ⟨hk, le_of_eq hi, this.1, this.2, w1, c, _, tsq, hl, .inl rfl,
        fun _ => .inr (.inr (.inl hi))⟩

/-- The empty range raises. -/
theorem C10_q_empty_range (Ω : X → T → Bool → W → Except PyErr (W × C × X0 × Option T × Bool))
    (S : Space W X C α) (ho : o.maxIt ≤ 0) :
    cuttingPlaneQ Ω copy S t0 o w = .error .unboundLocal := by
  have : o.maxIt.toNat = 0 := by omega
  simp [cuttingPlaneQ, forRange, this, forLoop, readVar]

/-- Recording is transparent. -/
theorem C10_recording_transparent
    (Ω : X → T → Bool → W → Except PyErr (W × C × X0 × Option T × Bool))
    (copy : X0 → W → Y) (S : Space W X C α) (t0 : T) (o : Options α) (w : W) :
    (cuttingPlaneQ (logQ Ω) (fun x wl => copy x wl.1)
      (logSpace (X × T × Bool) (C × X0 × Option T × Bool) S) t0 o (w, [])).map
      (fun r => (r.1.1, r.2)) = cuttingPlaneQ Ω copy S t0 o w := q_log_transparent Ω copy S t0 o w

/-- C68.  Optimality certificate for the discrete driver: with cuts valid for every point strictly
better than the best-so-far value, no such point leaves the search space; `nosoln` certifies that
none was in the initial space. -/
theorem C68_q_certificate {P : Type _} {Inv : W → Prop} {mem : W → Set P} {sat : X → C → Set P}
    (adm : T → Set P) (hS : SoundSpace S Inv mem sat) (hΩ : ∀ x s r, Frame S Inv mem (Ω x s r))
    (hmono : ∀ x s r u u' c x0 t' b, Ω x s r u = .ok (u', c, x0, some t', b) → adm t' ⊆ adm s)
    (hvalid : ∀ s r u u' c x0 t1 b, Inv u → Ω (S.xc u) s r u = .ok (u', c, x0, t1, b) →
      ∀ p ∈ adm (t1.getD s), p ∈ sat (S.xc u) c)
    (hw : Inv w) (h : cuttingPlaneQ Ω copy S t0 o w = .ok (w', xb, t, info)) :
    (∀ p ∈ adm t, p ∈ mem w → p ∈ mem w') ∧ Inv w' ∧ adm t ⊆ adm t0 ∧
    (info.status = .nosoln → ∀ p ∈ mem w, p ∉ adm t) := by
  obtain ⟨s, i, hf, rfl, rfl, rfl, rfl⟩ := q_ok h
  have hafter : ∀ (s : QSt W Y T) w1 x0 t1, (qAfter copy s w1 x0 t1).t = t1.getD s.t := by
    intro s w1 x0 t1; cases t1 <;> rfl
  have step : ∀ (s : QSt W Y T) r u1 c x0 t1 b u2 st tsq, Inv s.w →
      Ω (S.xc s.w) s.t r s.w = .ok (u1, c, x0, t1, b) → S.update c u1 = .ok (u2, st, tsq) →
      Inv u2 ∧ (∀ p ∈ adm (t1.getD s.t), p ∈ mem s.w → p ∈ mem u2) ∧
      adm (t1.getD s.t) ⊆ adm s.t ∧
      (st = .nosoln → ∀ p ∈ adm (t1.getD s.t), p ∉ mem s.w) := by
    intro s r u1 c x0 t1 b u2 st tsq hu hq hup
    have hx := (hΩ _ _ _).xc _ _ _ hq
    have hm := (hΩ _ _ _).mem _ _ _ hq
    have hi := (hΩ _ _ _).inv _ _ _ hu hq
    refine ⟨hS.inv _ _ _ _ _ hi hup, fun p hp hpm => ?_, ?_, ?_⟩
    · exact hS.keep _ _ _ _ _ hi hup p (hm ▸ hpm) (hx ▸ hvalid _ _ _ _ _ _ _ _ hu hq p hp)
    · cases t1 with
      | none => exact subset_rfl
      | some t' => exact hmono _ _ _ _ _ _ _ _ _ hq
    · rintro rfl p hp hpm
      exact hS.nosoln _ _ _ _ hi hup p (hm ▸ hpm) (hx ▸ hvalid _ _ _ _ _ _ _ _ hu hq p hp)
  have key : ∀ {j s1}, Rounds (qBody Ω copy S o.tol) 0 ⟨w, none, t0, .nosoln⟩ j s1 →
      (∀ p ∈ adm s1.t, p ∈ mem w → p ∈ mem s1.w) ∧ Inv s1.w ∧ adm s1.t ⊆ adm t0 ∧
        (0 < j → s1.status ≠ .nosoln) := by
    intro j s1 hr
    refine Rounds.inv (fun j s1 => (∀ p ∈ adm s1.t, p ∈ mem w → p ∈ mem s1.w) ∧ Inv s1.w ∧
      adm s1.t ⊆ adm t0 ∧ (0 < j → s1.status ≠ .nosoln))
      ⟨fun _ _ h => h, hw, subset_rfl, by simp⟩ ?_ hr
    rintro j s s' ⟨h1, h2, h3, h4⟩ hb
    obtain ⟨w1, c, x0, t1, alt, w2, st, tsq, hq, hu, ⟨he, hns, hne, ht⟩ | ⟨_, he, _⟩⟩ := qBody_ok hb
    · simp only [Step.cont.injEq] at he
      subst he
      obtain ⟨a, b, d, -⟩ := step _ _ _ _ _ _ _ _ _ _ h2 hq hu
      dsimp only
      rw [hafter]
      exact ⟨fun p hp hpm => b p hp (h1 p (d hp) hpm), a, d.trans h3, fun _ => hns⟩
    · simp at he
  rcases forRange_ok hf with ⟨s1, hi, hr, hb⟩ | ⟨hi, hr⟩
  · obtain ⟨h1, h2, h3, h4⟩ := key hr
    obtain ⟨w1, c, x0, t1, alt, w2, st, tsq, hq, hu, ⟨he, _⟩ | ⟨st', he, hcase⟩⟩ := qBody_ok hb
    · simp at he
    · simp only [Step.brk.injEq] at he
      subst he
      obtain ⟨a, b, d, e⟩ := step _ _ _ _ _ _ _ _ _ _ h2 hq hu
      dsimp only
      rw [hafter]
      refine ⟨fun p hp hpm => b p hp (h1 p (d hp) hpm), a, d.trans h3,
        fun hst p hpm hp => e ?_ p hp (h1 p (d hp) hpm)⟩
      subst hst
      rcases hcase with ⟨-, -, h⟩ | ⟨h, -⟩ | ⟨-, -, -, h⟩
      · simp at h
      · exact h
      · simp at h
  · obtain ⟨h1, h2, h3, h4⟩ := key hr
    exact ⟨h1, h2, h3, fun hst => absurd hst (h4 (Nat.succ_pos _))⟩

end Verif
