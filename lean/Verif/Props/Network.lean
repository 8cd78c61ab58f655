import Mathlib.Algebra.BigOperators.Fin
import Mathlib.Algebra.BigOperators.Group.List.Lemmas
import Mathlib.Analysis.SpecialFunctions.Log.Basic
import Verif.Model.Network
import Verif.Props.NegCycle
import Verif.Props.Ell1d

/-! # `network_oracle` (C41), `cycle_ratio_oracle` (C42), `optscaling_oracle` (C43) -/
namespace Verif

section
variable {V α X Γ : Type _} [CommRing α] [LinearOrder α] [IsStrictOrderedRing α]

/-- What `network_oracle` needs from the cycle finder, for a graph with edges `E`: it never raises, it
yields only closed walks of negative weight, and if it yields none then potentials exist. -/
def FinderOK (E : List (V × V)) (find : Finder V α) : Prop :=
  ∀ d w, ∃ d' r, find d w = .ok (d', r) ∧ (r = none → ∃ p, Potential E w p) ∧
    ∀ c, r = some c → ClosedWalk E c.reverse ∧ (c.map w).sum < 0

/-- **C41** (hypothesis met): the repository's finder satisfies the contract on every finite graph. -/
theorem C41_repoFinder [DecidableEq V] [Fintype V] {G : Graph V} (hG : ∀ v, v ∈ G.nodes) :
    FinderOK (α := α) G.edges (repoFinder G) := by
  intro d w
  obtain ⟨d', c, h1, -, h2, h3⟩ := C67_neg_cycle hG w d (max G.nodes.length 1)
    ((card_le_nodes hG).trans (le_max_left _ _)) (by omega)
  cases c with
  | nil => exact ⟨d', none, by simp only [repoFinder, h1], fun _ => ⟨d', h2 rfl⟩, fun c h => by simp at h⟩
  | cons e c =>
    refine ⟨d', some (e :: c), by simp only [repoFinder, h1], fun h => by simp at h, fun c' h => ?_⟩
    simp only [Option.some.injEq] at h
    subst h
    obtain ⟨g1, -, g3⟩ := h3 (by simp)
    exact ⟨g1, g3⟩

/-- **C41**: `network_oracle(x)`, for any cycle finder meeting the contract and any `h` that is concave at
`x` with supergradient `grad` (`pair x z g` stands for `g'(z - x)`).  `None` is returned exactly when
potentials exist at `x`; otherwise the cut is strictly deep and no `z` admitting potentials is cut off. -/
theorem C41_network [AddCommGroup Γ] {E : List (V × V)} {find : Finder V α} (hfind : FinderOK E find)
    (eval : V × V → X → α) (grad : V × V → X → Γ) (pair : X → X → Γ →+ α) (x : X)
    (hconc : ∀ e ∈ E, ∀ z, eval e z ≤ eval e x + pair x z (grad e x)) (u : V → α) :
    ∃ u' r, networkCall find eval grad x u = .ok (u', r) ∧
      (r = none ↔ ∃ p, Potential E (fun e => eval e x) p) ∧
      ∀ g f, r = some (g, f) → 0 < f ∧ ∀ z, (∃ p, Potential E (fun e => eval e z) p) → pair x z g + f ≤ 0 := by
  obtain ⟨u', r, h1, h2, h3⟩ := hfind u fun e => eval e x
  cases r with
  | none => exact ⟨u', none, by simp only [networkCall, h1], ⟨fun _ => h2 rfl, fun _ => rfl⟩, fun g f h => by simp at h⟩
  | some c =>
    obtain ⟨h4, h5⟩ := h3 c rfl
    refine ⟨u', _, by simp only [networkCall, h1]; rfl, ⟨fun h => by simp at h, ?_⟩, ?_⟩
    · rintro ⟨p, hp⟩
      have := h4.nonneg hp
      rw [List.map_reverse, List.sum_reverse] at this
      linarith
    · intro g f h
      simp only [Option.some.injEq, Prod.mk.injEq] at h
      obtain ⟨rfl, rfl⟩ := h
      refine ⟨by linarith, ?_⟩
      rintro z ⟨p, hp⟩
      have hz := h4.nonneg hp
      rw [List.map_reverse, List.sum_reverse] at hz
      have hmem : ∀ e ∈ c, e ∈ E := by
        obtain ⟨-, v, hv⟩ := h4
        have : ∀ {a b l}, Walk E a b l → ∀ e ∈ l, e ∈ E := by
          intro a b l hl
          induction hl with
          | nil => simp
          | cons he _ ih =>
            intro e h
            rcases List.mem_cons.1 h with rfl | h
            · exact he
            · exact ih e h
        exact fun e he => this hv e (List.mem_reverse.2 he)
      have hs : (c.map fun e => eval e z).sum ≤
          (c.map fun e => eval e x).sum + pair x z (c.map fun e => grad e x).sum := by
        clear h1 h2 h3 h4 h5 hz
        induction c with
        | nil => simp
        | cons e c ih =>
          have h6 := hconc e (hmem e List.mem_cons_self) z
          have h7 := ih (fun e he => hmem e (List.mem_cons_of_mem _ he))
          simp only [List.map_cons, List.sum_cons, map_add]
          linarith
      rw [map_neg]
      linarith

/-! ### `cycle_ratio_oracle` -/

/-- `g * (z - x)` as an additive map of `g`. -/
def scalarPair (x z : α) : α →+ α := (AddMonoidHom.mulRight (z - x))

/-- **C42** (the oracle): for any earlier `u`, any `x`, any `t` (possibly `-inf`).  A value is reported
exactly when `x` is a feasible ratio better than `t`, the value being `x`; the cut keeps every feasible
ratio at least as good as the new best-so-far value and is never `(0, 0)`. -/
theorem C42_cycle_ratio_oracle {E : List (V × V)} {find : Finder V α} (hfind : FinderOK E find)
    (cost time : V × V → α) (x : α) (t : WithBot α) (u : V → α) :
    ∃ u' cut t1, cycleRatioCall find cost time x t u = .ok (u', cut, t1) ∧
      (∀ v, t1 = some v ↔ v = (x : WithBot α) ∧ t < x ∧ RatioFeasible E cost time x) ∧
      cut ≠ (0, 0) ∧ 0 ≤ cut.2 ∧
      ∀ z : α, RatioFeasible E cost time z → t1.getD t ≤ (z : WithBot α) → cut.1 * (z - x) + cut.2 ≤ 0 := by
  have hnet := C41_network hfind (ratioEval cost time) (ratioGrad time) scalarPair x (by
    intro e _ z
    simp only [ratioEval, ratioGrad, scalarPair, AddMonoidHom.coe_mulRight]
    linarith) u
  obtain ⟨u', r, h1, h2, h3⟩ := hnet
  -- the part after the test on `t`
  have key : ∀ t : WithBot α, t < x → ∃ u' cut t1,
      ratioNet find cost time x u = .ok (u', cut, t1) ∧
      (∀ v, t1 = some v ↔ v = (x : WithBot α) ∧ t < x ∧ RatioFeasible E cost time x) ∧
      cut ≠ (0, 0) ∧ 0 ≤ cut.2 ∧
      ∀ z : α, RatioFeasible E cost time z → t1.getD t ≤ (z : WithBot α) → cut.1 * (z - x) + cut.2 ≤ 0 := by
    intro t ht
    unfold ratioNet
    rw [h1]
    cases r with
    | none =>
      refine ⟨u', (-1, 0), some (x : WithBot α), rfl, fun v => ?_, by simp, le_rfl, fun z _ hz => ?_⟩
      · simp only [Option.some.injEq]
        exact ⟨fun h => ⟨h.symm, ht, h2.1 rfl⟩, fun h => h.1.symm⟩
      · simp only [Option.getD_some, WithBot.coe_le_coe] at hz
        simp only
        linarith
    | some c =>
      obtain ⟨g, f⟩ := c
      obtain ⟨h4, h5⟩ := h3 g f rfl
      refine ⟨u', (g, f), none, rfl, fun v => ?_, ?_, h4.le, fun z hz _ => ?_⟩
      · refine ⟨fun h => by simp at h, fun h => ?_⟩
        have := h2.2 h.2.2
        simp at this
      · intro h; rw [(Prod.mk.injEq _ _ _ _ ▸ h : g = 0 ∧ f = 0).2] at h4; exact lt_irrefl _ h4
      · have := h5 z hz
        simpa only [scalarPair, AddMonoidHom.coe_mulRight] using this
  unfold cycleRatioCall
  cases t with
  | bot => exact key ⊥ (WithBot.bot_lt_coe x)
  | coe t =>
    by_cases hfj : 0 ≤ t - x
    · refine ⟨u, (-1, t - x), none, by simp only [if_pos hfj], fun v => ?_, by simp, hfj, fun z _ hz => ?_⟩
      · refine ⟨fun h => by simp at h, fun h => ?_⟩
        have := WithBot.coe_lt_coe.1 h.2.1
        linarith
      · simp only [Option.getD_none, WithBot.coe_le_coe] at hz
        simp only
        linarith
    · have := key t (WithBot.coe_lt_coe.2 (by linarith))
      simpa only [if_neg hfj] using this

/-- **C42** (meaning): on a finite graph `x` is a feasible ratio iff it is at most the ratio of every cycle:
`x · Σ time ≤ Σ cost` for every closed walk. -/
theorem C42_ratio_meaning [DecidableEq V] [Fintype V] {G : Graph V} (hG : ∀ v, v ∈ G.nodes)
    (cost time : V × V → α) (x : α) :
    RatioFeasible G.edges cost time x ↔
      ∀ l, ClosedWalk G.edges l → x * (l.map time).sum ≤ (l.map cost).sum := by
  have hsum : ∀ l : List (V × V), (l.map fun e => cost e - time e * x).sum =
      (l.map cost).sum - x * (l.map time).sum := by
    intro l
    induction l with
    | nil => simp
    | cons e l ih => simp only [List.map_cons, List.sum_cons, ih]; ring
  constructor
  · rintro ⟨p, hp⟩ l hl
    have := hl.nonneg hp
    rw [hsum] at this
    linarith
  · intro h
    obtain ⟨d, c, h1, -, h2, h3⟩ := C67_neg_cycle hG (fun e => cost e - time e * x) (fun _ => 0)
      (max G.nodes.length 1) ((card_le_nodes hG).trans (le_max_left _ _)) (by omega)
    by_cases hc : c = []
    · exact ⟨d, h2 hc⟩
    · obtain ⟨h4, -, h5⟩ := h3 hc
      have := h _ h4
      rw [List.map_reverse, List.map_reverse, List.sum_reverse, List.sum_reverse] at this
      rw [hsum] at h5
      linarith

end

/-! ### End to end: `cutting_plane_dc(cycle_ratio_oracle, ell1d, t)` -/

section
variable {V α : Type _} [Field α] [LinearOrder α] [IsStrictOrderedRing α]

/-- The oracle as the driver sees it: its state is `u`, next to the search space. -/
def cycleRatioOracle (find : Finder V α) (cost time : V × V → α) (x : α) (t : WithBot α) :
    (V → α) × Ell1d α → Except PyErr (((V → α) × Ell1d α) × (α × α) × Option (WithBot α)) :=
  liftOracle (cycleRatioCall find cost time x t)

/-- Loop invariant of the run, after `j` rounds. -/
structure CrInv (E : List (V × V)) (cost time : V × V → α) (t0 : WithBot α) (S0 : Ell1d α) (j : ℕ)
    (s : DcSt ((V → α) × Ell1d α) α (WithBot α)) : Prop where
  r : 0 ≤ s.w.2.r
  half : s.w.2.r ≤ S0.r / 2 ^ j
  sub : s.w.2.pts ⊆ S0.pts
  keep : ∀ z ∈ S0.pts, RatioFeasible E cost time z → s.t ≤ (z : WithBot α) → z ∈ s.w.2.pts
  best : (s.xBest = none ∧ s.t = t0) ∨ ∃ v : α, s.xBest = some v ∧ s.t = (v : WithBot α) ∧ t0 < (v : WithBot α) ∧
    RatioFeasible E cost time v ∧ v ∈ S0.pts

theorem crStep {E : List (V × V)} {find : Finder V α} (hfind : FinderOK E find) {cost time : V × V → α}
    {t0 : WithBot α} {S0 : Ell1d α} {j : ℕ} {s : DcSt ((V → α) × Ell1d α) α (WithBot α)}
    (hI : CrInv E cost time t0 S0 j s) {w1 w2 : (V → α) × Ell1d α} {c : α × α} {t1 : Option (WithBot α)}
    {st : CUTStatus} {tsq : α}
    (hq : cycleRatioOracle find cost time s.w.2.xc s.t s.w = .ok (w1, c, t1))
    (hu : (Ell1d.space (V → α) α).update c w1 = .ok (w2, st, tsq)) :
    (st = .success → CrInv E cost time t0 S0 (j + 1) { dcAfter (Ell1d.space (V → α) α) s w1 t1 with w := w2 }) ∧
    (st = .nosoln → w2.2 = s.w.2 ∧ t1 = none ∧ s.xBest = none ∧
      ∀ z ∈ S0.pts, RatioFeasible E cost time z → ¬ s.t ≤ (z : WithBot α)) ∧
    st ≠ .noeffect ∧ st ≠ .smallenough := by
  obtain ⟨hq1, hq2⟩ := liftOracle_ok hq
  obtain ⟨u', cut, t1', e1, e2, e3, e4, e5⟩ := C42_cycle_ratio_oracle hfind cost time s.w.2.xc s.t s.w.1
  rw [e1] at hq1
  simp only [Except.ok.injEq, Prod.mk.injEq] at hq1
  obtain ⟨hu1, rfl, rfl⟩ := hq1
  obtain ⟨hu', -⟩ := ell1d_space_update_ok hu
  rw [hq2] at hu'
  obtain ⟨f1, f2, f3, f4, f5⟩ := C26_ell1d_exact hI.r e3 hu'
  obtain ⟨g1, g2⟩ := C28_ell1d_halves hI.r e4 hu'
  have hxc : s.w.2.xc ∈ s.w.2.pts := ⟨by linarith [hI.r], by linarith [hI.r]⟩
  have hmono : s.t ≤ t1'.getD s.t := by
    cases t1' with
    | none => exact le_rfl
    | some v => obtain ⟨h1, h2, -⟩ := (e2 v).1 rfl; rw [Option.getD_some, h1]; exact h2.le
  refine ⟨fun hs => ?_, fun hs => ?_, g2, f5⟩
  · obtain ⟨hp, hr⟩ := f1 hs
    have ht : (dcAfter (Ell1d.space (V → α) α) s w1 t1').t = t1'.getD s.t := by cases t1' <;> rfl
    refine ⟨hr, ?_, ?_, ?_, ?_⟩
    · have h1 := g1 hs
      have h2 := hI.half
      simp only
      rw [pow_succ, ← div_div]
      linarith
    · simp only; rw [hp]; exact fun x hx => hI.sub hx.1
    · intro z hz hfz htz
      simp only at htz ⊢
      rw [ht] at htz
      rw [hp]
      exact ⟨hI.keep z hz hfz (hmono.trans htz), e5 z hfz htz⟩
    · cases t1' with
      | none => exact hI.best
      | some v =>
        obtain ⟨h1, h2, h3⟩ := (e2 v).1 rfl
        refine .inr ⟨s.w.2.xc, ?_, h1, ?_, h3, hI.sub hxc⟩
        · simp only [dcAfter, Ell1d.space, hq2]
        · rcases hI.best with ⟨-, hb⟩ | ⟨v', -, hb, hb', -⟩
          · rw [← hb]; exact h2
          · exact hb'.trans (hb ▸ h2)
  · have hemp := f2.1 hs
    have hno : ∀ z ∈ S0.pts, RatioFeasible E cost time z → ¬ t1'.getD s.t ≤ (z : WithBot α) := by
      intro z hz hfz htz
      have : z ∈ s.w.2.pts ∩ halfLine s.w.2.xc cut :=
        ⟨hI.keep z hz hfz (hmono.trans htz), e5 z hfz htz⟩
      rw [hemp] at this
      exact this
    have ht1 : t1' = none := by
      cases t1' with
      | none => rfl
      | some v =>
        obtain ⟨h1, h2, h3⟩ := (e2 v).1 rfl
        exact absurd (by rw [Option.getD_some, h1]) (hno s.w.2.xc (hI.sub hxc) h3)
    subst ht1
    refine ⟨f3 (by rw [hs]; simp), rfl, ?_, hno⟩
    rcases hI.best with ⟨hb, -⟩ | ⟨v, -, hb, -, hv1, hv2⟩
    · exact hb
    · exact absurd (by rw [Option.getD_none, hb]) (hno v hv2 hv1)

/-- **C42** (end to end): for every graph, costs, times, interval, starting value and options with
`max_it ≥ 1`, `cutting_plane_dc(cycle_ratio_oracle(G,u), ell1d(I), t0)` returns.  Either the reported ratio
`r` is feasible, better than `t0`, in the interval, and no feasible ratio of the interval exceeds it by more
than `2·R/2^(num_iters-1)`, or no value is reported; if the run then ended with `nosoln` there is no feasible
ratio `≥ t0` in the interval.  A run that found a value never reports `nosoln`. -/
theorem C42_cycle_ratio_end_to_end {E : List (V × V)} {find : Finder V α} (hfind : FinderOK E find)
    (cost time : V × V → α) (t0 : WithBot α) (o : Options α) (ho : 0 < o.maxIt) (u : V → α) (S0 : Ell1d α)
    (hr : 0 ≤ S0.r) :
    ∃ w' xb t info, cuttingPlaneDc (cycleRatioOracle find cost time) (Ell1d.space (V → α) α) t0 o (u, S0) =
      .ok (w', xb, t, info) ∧ 1 ≤ info.numIters ∧ w'.2.pts ⊆ S0.pts ∧
      w'.2.r ≤ S0.r / 2 ^ (info.numIters - 1) ∧
      (∀ z ∈ S0.pts, RatioFeasible E cost time z → t ≤ (z : WithBot α) → z ∈ w'.2.pts) ∧
      ((xb = none ∧ t = t0 ∧ info.feasible = false ∧
          (info.status = .nosoln → ∀ z ∈ S0.pts, RatioFeasible E cost time z → (z : WithBot α) < t0)) ∨
        ∃ r : α, xb = some r ∧ t = (r : WithBot α) ∧ info.feasible = true ∧ info.status ≠ .nosoln ∧
          t0 < (r : WithBot α) ∧ RatioFeasible E cost time r ∧ r ∈ S0.pts ∧
          ∀ z ∈ S0.pts, RatioFeasible E cost time z → z - r ≤ 2 * (S0.r / 2 ^ (info.numIters - 1))) := by
  set Ω := cycleRatioOracle find cost time with hΩ
  set S := Ell1d.space (V → α) α with hS
  have hI0 : CrInv E cost time t0 S0 0 (⟨(u, S0), none, t0, .success⟩ : DcSt ((V → α) × Ell1d α) α (WithBot α)) :=
    ⟨hr, by simp, fun _ h => h, fun z hz _ _ => hz, .inl ⟨rfl, rfl⟩⟩
  -- the oracle and the space never raise
  have htot : ∀ i s, True → ∃ st, dcBody Ω S o.tol i s = .ok st ∧ ∀ s', st = .cont s' → True := by
    intro i s _
    obtain ⟨u', cut, t1, e1, -⟩ := C42_cycle_ratio_oracle hfind cost time s.w.2.xc s.t s.w.1
    have hq : Ω (S.xc s.w) s.t s.w = .ok ((u', s.w.2), cut, t1) := by
      simp only [hΩ, cycleRatioOracle, liftOracle, hS, Ell1d.space, e1]
    obtain ⟨E', st, e2⟩ := C26_ell1d_total s.w.2 cut
    have hu : S.update cut (u', s.w.2) = .ok ((u', E'), st, (s.w.2.r * cut.1) ^ 2) := by
      simp only [hS, Ell1d.space, e2]
    unfold dcBody
    simp only [hq, hu]
    split
    · exact ⟨_, rfl, fun _ _ => trivial⟩
    · split
      · exact ⟨_, rfl, fun _ _ => trivial⟩
      · exact ⟨_, rfl, fun _ _ => trivial⟩
  obtain ⟨⟨s, last⟩, hf⟩ := forLoop_total (fun _ => True) htot o.maxIt.toNat 0 none
    (⟨(u, S0), none, t0, .success⟩ : DcSt ((V → α) × Ell1d α) α (WithBot α)) trivial
  obtain ⟨i, rfl⟩ := forLoop_last_some (by omega) hf
  have hrun : cuttingPlaneDc Ω S t0 o (u, S0) = .ok (s.w, s.xBest, s.t, ⟨decide (s.t ≠ t0), i + 1, s.status⟩) := by
    have hf' : forRange o.maxIt (dcBody Ω S o.tol) ⟨(u, S0), none, t0, .success⟩ = .ok (s, some i) := hf
    simp only [cuttingPlaneDc, hf', readVar]
  have hrounds : ∀ {j s1}, Rounds (dcBody Ω S o.tol) 0 ⟨(u, S0), none, t0, .success⟩ j s1 →
      CrInv E cost time t0 S0 j s1 ∧ s1.status = .success := by
    intro j s1 hR
    refine Rounds.inv (fun j s1 => CrInv E cost time t0 S0 j s1 ∧ s1.status = .success) ⟨hI0, rfl⟩ ?_ hR
    rintro j s s' ⟨hI, hst⟩ hb
    obtain ⟨w1, c, t1, w2, tsq, h1, h2, -, rfl⟩ := dcBody_cont hb
    exact ⟨(crStep hfind hI h1 h2).1 rfl, by cases t1 <;> exact hst⟩
  -- the final state: invariant (with one halving less) and the nosoln clause
  have hfin : (CrInv E cost time t0 S0 i s) ∧ (s.status = .nosoln → s.xBest = none ∧
      ∀ z ∈ S0.pts, RatioFeasible E cost time z → ¬ s.t ≤ (z : WithBot α)) := by
    have hweak : ∀ s1, CrInv E cost time t0 S0 (i + 1) s1 → CrInv E cost time t0 S0 i s1 := by
      intro s1 h
      refine ⟨h.r, h.half.trans ?_, h.sub, h.keep, h.best⟩
      rw [pow_succ, ← div_div]
      have : 0 ≤ S0.r / 2 ^ i := by positivity
      linarith
    rcases forRange_ok (show forRange o.maxIt (dcBody Ω S o.tol) ⟨(u, S0), none, t0, .success⟩ = .ok (s, some i) from hf)
      with ⟨s1, -, hR, hb⟩ | ⟨-, hR⟩
    · obtain ⟨hI, -⟩ := hrounds hR
      obtain ⟨w1, c, t1, w2, st, tsq, h1, h2, h3⟩ := dcBody_brk hb
      obtain ⟨k1, k2, k3, k4⟩ := crStep hfind hI h1 h2
      rcases h3 with ⟨hne, rfl⟩ | ⟨hs, -, rfl⟩
      · have hst : st = .nosoln := by cases st <;> simp_all
        obtain ⟨m1, rfl, m3, m4⟩ := k2 hst
        refine ⟨⟨?_, ?_, ?_, ?_, ?_⟩, fun _ => ⟨m3, m4⟩⟩
        · simp only [m1]; exact hI.r
        · simp only [m1]; exact hI.half
        · simp only [m1]; exact hI.sub
        · simp only [m1]; exact hI.keep
        · exact hI.best
      · have := hweak _ (k1 hs)
        exact ⟨⟨this.r, this.half, this.sub, this.keep, this.best⟩, fun h => by simp at h⟩
    · obtain ⟨hI, hst⟩ := hrounds hR
      exact ⟨hweak _ hI, fun h => by rw [hst] at h; simp at h⟩
  obtain ⟨hI, hno⟩ := hfin
  refine ⟨s.w, s.xBest, s.t, _, hrun, by simp, hI.sub, by simpa using hI.half, hI.keep, ?_⟩
  rcases hI.best with ⟨b1, b2⟩ | ⟨v, b1, b2, b3, b4, b5⟩
  · refine .inl ⟨b1, b2, by simp [b2], fun h z hz hfz => ?_⟩
    have := (hno h).2 z hz hfz
    rw [b2] at this
    exact not_le.1 this
  · refine .inr ⟨v, b1, b2, ?_, ?_, b3, b4, b5, ?_⟩
    · simp only [b2, decide_eq_true_eq]; exact b3.ne'
    · intro h
      have := (hno h).1
      rw [b1] at this
      simp at this
    · intro z hz hfz
      simp only [Nat.add_sub_cancel]
      have hpos : 0 ≤ S0.r / 2 ^ i := by positivity
      rcases le_or_gt z v with h | h
      · linarith
      · have h1 := hI.keep z hz hfz (by rw [b2]; exact WithBot.coe_le_coe.2 h.le)
        have h2 := hI.keep v b5 b4 (by rw [b2])
        have := hI.half
        linarith [h1.2, h2.1]

end

/-! ### `optscaling_oracle` -/

section
variable {V α : Type _} [CommRing α] [LinearOrder α] [IsStrictOrderedRing α] [LinearOrder V]

/-- `g'(z - x)` in the plane, as an additive map of `g`. -/
def planePair (x z : Fin 2 → α) : (Fin 2 → α) →+ α where
  toFun g := ∑ i, g i * (z i - x i)
  map_zero' := by simp
  map_add' a b := by simp only [Pi.add_apply, add_mul, Finset.sum_add_distrib]

theorem scaling_potential {E : List (V × V)} (hE : ∀ e ∈ E, e.1 ≠ e.2) (cost : V × V → α) (z : Fin 2 → α) :
    (∃ p, Potential E (fun e => scaleEval cost e z) p) ↔ ScalingFeasible E cost (z 0) (z 1) := by
  refine exists_congr fun p => ?_
  constructor
  · intro h e he
    have h1 := h e he
    refine ⟨fun hlt => ?_, fun hlt => ?_⟩
    · simp only [scaleEval, if_pos hlt] at h1; linarith
    · simp only [scaleEval, if_neg (not_lt.2 hlt.le)] at h1; linarith
  · intro h e he
    rcases lt_or_gt_of_ne (hE e he) with hlt | hlt
    · simp only [scaleEval, if_pos hlt]; linarith [(h e he).1 hlt]
    · simp only [scaleEval, if_neg (not_lt.2 hlt.le)]; linarith [(h e he).2 hlt]

/-- Every finite system admits some scaling when `π` is large and `ψ` small. -/
theorem scaling_exists (E : List (V × V)) (cost : V × V → α) :
    ∃ M : α, ∀ π ψ, M ≤ π → ψ ≤ -M → ScalingFeasible E cost π ψ := by
  have : ∃ M : α, ∀ e ∈ E, |cost e| ≤ M := by
    induction E with
    | nil => exact ⟨0, by simp⟩
    | cons e E ih =>
      obtain ⟨M, hM⟩ := ih
      refine ⟨max |cost e| M, fun e' h => ?_⟩
      rcases List.mem_cons.1 h with rfl | h
      · exact le_max_left _ _
      · exact (hM e' h).trans (le_max_right _ _)
  obtain ⟨M, hM⟩ := this
  refine ⟨M, fun π ψ h1 h2 => ⟨fun _ => 0, fun e he => ?_⟩⟩
  have := abs_le.1 (hM e he)
  exact ⟨fun _ => by linarith [this.2], fun _ => by linarith [this.1]⟩

omit [LinearOrder α] [IsStrictOrderedRing α] in
theorem scaleGrad_sum (x : Fin 2 → α) (c : List (V × V)) :
    (c.map fun e => scaleGrad e x).sum 0 - (c.map fun e => scaleGrad e x).sum 1 = c.length := by
  induction c with
  | nil => simp
  | cons e c ih =>
    simp only [List.map_cons, List.sum_cons, Pi.add_apply, List.length_cons, Nat.cast_add, Nat.cast_one, ← ih]
    by_cases h : e.1 < e.2 <;> simp [scaleGrad, h] <;> ring

/-- **C43** (the oracle): for any earlier `u`, any `x`, any `t` (possibly `+inf`) and any graph without
self-loops.  A value is reported exactly when `(x[0], x[1])` admits a scaling and `x[0] - x[1] < t`, the value
being `x[0] - x[1]`; the cut keeps every `(π, ψ)` that admits a scaling and has ratio at most the new
best-so-far value; its gradient is never zero and it is never shallow.  With room `δ` the cut holds with
room `δ`. -/
theorem C43_optscaling_oracle {E : List (V × V)} (hE : ∀ e ∈ E, e.1 ≠ e.2) {find : Finder V α}
    (hfind : FinderOK E find) (cost : V × V → α) (x : Fin 2 → α) (t : WithTop α) (u : V → α) :
    ∃ u' cut t1, optscalingCall find E cost x t u = .ok (u', cut, t1) ∧
      (∀ v, t1 = some v ↔ v = ((x 0 - x 1 : α) : WithTop α) ∧ ((x 0 - x 1 : α) : WithTop α) < t ∧
        ScalingFeasible E cost (x 0) (x 1)) ∧
      cut.1 ≠ 0 ∧ 0 ≤ cut.2 ∧
      (∀ z : Fin 2 → α, ScalingFeasible E cost (z 0) (z 1) → ((z 0 - z 1 : α) : WithTop α) ≤ t1.getD t →
        ∑ i, cut.1 i * (z i - x i) + cut.2 ≤ 0) ∧
      ∀ (z : Fin 2 → α) (δ : α), 0 ≤ δ → ScalingFeasible E cost (z 0 - δ) (z 1 + δ) →
        ((z 0 - z 1 + δ : α) : WithTop α) ≤ t1.getD t → ∑ i, cut.1 i * (z i - x i) + cut.2 ≤ -δ := by
  have hnet := C41_network hfind (scaleEval cost) scaleGrad planePair x (by
    intro e _ z
    by_cases h : e.1 < e.2
    · simp [scaleEval, scaleGrad, planePair, h, Fin.sum_univ_two]
    · simp [scaleEval, scaleGrad, planePair, h, Fin.sum_univ_two]) u
  obtain ⟨u', r, h1, h2, h3⟩ := hnet
  have hany : E.any (fun e => e.1 = e.2) = false := by
    simp only [List.any_eq_false, decide_eq_true_eq]
    exact fun e he => hE e he
  have hg : (![1, -1] : Fin 2 → α) ≠ 0 := fun h => by simpa using congrFun h 0
  have key : ∀ t : WithTop α, ((x 0 - x 1 : α) : WithTop α) < t → ∃ u' cut t1,
      scaleNet find E cost x u = .ok (u', cut, t1) ∧
      (∀ v, t1 = some v ↔ v = ((x 0 - x 1 : α) : WithTop α) ∧ ((x 0 - x 1 : α) : WithTop α) < t ∧
        ScalingFeasible E cost (x 0) (x 1)) ∧
      cut.1 ≠ 0 ∧ 0 ≤ cut.2 ∧
      (∀ z : Fin 2 → α, ScalingFeasible E cost (z 0) (z 1) → ((z 0 - z 1 : α) : WithTop α) ≤ t1.getD t →
        ∑ i, cut.1 i * (z i - x i) + cut.2 ≤ 0) ∧
      ∀ (z : Fin 2 → α) (δ : α), 0 ≤ δ → ScalingFeasible E cost (z 0 - δ) (z 1 + δ) →
        ((z 0 - z 1 + δ : α) : WithTop α) ≤ t1.getD t → ∑ i, cut.1 i * (z i - x i) + cut.2 ≤ -δ := by
    intro t ht
    simp only [scaleNet, hany, Bool.false_eq_true, if_false, h1]
    cases r with
    | none =>
      refine ⟨u', _, _, rfl, fun v => ?_, hg, le_rfl, fun z _ hz => ?_, fun z δ _ _ hz => ?_⟩
      · simp only [Option.some.injEq]
        exact ⟨fun h => ⟨h.symm, ht, (scaling_potential hE cost x).1 (h2.1 rfl)⟩, fun h => h.1.symm⟩
      all_goals
        simp only [Option.getD_some, WithTop.coe_le_coe] at hz
        simp only [Fin.sum_univ_two, Matrix.cons_val_zero, Matrix.cons_val_one]
        linarith
    | some c =>
      obtain ⟨g, f⟩ := c
      obtain ⟨h4, h5⟩ := h3 g f rfl
      have hlen : g 0 - g 1 ≤ -1 := by
        unfold networkCall at h1
        cases hf : find u (fun e => scaleEval cost e x) with
        | error e => simp [hf] at h1
        | ok r =>
          obtain ⟨u1, c⟩ := r
          cases c with
          | none => simp [hf] at h1
          | some c =>
            simp only [hf, Except.ok.injEq, Prod.mk.injEq, Option.some.injEq] at h1
            obtain ⟨-, hgg, hff⟩ := h1
            cases c with
            | nil => rw [← hff] at h4; simp at h4
            | cons e c =>
              have := scaleGrad_sum x (e :: c)
              rw [← hgg]
              simp only [Pi.neg_apply]
              have h0 : (0 : α) ≤ c.length := Nat.cast_nonneg _
              rw [List.length_cons, Nat.cast_add, Nat.cast_one] at this
              linarith
      refine ⟨u', (g, f), none, rfl, fun v => ?_, ?_, h4.le, fun z hz _ => ?_, fun z δ hδ hz _ => ?_⟩
      · refine ⟨fun h => by simp at h, fun h => ?_⟩
        have := h2.2 ((scaling_potential hE cost x).2 h.2.2)
        simp at this
      · intro h
        simp only at h
        obtain ⟨M, hM⟩ := scaling_exists E cost
        have := h5 ![M, -M] ((scaling_potential hE cost _).2 (hM _ _ (by simp) (by simp)))
        rw [h, map_zero] at this
        linarith
      · exact h5 z ((scaling_potential hE cost z).2 hz)
      · have := h5 ![z 0 - δ, z 1 + δ] ((scaling_potential hE cost _).2 hz)
        simp only [planePair, AddMonoidHom.coe_mk, ZeroHom.coe_mk, Fin.sum_univ_two, Matrix.cons_val_zero,
          Matrix.cons_val_one] at this ⊢
        nlinarith [mul_le_mul_of_nonneg_right hlen hδ]
  unfold optscalingCall
  cases t with
  | top => exact key ⊤ (WithTop.coe_lt_top _)
  | coe t =>
    by_cases hfj : 0 ≤ x 0 - x 1 - t
    · refine ⟨u, (![1, -1], x 0 - x 1 - t), none, by simp only [if_pos hfj], fun v => ?_, hg, hfj, fun z _ hz => ?_,
        fun z δ _ _ hz => ?_⟩
      · refine ⟨fun h => by simp at h, fun h => ?_⟩
        have := WithTop.coe_lt_coe.1 h.2.1
        linarith
      all_goals
        simp only [Option.getD_none, WithTop.coe_le_coe] at hz
        simp only [Fin.sum_univ_two, Matrix.cons_val_zero, Matrix.cons_val_one]
        linarith
    · have := key t (WithTop.coe_lt_coe.2 (by linarith))
      simpa only [if_neg hfj] using this

/-- **C43** (self-loops): with a self-loop the call raises `AssertionError` whenever the centre has a ratio
better than `t`. -/
theorem C43_optscaling_selfloop {E : List (V × V)} {e : V × V} (he : e ∈ E) (hee : e.1 = e.2) (find : Finder V α)
    (cost : V × V → α) (x : Fin 2 → α) (t : WithTop α) (ht : ((x 0 - x 1 : α) : WithTop α) < t) (u : V → α) :
    optscalingCall find E cost x t u = .error .assertion := by
  have hany : E.any (fun e => e.1 = e.2) = true := List.any_eq_true.2 ⟨e, he, by simpa using hee⟩
  unfold optscalingCall
  cases t with
  | top => simp only [scaleNet, hany, if_true]
  | coe t =>
    have : ¬ 0 ≤ x 0 - x 1 - t := by have := WithTop.coe_lt_coe.1 ht; linarith
    simp only [if_neg this, scaleNet, hany, if_true]

/-- **C43** (meaning): for a symmetric pattern with `cost(i,j) = log|a_ij|`, feasibility of `(log π, log ψ)` says
that positive scalings `u` exist with `ψ ≤ u_i |a_ij| / u_j ≤ π` for all edges with `i < j`.  (Note that the
constraint for `a_ji` with `j > i` of the class docstring is not part of the problem solved.) -/
theorem C43_scaling_meaning {V : Type _} [LinearOrder V] {E : List (V × V)}
    (hsym : ∀ i j, (i, j) ∈ E → (j, i) ∈ E) {a : V × V → ℝ} (ha : ∀ e ∈ E, a e ≠ 0)
    (hasym : ∀ i j, |a (i, j)| = |a (j, i)|) {π ψ : ℝ} (hπ : 0 < π) (hψ : 0 < ψ) :
    ScalingFeasible E (fun e => Real.log |a e|) (Real.log π) (Real.log ψ) ↔
      ∃ u : V → ℝ, (∀ i, 0 < u i) ∧ ∀ i j, (i, j) ∈ E → i < j →
        ψ ≤ u i * |a (i, j)| / u j ∧ u i * |a (i, j)| / u j ≤ π := by
  have hlog : ∀ (u : V → ℝ) (i j : V), (∀ i, 0 < u i) → (i, j) ∈ E →
      0 < u i * |a (i, j)| / u j ∧
      Real.log (u i * |a (i, j)| / u j) = Real.log |a (i, j)| - Real.log (u j) + Real.log (u i) := by
    intro u i j hu he
    have h0 : 0 < |a (i, j)| := abs_pos.2 (ha _ he)
    refine ⟨by have := hu i; have := hu j; positivity, ?_⟩
    rw [Real.log_div (mul_pos (hu i) h0).ne' (hu j).ne', Real.log_mul (hu i).ne' h0.ne']
    ring
  constructor
  · rintro ⟨p, hp⟩
    refine ⟨fun i => Real.exp (-p i), fun i => Real.exp_pos _, fun i j he hlt => ?_⟩
    obtain ⟨h0, h1⟩ := hlog (fun i => Real.exp (-p i)) i j (fun i => Real.exp_pos _) he
    simp only [Real.log_exp] at h1
    have h2 := (hp _ he).1 hlt
    have h3 := (hp _ (hsym _ _ he)).2 hlt
    simp only at h2 h3
    rw [← hasym] at h3
    refine ⟨(Real.log_le_log_iff hψ h0).1 ?_, (Real.log_le_log_iff h0 hπ).1 ?_⟩ <;> rw [h1] <;> linarith
  · rintro ⟨u, hu, h⟩
    refine ⟨fun i => -Real.log (u i), fun e he => ⟨fun hlt => ?_, fun hlt => ?_⟩⟩
    · obtain ⟨h0, h1⟩ := hlog u e.1 e.2 hu he
      have := (Real.log_le_log_iff h0 hπ).2 (h _ _ he hlt).2
      rw [h1] at this
      simp only [Prod.mk.eta] at this ⊢
      linarith
    · have he' := hsym _ _ he
      obtain ⟨h0, h1⟩ := hlog u e.2 e.1 hu he'
      have := (Real.log_le_log_iff hψ h0).2 (h _ _ he' hlt).1
      rw [h1, ← hasym] at this
      simp only [Prod.mk.eta] at this ⊢
      linarith

end

/-! ### Concrete cases -/

/-- Two nodes, edges both ways. -/
def exG2 : Graph (Fin 2) := ⟨[0, 1], [(0, 1), (1, 0)]⟩

theorem exG2_nodes : ∀ v, v ∈ exG2.nodes := by decide

/-- C41 with the in-repository finder. -/
example : FinderOK (α := ℚ) exG2.edges (repoFinder exG2) := C41_repoFinder exG2_nodes

/-- Cycle ratio with costs `3` and `1`, times `1`: the best ratio is `2`.  At `x = 3` there is a cut, at
`x = 1` a value. -/
example : (cycleRatioCall (repoFinder exG2) (fun e => if e = (0, 1) then (3 : ℚ) else 1) (fun _ => 1) 3 ⊥
      (fun _ => 0)).map (fun r => r.2) = .ok ((2, 2), none) ∧
    (cycleRatioCall (repoFinder exG2) (fun e => if e = (0, 1) then (3 : ℚ) else 1) (fun _ => 1) 1 ⊥
      (fun _ => 0)).map (fun r => r.2) = .ok ((-1, 0), some 1) := by
  constructor <;> with_unfolding_all rfl

/-- Its end-to-end run is covered. -/
example (t0 : WithBot ℚ) := C42_cycle_ratio_end_to_end (α := ℚ) (C41_repoFinder exG2_nodes)
  (fun e => if e = (0, 1) then (3 : ℚ) else 1) (fun _ => 1) t0 ⟨20, 0⟩ (by norm_num) (fun _ => 0) ⟨5, 0⟩ (by norm_num)

example : ∃ v : ℚ, RatioFeasible exG2.edges (fun e => if e = (0, 1) then (3 : ℚ) else 1) (fun _ => 1) v :=
  ⟨1, ![0, 0], by simp [exG2, Potential]⟩

/-- Scaling: an infeasible and a feasible centre, evaluated. -/
example : (optscalingCall (repoFinder exG2) exG2.edges (fun _ => (1 : ℚ)) ![0, 1] ⊤ (fun _ => 0)).map
      (fun r => (r.2.1.1 0, r.2.1.1 1, r.2.1.2, r.2.2)) = .ok (-1, 1, 1, none) ∧
    (optscalingCall (repoFinder exG2) exG2.edges (fun _ => (1 : ℚ)) ![2, 1] ⊤ (fun _ => 0)).map
      (fun r => (r.2.1.1 0, r.2.1.1 1, r.2.1.2, r.2.2)) = .ok (1, -1, 0, some 1) := by
  constructor <;> with_unfolding_all rfl

end Verif
