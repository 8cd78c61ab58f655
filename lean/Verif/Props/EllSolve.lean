import Verif.Props.EllComplexity
import Verif.Props.Ell1d
import Verif.Proofs.Dc

/-!
# C70-C72: what a run of the drivers on an `ell` tells about the problem

Statements about complete runs (driver + ellipsoid + any oracle with valid cuts): the meaning of every
unsuccessful exit status including `smallenough`, and convergence of `cutting_plane_dc`.
-/
namespace Verif
open Matrix Ell
variable {n : ℕ} {W : Type _}

/-- A deep or central cut is never answered with `noeffect`. -/
theorem Ell.deep_not_noeffect {E E' : Ell n} (hE : E.WF) {g : Fin n → ℝ} {b : Beta} {tsq : ℝ} (hb : deepBeta b) :
    update (g, b) E ≠ .ok (E', .noeffect, tsq) := by
  intro hu
  have hn' : (2 : ℝ) ≤ n := by exact_mod_cast hE.dim
  have ht := tsq_nonneg hE g
  obtain ⟨htsq, ⟨hc, -⟩ | ⟨h', -⟩⟩ := update_ok hE hu
  swap
  · cases h'
  have dc : ∀ b : ℝ, 0 ≤ b → ¬ DcCase n tsq b (.reject .noeffect) := by
    intro b hb hd
    rcases hd.reject with ⟨h, -⟩ | ⟨-, -, -, h⟩
    · cases h
    · have := Real.sqrt_nonneg tsq
      have : 0 ≤ (n : ℝ) * b := mul_nonneg (by linarith) hb
      linarith
  cases hc with
  | scalar h => exact dc _ hb h
  | single h => exact dc _ hb h
  | @par b0 b1 l _ h0 h =>
    have hb : 0 ≤ b0 := hb
    generalize hr : Calc.reject CUTStatus.noeffect = q at h
    cases h with
    | fallback _ h => exact dc _ hb (hr ▸ h)
    | nosoln => simp at hr
    | noeffect _ _ h1 h2 h3 =>
      have : 0 ≤ (n : ℝ) * (b0 * (b1 / tsq)) := by
        have : 0 ≤ b1 := hb.trans h1
        have : 0 ≤ tsq := by rw [htsq]; exact ht
        positivity
      linarith
    | parallel => simp at hr

/-- An update inside the `ell` search space. -/
theorem Ell.space_update_ok {c : (Fin n → ℝ) × Beta} {w w' : W × Ell n} {st : CUTStatus} {tsq : ℝ}
    (h : (Ell.space W n).update c w = .ok (w', st, tsq)) :
    update c w.2 = .ok (w'.2, st, tsq) ∧ w'.1 = w.1 := by
  simp only [Ell.space] at h
  split at h
  · simp at h
  rename_i h'
  simp only [Except.ok.injEq, Prod.mk.injEq] at h
  obtain ⟨rfl, rfl, rfl⟩ := h
  exact ⟨h', rfl⟩

/-- `p` satisfies the cut issued at `x`, and the cut varies by at least `√tol` between `x` and `p`. -/
def FirmCut (tol : ℝ) (x : Fin n → ℝ) (c : (Fin n → ℝ) × Beta) (p : Fin n → ℝ) : Prop :=
  p ∈ cutSet x c ∧ tol ≤ (c.1 ⬝ᵥ (p - x)) ^ 2

/-- An unsuccessful exit (anything that makes a driver stop early) excludes every firmly cut point. -/
theorem Ell.stop_excludes {E E' : Ell n} (hE : E.WF) {c : (Fin n → ℝ) × Beta} {st : CUTStatus} {tsq tol : ℝ}
    (hb : deepBeta c.2) (h : update c E = .ok (E', st, tsq)) (hs : st ≠ .success ∨ tsq < tol) {p : Fin n → ℝ}
    (hp : p ∈ E.pts) : ¬ FirmCut tol E.xc c p := by
  rintro ⟨h1, h2⟩
  obtain ⟨g, b⟩ := c
  rcases hs with hs | hs
  · rcases C19_ell_statuses hE h with rfl | rfl | rfl
    · exact hs rfl
    · exact C18_ell_nosoln hE h p hp h1
    · exact deep_not_noeffect hE hb h
  · rw [(C20_ell_tsq_nonneg hE h).1] at hs
    have := hp g
    dsimp only at h2
    linarith

/-- **C70.**  `cutting_plane_feas` on an `ell`, any oracle with deep or central cuts, any private oracle state with
an invariant.  Let `K` be a set of points which every cut `(g, β)` issued at `x` keeps with margin: `p` satisfies the
cut and `(g·(p - x))² ≥ tol`.  If the run returns with any status but `success` — `nosoln`, `noeffect` or
`smallenough` — then no point of `K` was in the initial ellipsoid.  With `feasible = True` the oracle
accepted the final centre.  (With status `success` and `feasible = False` the iteration limit was reached, C03.) -/
theorem C70_feas_ell_verdict {Ω : (Fin n → ℝ) → W → Except PyErr (W × Option ((Fin n → ℝ) × Beta))}
    (Inv : W → Prop) (K : Set (Fin n → ℝ)) {E₀ : Ell n} (hE : E₀.WF) {o : Options ℝ}
    (hΩ : ∀ x w w' r, Inv w → Ω x w = .ok (w', r) → Inv w' ∧
      ∀ c, r = some c → deepBeta c.2 ∧ ∀ p ∈ K, FirmCut o.tol x c p)
    {w₀ w : W} {E : Ell n} {info : CInfo} (hw₀ : Inv w₀)
    (h : cuttingPlaneFeas (fun x => liftOracle (Ω x)) (Ell.space W n) o (w₀, E₀) = .ok ((w, E), info)) :
    (info.status ≠ .success → ∀ p ∈ K, p ∉ E₀.pts) ∧ (∀ p ∈ K, p ∈ E₀.pts → p ∈ E.pts) ∧
    (info.feasible = true → ∃ u, Inv u ∧ Ω E.xc u = .ok (w, none)) := by
  obtain ⟨s, i, hf, hw, rfl⟩ := feas_ok h
  let P : ℕ → FeasSt (W × Ell n) → Prop := fun _ s =>
    s.feasible = false ∧ s.status = .success ∧ Inv s.w.1 ∧ s.w.2.WF ∧ ∀ p ∈ K, p ∈ E₀.pts → p ∈ s.w.2.pts
  have key : ∀ {j s1}, Rounds (feasBody (fun x => liftOracle (Ω x)) (Ell.space W n) o.tol) 0
      ⟨(w₀, E₀), false, .success⟩ j s1 → P j s1 := by
    intro j s1 hr
    refine Rounds.inv P ?_ ?_ hr
    · exact ⟨rfl, rfl, hw₀, hE, fun p _ hp => hp⟩
    rintro j s s' ⟨hfe, hst, hi, hwf, hk⟩ hb
    obtain ⟨w1, c, w2, tsq, hq, hu, -, rfl⟩ := feasBody_cont hb
    obtain ⟨hq1, hq2⟩ := liftOracle_ok hq
    obtain ⟨hu1, hu2⟩ := space_update_ok hu
    obtain ⟨hi1, hc⟩ := hΩ _ _ _ _ hi hq1
    rw [hq2] at hu1
    refine ⟨hfe, hst, by rw [hu2]; exact hi1, update_wf hwf hu1, fun p hp hp0 => ?_⟩
    exact update_keep hwf hu1 (hk p hp hp0) (mem_cutSet.1 ((hc c rfl).2 p hp).1)
  have hE1 : E = s.w.2 := by rw [← hw]
  have hw1 : w = s.w.1 := by rw [← hw]
  rw [hE1, hw1]
  clear h hw
  rcases forRange_ok hf with ⟨s1, -, hr, hb⟩ | ⟨-, hr⟩
  · obtain ⟨hfe, hst, hi, hwf, hk⟩ := key hr
    rcases feasBody_brk hb with ⟨w1, hq, rfl⟩ | ⟨w1, c, w2, st, tsq, hq, hu, hne, rfl⟩ | ⟨w1, c, w2, tsq, hq, hu, ht, rfl⟩
    · obtain ⟨hq1, hq2⟩ := liftOracle_ok hq
      refine ⟨fun h => absurd hst h, fun p hp hp0 => ?_, fun _ => ⟨_, hi, ?_⟩⟩
      · rw [hq2]; exact hk p hp hp0
      · dsimp only; rw [hq2]; exact hq1
    all_goals
      obtain ⟨hq1, hq2⟩ := liftOracle_ok hq
      obtain ⟨hu1, hu2⟩ := space_update_ok hu
      obtain ⟨hi1, hc⟩ := hΩ _ _ _ _ hi hq1
      rw [hq2] at hu1
      refine ⟨fun _ p hp hp0 => ?_, fun p hp hp0 =>
        update_keep hwf hu1 (hk p hp hp0) (mem_cutSet.1 ((hc c rfl).2 p hp).1),
        fun h => absurd h (by simp [hfe])⟩
      refine stop_excludes (tol := o.tol) hwf (hc c rfl).1 hu1 ?_ (hk p hp hp0) ((hc c rfl).2 p hp)
      first
      | exact .inl hne
      | exact .inr ht
  · obtain ⟨hfe, hst, hi, hwf, hk⟩ := key hr
    exact ⟨fun h => absurd hst h, hk, fun h => absurd h (by simp [hfe])⟩

section dc
variable {T : Type _} [DecidableEq T] {Ω : (Fin n → ℝ) → T → W → Except PyErr (W × ((Fin n → ℝ) × Beta) × Option T)}

/-- **C71.**  `cutting_plane_dc` on an `ell`, any oracle with an invariant on its state and the best value.  `K t` is a family of point sets, shrinking as `t` improves, such that
every cut answered together with the (possibly improved) value `t'` keeps all points of `K t'` with margin.  If the run
returns `t` with any status but `success` — so also with `smallenough` — then the initial ellipsoid has no point of
`K t`: no point beats the returned value by the margin.  The returned pair is the
initial one or was reported by the oracle, at the returned point. -/
theorem C71_dc_ell_verdict (Inv : W → T → Prop) (K : T → Set (Fin n → ℝ)) {E₀ : Ell n} (hE : E₀.WF) {o : Options ℝ}
    (hΩ : ∀ x t w w' c t1, Inv w t → Ω x t w = .ok (w', c, t1) → Inv w' (t1.getD t) ∧ K (t1.getD t) ⊆ K t ∧
      deepBeta c.2 ∧ ∀ p ∈ K (t1.getD t), FirmCut o.tol x c p)
    {w₀ w : W} {E : Ell n} {t0 t : T} {xb : Option (Fin n → ℝ)} {info : CInfo} (hw₀ : Inv w₀ t0)
    (h : cuttingPlaneDc (fun x t => liftOracle (Ω x t)) (Ell.space W n) t0 o (w₀, E₀) = .ok ((w, E), xb, t, info)) :
    (info.status ≠ .success → ∀ p ∈ K t, p ∉ E₀.pts) ∧ (∀ p ∈ K t, p ∈ E₀.pts → p ∈ E.pts) ∧ K t ⊆ K t0 ∧
    ((xb = none ∧ t = t0) ∨ ∃ x s u u' c, xb = some x ∧ Inv u s ∧ Ω x s u = .ok (u', c, some t)) := by
  obtain ⟨s, i, hf, hw, rfl, rfl, rfl⟩ := dc_ok h
  let P : ℕ → DcSt (W × Ell n) (Fin n → ℝ) T → Prop := fun _ s =>
    s.status = .success ∧ Inv s.w.1 s.t ∧ s.w.2.WF ∧ K s.t ⊆ K t0 ∧ (∀ p ∈ K s.t, p ∈ E₀.pts → p ∈ s.w.2.pts) ∧
      ((s.xBest = none ∧ s.t = t0) ∨ ∃ x t u u' c, s.xBest = some x ∧ Inv u t ∧ Ω x t u = .ok (u', c, some s.t))
  have ht1 : ∀ (s : DcSt (W × Ell n) (Fin n → ℝ) T) w1 (t1 : Option T),
      (dcAfter (Ell.space W n) s w1 t1).t = t1.getD s.t := by
    intro s w1 t1; cases t1 <;> rfl
  have hst1 : ∀ (s : DcSt (W × Ell n) (Fin n → ℝ) T) w1 (t1 : Option T),
      (dcAfter (Ell.space W n) s w1 t1).status = s.status := by
    intro s w1 t1; cases t1 <;> rfl
  have hbst : ∀ (s : DcSt (W × Ell n) (Fin n → ℝ) T) (w1 : W × Ell n) c (t1 : Option T), Inv s.w.1 s.t →
      ((s.xBest = none ∧ s.t = t0) ∨ ∃ x t u u' c, s.xBest = some x ∧ Inv u t ∧ Ω x t u = .ok (u', c, some s.t)) →
      Ω s.w.2.xc s.t s.w.1 = .ok (w1.1, c, t1) → w1.2 = s.w.2 →
      (((dcAfter (Ell.space W n) s w1 t1).xBest = none ∧ (dcAfter (Ell.space W n) s w1 t1).t = t0) ∨
        ∃ x t u u' c, (dcAfter (Ell.space W n) s w1 t1).xBest = some x ∧ Inv u t ∧
          Ω x t u = .ok (u', c, some (dcAfter (Ell.space W n) s w1 t1).t)) := by
    intro s w1 c t1 hi hbest hq hx
    cases t1 with
    | none => exact hbest
    | some t' =>
      refine .inr ⟨s.w.2.xc, s.t, s.w.1, w1.1, c, ?_, hi, hq⟩
      show some w1.2.xc = some s.w.2.xc
      rw [hx]
  have key : ∀ {j s1}, Rounds (dcBody (fun x t => liftOracle (Ω x t)) (Ell.space W n) o.tol) 0
      ⟨(w₀, E₀), none, t0, .success⟩ j s1 → P j s1 := by
    intro j s1 hr
    refine Rounds.inv P ?_ ?_ hr
    · exact ⟨rfl, hw₀, hE, subset_rfl, fun p _ hp => hp, .inl ⟨rfl, rfl⟩⟩
    rintro j s s' ⟨hst, hi, hwf, hk0, hk, hbest⟩ hb
    obtain ⟨w1, c, t1, w2, tsq, hq, hu, -, rfl⟩ := dcBody_cont hb
    obtain ⟨hq1, hq2⟩ := liftOracle_ok hq
    obtain ⟨hu1, hu2⟩ := space_update_ok hu
    obtain ⟨hi1, hsub, -, hc⟩ := hΩ _ _ _ _ _ _ hi hq1
    rw [hq2] at hu1
    refine ⟨by simpa only [hst1] using hst, by simp only [ht1, hu2]; exact hi1, update_wf hwf hu1, ?_, ?_, ?_⟩
    · simp only [ht1]; exact hsub.trans hk0
    · simp only [ht1]
      exact fun p hp hp0 => update_keep hwf hu1 (hk p (hsub hp) hp0) (mem_cutSet.1 (hc p hp).1)
    · exact hbst s w1 c t1 hi hbest hq1 hq2
  have hE1 : E = s.w.2 := by rw [← hw]
  rw [hE1]
  clear h hw
  rcases forRange_ok hf with ⟨s1, -, hr, hb⟩ | ⟨-, hr⟩
  · obtain ⟨hst, hi, hwf, hk0, hk, hbest⟩ := key hr
    obtain ⟨w1, c, t1, w2, st, tsq, hq, hu, hcase⟩ := dcBody_brk hb
    obtain ⟨hq1, hq2⟩ := liftOracle_ok hq
    obtain ⟨hu1, hu2⟩ := space_update_ok hu
    obtain ⟨hi1, hsub, hdb, hc⟩ := hΩ _ _ _ _ _ _ hi hq1
    rw [hq2] at hu1
    have hstop : st ≠ .success ∨ tsq < o.tol := by
      rcases hcase with ⟨h, -⟩ | ⟨-, h, -⟩
      · exact .inl h
      · exact .inr h
    have hs : s.t = t1.getD s1.t ∧ s.w = w2 := by
      rcases hcase with ⟨-, rfl⟩ | ⟨-, -, rfl⟩ <;> exact ⟨ht1 _ _ _, rfl⟩
    have hbb := hbst s1 w1 c t1 hi hbest hq1 hq2
    have hb3 : (s.xBest = none ∧ s.t = t0) ∨
        ∃ x t u u' c, s.xBest = some x ∧ Inv u t ∧ Ω x t u = .ok (u', c, some s.t) := by
      rcases hcase with ⟨-, rfl⟩ | ⟨-, -, rfl⟩ <;> exact hbb
    refine ⟨?_, ?_, ?_, hb3⟩
    all_goals rw [hs.1]
    rotate_left
    · rw [hs.2]; exact fun p hp hp0 => update_keep hwf hu1 (hk p (hsub hp) hp0) (mem_cutSet.1 (hc p hp).1)
    · exact hsub.trans hk0
    exact fun _ p hp hp0 => stop_excludes hwf hdb hu1 hstop (hk p (hsub hp) hp0) (hc p hp)
  · obtain ⟨hst, hi, hwf, hk0, hk, hbest⟩ := key hr
    exact ⟨fun h => absurd hst h, hk, hk0, hbest⟩

/-- **C72.**  Convergence of `cutting_plane_dc` on an `ell`.  `Good t` says that the value `t` can still be improved in
the following sense: whenever the oracle leaves the best value at a good `t'`, its cut keeps a fixed ball `B(a, r)`, is
deep or central, has `g ≠ 0`, and varies by at least `√tol` over the ball.  If the initial ellipsoid contains the ball
and `max_it` exceeds `(n+1)·ln(vsq(E₀)/r^(2n))`, then a run that returns has reached a value that is not good; and
the oracle has delivered such a value within its first `(n+1)·ln(vsq(E₀)/r^(2n)) + 1` calls, with no exception
before. -/
theorem C72_dc_ell_converges (Inv : W → T → Prop) (Good : T → Prop) {E₀ : Ell n} (hE : E₀.WF) {a : Fin n → ℝ} {r : ℝ}
    (hr : 0 < r) (hball : euclBall a r ⊆ E₀.pts) {o : Options ℝ}
    (hΩ : ∀ x t w, Inv w t → ∃ w' c t1, Ω x t w = .ok (w', c, t1) ∧ Inv w' (t1.getD t) ∧ (Good (t1.getD t) → Good t) ∧
      (Good (t1.getD t) → euclBall a r ⊆ cutSet x c ∧ deepBeta c.2 ∧ c.1 ≠ 0 ∧
        ∃ p ∈ euclBall a r, o.tol ≤ (c.1 ⬝ᵥ (p - x)) ^ 2))
    (hmax : ((n : ℝ) + 1) * Real.log (E₀.vsq / (r ^ 2) ^ n) < o.maxIt) {w₀ : W} {t0 : T} (hw₀ : Inv w₀ t0) :
    (∀ w E xb t info, cuttingPlaneDc (fun x t => liftOracle (Ω x t)) (Ell.space W n) t0 o (w₀, E₀) =
        .ok ((w, E), xb, t, info) → ¬ Good t) ∧
    ∃ (k : ℕ) (l : _) (u : _) (u' : _) (c : _) (t1 : _), (k : ℝ) ≤ ((n : ℝ) + 1) * Real.log (E₀.vsq / (r ^ 2) ^ n) ∧
      DcRounds (fun x t => liftOracle (Ω x t)) (Ell.space W n) o.tol t0 (w₀, E₀) k l u ∧
      Ω u.2.xc (bestT t0 l) u.1 = .ok (u', c, t1) ∧ ¬ Good (t1.getD (bestT t0 l)) := by
  have hn1 : (0 : ℝ) < (n : ℝ) + 1 := by positivity
  have hV0 : 0 < E₀.vsq := vsq_pos (proper_of_ball hE hr hball)
  have hrn : 0 < (r ^ 2) ^ n := by positivity
  let P : ℕ → DcSt (W × Ell n) (Fin n → ℝ) T → Prop := fun k s =>
    Inv s.w.1 s.t ∧ s.w.2.WF ∧
      (Good s.t → euclBall a r ⊆ s.w.2.pts ∧ s.w.2.vsq ≤ Real.exp (-(k / ((n : ℝ) + 1))) * E₀.vsq) ∧
      ∃ l, DcRounds (fun x t => liftOracle (Ω x t)) (Ell.space W n) o.tol t0 (w₀, E₀) k l s.w ∧ s.t = bestT t0 l
  have ht1 : ∀ (s : DcSt (W × Ell n) (Fin n → ℝ) T) w1 (t1 : Option T),
      (dcAfter (Ell.space W n) s w1 t1).t = t1.getD s.t := by
    intro s w1 t1; cases t1 <;> rfl
  have hB : ∀ k s, P k s → Good s.t → (k : ℝ) ≤ ((n : ℝ) + 1) * Real.log (E₀.vsq / (r ^ 2) ^ n) := by
    rintro k s ⟨-, hwf, hg, -⟩ hgood
    obtain ⟨hb, hv⟩ := hg hgood
    have h1 := (ball_vsq hwf hr hb).trans hv
    rw [Real.exp_neg, inv_mul_eq_div, le_div_iff₀ (Real.exp_pos _)] at h1
    have h2 : Real.exp (k / ((n : ℝ) + 1)) ≤ E₀.vsq / (r ^ 2) ^ n := by
      rw [le_div_iff₀ hrn]; linarith
    have h3 := (Real.le_log_iff_exp_le (div_pos hV0 hrn)).2 h2
    rw [div_le_iff₀ hn1] at h3
    linarith
  have key : ∀ {j s1}, Rounds (dcBody (fun x t => liftOracle (Ω x t)) (Ell.space W n) o.tol) 0
      ⟨(w₀, E₀), none, t0, .success⟩ j s1 → P j s1 := by
    intro j s1 hrd
    refine Rounds.inv P ?_ ?_ hrd
    · exact ⟨hw₀, hE, fun _ => ⟨hball, by simp⟩, [], .nil, rfl⟩
    rintro j s s' ⟨hi, hwf, hg, l, hl, hlt⟩ hb
    obtain ⟨w1, c, t1, w2, tsq, hq, hu, htol, rfl⟩ := dcBody_cont hb
    obtain ⟨hq1, hq2⟩ := liftOracle_ok hq
    obtain ⟨hu1, hu2⟩ := space_update_ok hu
    obtain ⟨w', c', t1', hq', hi', hgm, hgc⟩ := hΩ ((Ell.space W n).xc s.w) s.t s.w.1 hi
    rw [hq1] at hq'
    simp only [Except.ok.injEq, Prod.mk.injEq] at hq'
    obtain ⟨rfl, rfl, rfl⟩ := hq'
    rw [hq2] at hu1
    refine ⟨by simp only [ht1, hu2]; exact hi', update_wf hwf hu1, ?_, l ++ [.query s.w ((Ell.space W n).xc s.w, bestT t0 l) (c, t1) w1, .update w1 c .success tsq w2], ?_, ?_⟩
    · simp only [ht1]
      intro hgd
      obtain ⟨hb1, hv1⟩ := hg (hgm hgd)
      obtain ⟨h1, h2, h3, -⟩ := hgc hgd
      obtain ⟨E', tsq', hu', -, -, -, hb', hv'⟩ := round_ok hwf hr hb1 h2 h3 h1
      rw [hu1] at hu'
      simp only [Except.ok.injEq, Prod.mk.injEq] at hu'
      obtain ⟨rfl, -, -⟩ := hu'
      refine ⟨hb', hv'.trans ?_⟩
      have := mul_le_mul_of_nonneg_left hv1 (Real.exp_pos (-(1 / ((n : ℝ) + 1)))).le
      refine this.trans (le_of_eq ?_)
      rw [← mul_assoc, ← Real.exp_add]
      congr 2
      push_cast; ring
    · rw [hlt] at hq
      exact DcRounds.snoc hl hq hu htol
    · simp only [ht1]
      cases t1 with
      | none =>
        simp only [bestT, improvements_append, improvements_query_none, improvements_update, improvements_nil,
          List.append_nil, Option.getD_none]
        exact hlt
      | some t' => simp [bestT]
  constructor
  · intro w E xb t info h hgood
    obtain ⟨s, i, hf, hw, rfl, rfl, rfl⟩ := dc_ok h
    rcases forRange_ok hf with ⟨s1, -, hr1, hb⟩ | ⟨hi, hr1⟩
    · obtain ⟨hi, hwf, hg, -⟩ := key hr1
      obtain ⟨w1, c, t1, w2, st, tsq, hq, hu, hcase⟩ := dcBody_brk hb
      obtain ⟨hq1, hq2⟩ := liftOracle_ok hq
      obtain ⟨hu1, hu2⟩ := space_update_ok hu
      obtain ⟨w', c', t1', hq', hi', hgm, hgc⟩ := hΩ ((Ell.space W n).xc s1.w) s1.t s1.w.1 hi
      rw [hq1] at hq'
      simp only [Except.ok.injEq, Prod.mk.injEq] at hq'
      obtain ⟨rfl, rfl, rfl⟩ := hq'
      have hs : s.t = t1.getD s1.t := by
        rcases hcase with ⟨-, rfl⟩ | ⟨-, -, rfl⟩ <;> exact ht1 _ _ _
      rw [hs] at hgood
      obtain ⟨hb1, -⟩ := hg (hgm hgood)
      obtain ⟨h1, h2, h3, p, hp, htol⟩ := hgc hgood
      obtain ⟨E', tsq', hu', -, hpt, -⟩ := round_ok hwf hr hb1 h2 h3 h1
      rw [hq2] at hu1
      rw [hu1] at hu'
      simp only [Except.ok.injEq, Prod.mk.injEq] at hu'
      obtain ⟨-, rfl, rfl⟩ := hu'
      rcases hcase with ⟨h, -⟩ | ⟨-, h, -⟩
      · exact h rfl
      · exact absurd (htol.trans (hpt p hp)) (not_le.2 h)
    · have h1 := hB _ _ (key hr1) hgood
      have h2 : ((i + 1 : ℕ) : ℝ) = o.maxIt := by exact_mod_cast hi
      linarith
  · by_contra hno
    have hno : ∀ (k : ℕ) l u u' c t1, (k : ℝ) ≤ ((n : ℝ) + 1) * Real.log (E₀.vsq / (r ^ 2) ^ n) →
        DcRounds (fun x t => liftOracle (Ω x t)) (Ell.space W n) o.tol t0 (w₀, E₀) k l u →
        Ω u.2.xc (bestT t0 l) u.1 = .ok (u', c, t1) → Good (t1.getD (bestT t0 l)) := by
      intro k l u u' c t1 h1 h2 h3
      by_contra h4
      exact hno ⟨k, l, u, u', c, t1, h1, h2, h3, h4⟩
    have h00 : P 0 ⟨(w₀, E₀), none, t0, .success⟩ := ⟨hw₀, hE, fun _ => ⟨hball, by simp⟩, [], .nil, rfl⟩
    have hb0 : (0 : ℝ) ≤ ((n : ℝ) + 1) * Real.log (E₀.vsq / (r ^ 2) ^ n) := by
      refine mul_nonneg hn1.le (Real.log_nonneg ?_)
      rw [le_div_iff₀ hrn, one_mul]
      exact ball_vsq hE hr hball
    have all : ∀ k : ℕ, ∃ s, P k s ∧ Good s.t ∧
        Rounds (dcBody (fun x t => liftOracle (Ω x t)) (Ell.space W n) o.tol) 0 ⟨(w₀, E₀), none, t0, .success⟩ k s := by
      intro k
      induction k with
      | zero =>
        refine ⟨_, h00, ?_, .refl⟩
        obtain ⟨w', c, t1, hq, -, hgm, -⟩ := hΩ E₀.xc t0 w₀ hw₀
        exact hgm (hno 0 [] (w₀, E₀) w' c t1 (by simpa using hb0) .nil hq)
      | succ k ih =>
        obtain ⟨s, hP, hgd, hrd⟩ := ih
        have hk := hB k s hP hgd
        obtain ⟨hi, hwf, hg, l, hl, hlt⟩ := hP
        obtain ⟨w', c, t1, hq, hi', hgm, hgc⟩ := hΩ s.w.2.xc s.t s.w.1 hi
        have hgd' : Good (t1.getD s.t) := by
          have := hno k l s.w w' c t1 hk hl (by rw [← hlt]; exact hq)
          rwa [← hlt] at this
        obtain ⟨h1, h2, h3, p, hp, htol⟩ := hgc hgd'
        obtain ⟨hb1, hv1⟩ := hg hgd
        obtain ⟨E', tsq', hu', -, hpt, -⟩ := round_ok hwf hr hb1 h2 h3 h1
        have hnt : ¬ tsq' < o.tol := not_lt.2 (htol.trans (hpt p hp))
        have hbody : dcBody (fun x t => liftOracle (Ω x t)) (Ell.space W n) o.tol k s =
            .ok (.cont { dcAfter (Ell.space W n) s (w', s.w.2) t1 with w := (w', E') }) := by
          have hq2 : liftOracle (Ω ((Ell.space W n).xc s.w) s.t) s.w = .ok ((w', s.w.2), c, t1) := by
            simp only [liftOracle, Ell.space, hq]
          have hu2 : (Ell.space W n).update c (w', s.w.2) = .ok ((w', E'), .success, tsq') := by
            simp only [Ell.space]
            have : update c s.w.2 = .ok (E', .success, tsq') := hu'
            rw [this]
          simp only [dcBody, hq2, hu2]
          simp only [ne_eq, not_true_eq_false, if_false, hnt]
          cases t1 <;> rfl
        have hrd' := Rounds.snoc hrd hbody
        exact ⟨_, key hrd', by simp only [ht1]; exact hgd', hrd'⟩
    obtain ⟨k, hk⟩ := exists_nat_gt (((n : ℝ) + 1) * Real.log (E₀.vsq / (r ^ 2) ^ n))
    obtain ⟨s, hP, hgd, -⟩ := all k
    have := hB k s hP hgd
    linarith
end dc

/-- The constructor's ball: `(n+1)·ln(vsq/r^(2n)) = 2n(n+1)·ln(R/r)`. -/
theorem Ell.init_bound (hn : 2 ≤ n) {x₀ : Fin n → ℝ} {R r : ℝ} {E₀ : Ell n}
    (hinit : Ell.init (.scalar (R ^ 2)) x₀ = .ok E₀) :
    E₀.WF ∧ E₀.pts = euclBall x₀ R ∧
      ((n : ℝ) + 1) * Real.log (E₀.vsq / (r ^ 2) ^ n) = 2 * n * ((n : ℝ) + 1) * Real.log (R / r) := by
  obtain ⟨hwf, -, -, -, hpts⟩ := C24_ell_init_ball hn (sq_nonneg R) hinit
  have h3 : E₀ = ⟨true, false, x₀, 1, R ^ 2⟩ := by
    unfold Ell.init at hinit
    split at hinit
    · simp at hinit
    · simp only [Except.ok.injEq] at hinit; exact hinit.symm
  refine ⟨hwf, hpts, ?_⟩
  have : E₀.vsq = (R ^ 2) ^ n := by rw [h3]; simp [Ell.vsq]
  rw [this, ← div_pow, ← div_pow, Real.log_pow, Real.log_pow]
  push_cast; ring

/-! ### The tolerance is compared with the scale of the cut -/

/-- A feasibility oracle for the open half-space `x i < 0`, whose gradients have length `eps`. -/
noncomputable def halfOracle (i : Fin n) (eps : ℝ) (x : Fin n → ℝ) (u : Unit) :
    Except PyErr (Unit × Option ((Fin n → ℝ) × Beta)) :=
  if x i < 0 then .ok (u, none) else .ok (u, some (Pi.single i eps, .scalar 0))

theorem halfOracle_update (i : Fin n) {eps R : ℝ} (he : 0 < eps) (hR : 0 < R) :
    ∃ E' : Ell n, update (Pi.single i eps, .scalar 0) ⟨true, false, 0, 1, R ^ 2⟩ =
      .ok (E', .success, R ^ 2 * (eps * eps)) ∧ E'.xc i < 0 := by
  have h1 : (Pi.single i eps : Fin n → ℝ) ⬝ᵥ (1 : Matrix (Fin n) (Fin n) ℝ) *ᵥ Pi.single i eps = eps * eps := by
    simp
  have h2 : ¬ R ^ 2 * (eps * eps) < 0 := not_lt.2 (by positivity)
  have h3 : √(R ^ 2 * (eps * eps)) = R * eps := by
    rw [show R ^ 2 * (eps * eps) = (R * eps) ^ 2 by ring]; exact Real.sqrt_sq (by positivity)
  have h4 : ¬ R * eps - 0 < 0 := not_lt.2 (by rw [sub_zero]; positivity)
  have h5 : eps * eps ≠ 0 := by positivity
  refine ⟨⟨true, false, 0 - (R * eps / ((n : ℝ) + 1) / (eps * eps)) • (1 : Matrix (Fin n) (Fin n) ℝ) *ᵥ Pi.single i eps,
    1 - (c2 n / (eps * eps)) • vecMulVec ((1 : Matrix (Fin n) (Fin n) ℝ) *ᵥ Pi.single i eps)
      ((1 : Matrix (Fin n) (Fin n) ℝ) *ᵥ Pi.single i eps), R ^ 2 * c1 n⟩, ?_, ?_⟩
  · simp only [update, h1, calcLl, calcDc, pySqrt, if_neg h2, h3, if_neg h4, calcCc, pyDiv, if_neg h5, if_true]
    rfl
  · simp only [Pi.sub_apply, Pi.zero_apply, Pi.smul_apply, Matrix.one_mulVec, Pi.single_eq_same, smul_eq_mul]
    have : (0 : ℝ) < n + 1 := by positivity
    have : 0 < R * eps / ((n : ℝ) + 1) / (eps * eps) * eps := by positivity
    linarith

/-- **C76**.  The `tol` test of `cutting_plane_feas` on an `ell` compares with the squared scale of the cut, not with
the size of the region.  For the half-space `x i < 0`, which covers half of the initial ball `ell(R², 0)`, and a correct oracle
whose gradients have length `eps`: if `(R·eps)² < tol` every run with `max_it ≥ 1` reports "not feasible, smallenough"
after its first iteration; if `(R·eps)² ≥ tol` every run with `max_it ≥ 2` reports feasible at its second.  So
multiplying the oracle's cuts by a positive number can turn "feasible" into "not feasible". -/
theorem C76_tol_scale_dependent (i : Fin n) {eps R : ℝ} (he : 0 < eps) (hR : 0 < R) {o : Options ℝ} :
    ((R * eps) ^ 2 < o.tol → 1 ≤ o.maxIt → ∃ E, cuttingPlaneFeas (fun x => liftOracle (halfOracle i eps x))
      (Ell.space Unit n) o ((), ⟨true, false, 0, 1, R ^ 2⟩) = .ok (((), E), ⟨false, 1, .smallenough⟩)) ∧
    (o.tol ≤ (R * eps) ^ 2 → 2 ≤ o.maxIt → ∃ E, cuttingPlaneFeas (fun x => liftOracle (halfOracle i eps x))
      (Ell.space Unit n) o ((), ⟨true, false, 0, 1, R ^ 2⟩) = .ok (((), E), ⟨true, 2, .success⟩) ∧ E.xc i < 0) := by
  obtain ⟨E', hu, hx⟩ := halfOracle_update i he hR
  have e : R ^ 2 * (eps * eps) = (R * eps) ^ 2 := by ring
  refine ⟨fun ht hm => ⟨E', ?_⟩, fun ht hm => ⟨E', ?_, hx⟩⟩
  · obtain ⟨k, hk⟩ : ∃ k, o.maxIt.toNat = k + 1 := ⟨o.maxIt.toNat - 1, by omega⟩
    rw [← e] at ht
    simp [cuttingPlaneFeas, forRange, hk, forLoop, feasBody, Ell.space, liftOracle, halfOracle, hu, ht, readVar]
  · obtain ⟨k, hk⟩ : ∃ k, o.maxIt.toNat = k + 1 + 1 := ⟨o.maxIt.toNat - 2, by omega⟩
    rw [← e, ← not_lt] at ht
    simp [cuttingPlaneFeas, forRange, hk, forLoop, feasBody, Ell.space, liftOracle, halfOracle, hu, ht, readVar, hx]

/-- C76 at the default `tol = 1e-8`, radius 4: gradients of length `1e-5`, a half ball of feasible points, and
the answer is "not feasible". -/
example : ∃ E, cuttingPlaneFeas (fun x => liftOracle (halfOracle (0 : Fin 2) (1 / 10 ^ 5) x))
      (Ell.space Unit 2) ⟨2000, 1 / 10 ^ 8⟩ ((), ⟨true, false, 0, 1, 4 ^ 2⟩) =
        .ok (((), E), ⟨false, 1, .smallenough⟩) :=
  (C76_tol_scale_dependent 0 (by norm_num) (by norm_num)).1 (by norm_num) (by norm_num)

end Verif
