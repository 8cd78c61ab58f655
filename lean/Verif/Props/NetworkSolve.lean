import Verif.Props.EllSolve
import Verif.Props.Network

/-!
# C94: optimal matrix scaling end to end

`cutting_plane_dc(optscaling_oracle(G, u, get_cost), ell(R², x₀), t0)` as in `tests/test_optscaling.py`.
-/
namespace Verif
open Matrix Ell
variable {V : Type _} [LinearOrder V]

/-- `optscaling_oracle` as the `Omega` of `cutting_plane_dc`; its state is the list `u`. -/
noncomputable def scalingOmega (find : Finder V ℝ) (E : List (V × V)) (cost : V × V → ℝ) (x : Fin 2 → ℝ) (t : WithTop ℝ)
    (u : V → ℝ) : Except PyErr ((V → ℝ) × ((Fin 2 → ℝ) × Beta) × Option (WithTop ℝ)) :=
  (optscalingCall find E cost x t u).map fun r => (r.1, (r.2.1.1, .scalar r.2.1.2), r.2.2)

theorem scalingOmega_answer {G : List (V × V)} (hG : ∀ e ∈ G, e.1 ≠ e.2) {find : Finder V ℝ} (hfind : FinderOK G find)
    (cost : V × V → ℝ) (x : Fin 2 → ℝ) (t : WithTop ℝ) (u : V → ℝ) :
    ∃ u' g β t1, scalingOmega find G cost x t u = .ok (u', (g, .scalar β), t1) ∧ t1.getD t ≤ t ∧
      (∀ v, t1 = some v → v = ((x 0 - x 1 : ℝ) : WithTop ℝ) ∧ v < t ∧ ScalingFeasible G cost (x 0) (x 1)) ∧ g ≠ 0 ∧ 0 ≤ β ∧
      ∀ (z : Fin 2 → ℝ) (δ : ℝ), 0 ≤ δ → ScalingFeasible G cost (z 0 - δ) (z 1 + δ) →
        ((z 0 - z 1 + δ : ℝ) : WithTop ℝ) ≤ t1.getD t → g ⬝ᵥ (z - x) + β ≤ -δ := by
  obtain ⟨u', cut, t1, h1, h2, h3, h4, -, h6⟩ := C43_optscaling_oracle hG hfind cost x t u
  refine ⟨u', cut.1, cut.2, t1, by simp [scalingOmega, h1, Except.map], ?_, fun v hv => ?_, h3, h4, h6⟩
  · cases t1 with
    | none => exact le_rfl
    | some v =>
      obtain ⟨e, hlt, -⟩ := (h2 v).1 rfl
      exact (e ▸ hlt).le
  · obtain ⟨e, hlt, hf⟩ := (h2 v).1 hv
    exact ⟨e, e ▸ hlt, hf⟩

/-- **C94** (verdict).  Every graph without self-loops, every correct cycle finder, any start level (also `inf`).  The
returned level is the initial one, or `x[0] - x[1]` at the returned point, which admits a scaling; and if the run stopped by
itself, then no `(π, ψ)` that admits a scaling beats the level by more than `3δ`, for every `δ ≥ √tol` such that
`(π + δ, ψ - δ)` is in the initial ellipsoid. -/
theorem C94_optscaling_verdict {G : List (V × V)} (hG : ∀ e ∈ G, e.1 ≠ e.2) {find : Finder V ℝ} (hfind : FinderOK G find)
    (cost : V × V → ℝ) {E₀ E : Ell 2} (hE : E₀.WF) {o : Options ℝ} {t0 t : WithTop ℝ} {xb : Option (Fin 2 → ℝ)}
    {info : CInfo} {u₀ u : V → ℝ}
    (hr : cuttingPlaneDc (fun x t => liftOracle (scalingOmega find G cost x t)) (Ell.space (V → ℝ) 2) t0 o (u₀, E₀) =
      .ok ((u, E), xb, t, info)) :
    ((xb = none ∧ t = t0) ∨ ∃ x, xb = some x ∧ ScalingFeasible G cost (x 0) (x 1) ∧ t = ((x 0 - x 1 : ℝ) : WithTop ℝ) ∧ t < t0) ∧
    (info.status ≠ .success → ∀ π ψ δ : ℝ, ScalingFeasible G cost π ψ → 0 ≤ δ → o.tol ≤ δ ^ 2 → ![π + δ, ψ - δ] ∈ E₀.pts →
      t < ((π - ψ + 3 * δ : ℝ) : WithTop ℝ)) := by
  have key := C71_dc_ell_verdict (Ω := scalingOmega find G cost) (fun _ t => t ≤ t0)
    (fun t => {z | ∃ δ : ℝ, 0 ≤ δ ∧ o.tol ≤ δ ^ 2 ∧ ScalingFeasible G cost (z 0 - δ) (z 1 + δ) ∧
      ((z 0 - z 1 + δ : ℝ) : WithTop ℝ) ≤ t}) hE (o := o) ?_ (w₀ := u₀) (le_refl t0) hr
  · obtain ⟨h1, -, -, h4⟩ := key
    refine ⟨?_, fun hs π ψ δ hf h0 hd hz => ?_⟩
    · rcases h4 with h4 | ⟨x, s, w, w', c, hx, hs0, hq⟩
      · exact .inl h4
      · obtain ⟨u', g, β, t1, e1, -, e3, -⟩ := scalingOmega_answer hG hfind cost x s w
        rw [hq] at e1
        simp only [Except.ok.injEq, Prod.mk.injEq] at e1
        obtain ⟨a1, a2, a3⟩ := e3 t e1.2.2.symm
        exact .inr ⟨x, hx, a3, a1, a2.trans_le hs0⟩
    · by_contra hcon
      refine h1 hs ![π + δ, ψ - δ] ⟨δ, h0, hd, ?_, ?_⟩ hz
      · simpa using hf
      · refine le_trans (le_of_eq ?_) (not_lt.1 hcon)
        congr 1
        simp only [cons_val_zero, cons_val_one]; ring
  · rintro x t w w' c t1 hs0 hq
    obtain ⟨u', g, β, t1', e1, e2, -, -, e5, e6⟩ := scalingOmega_answer hG hfind cost x t w
    rw [hq] at e1
    simp only [Except.ok.injEq, Prod.mk.injEq] at e1
    obtain ⟨rfl, rfl, rfl⟩ := e1
    refine ⟨e2.trans hs0, ?_, e5, ?_⟩
    · rintro z ⟨δ, h0, hd, h1, h2⟩
      exact ⟨δ, h0, hd, h1, h2.trans e2⟩
    · rintro z ⟨δ, h0, hd, h1, h2⟩
      have h3 := e6 z δ h0 h1 h2
      refine ⟨?_, ?_⟩
      · change g ⬝ᵥ (z - x) + β ≤ 0
        linarith
      · change o.tol ≤ (g ⬝ᵥ (z - x)) ^ 2
        nlinarith

/-- **C94** (accuracy).  If `(π, ψ)` admits a scaling and the disc of radius `r` around `(π + 2r, ψ - 2r)` is inside the
initial disc of radius `R`, then with `tol ≤ r²` and `max_it > 12·ln(R/r)` every run that returns has a level below
`π - ψ + 7r`; such a level is reported within `12·ln(R/r) + 1` oracle calls. -/
theorem C94_optscaling_converges {G : List (V × V)} (hG : ∀ e ∈ G, e.1 ≠ e.2) {find : Finder V ℝ} (hfind : FinderOK G find)
    (cost : V × V → ℝ) {E₀ : Ell 2} {x₀ : Fin 2 → ℝ} {R r π ψ : ℝ} (hr : 0 < r)
    (hinit : Ell.init (.scalar (R ^ 2)) x₀ = .ok E₀) (hf : ScalingFeasible G cost π ψ)
    (hball : euclBall ![π + 2 * r, ψ - 2 * r] r ⊆ euclBall x₀ R) {o : Options ℝ} (htol : o.tol ≤ r ^ 2)
    (hmax : 12 * Real.log (R / r) < o.maxIt) (t0 : WithTop ℝ) (u₀ : V → ℝ) :
    (∀ u E xb t info, cuttingPlaneDc (fun x t => liftOracle (scalingOmega find G cost x t)) (Ell.space (V → ℝ) 2) t0 o (u₀, E₀) =
      .ok ((u, E), xb, t, info) → t < ((π - ψ + 7 * r : ℝ) : WithTop ℝ)) ∧
    ∃ (j : ℕ) (l : _) (u : _) (u' : _) (cut : _) (t1 : _), (j : ℝ) ≤ 12 * Real.log (R / r) ∧
      DcRounds (fun x t => liftOracle (scalingOmega find G cost x t)) (Ell.space (V → ℝ) 2) o.tol t0 (u₀, E₀) j l u ∧
      scalingOmega find G cost u.2.xc (bestT t0 l) u.1 = .ok (u', cut, t1) ∧
      t1.getD (bestT t0 l) < ((π - ψ + 7 * r : ℝ) : WithTop ℝ) := by
  obtain ⟨hwf, hpts, hB⟩ := init_bound (r := r) le_rfl hinit
  have h12 : 2 * ((2 : ℕ) : ℝ) * (((2 : ℕ) : ℝ) + 1) * Real.log (R / r) = 12 * Real.log (R / r) := by push_cast; ring
  rw [h12] at hB
  set a : Fin 2 → ℝ := ![π + 2 * r, ψ - 2 * r] with ha
  have hbd : ∀ z ∈ euclBall a r, |z 0 - (π + 2 * r)| ≤ r ∧ |z 1 - (ψ - 2 * r)| ≤ r := by
    intro z hz
    simp only [euclBall, Set.mem_ofPred_eq, Fin.sum_univ_two, ha, cons_val_zero, cons_val_one] at hz
    constructor <;> refine abs_le_of_sq_le_sq ?_ hr.le <;>
      nlinarith [sq_nonneg (z 0 - (π + 2 * r)), sq_nonneg (z 1 - (ψ - 2 * r))]
  have hc : a ∈ euclBall a r := by
    change ∑ i, (a i - a i) ^ 2 ≤ r ^ 2; simp; positivity
  have hmono : ∀ {π' ψ' : ℝ}, π ≤ π' → ψ' ≤ ψ → ScalingFeasible G cost π' ψ' := by
    rintro π' ψ' h1 h2
    obtain ⟨p, hp⟩ := hf
    exact ⟨p, fun e he => ⟨fun hlt => ((hp e he).1 hlt).trans h1, fun hlt => h2.trans ((hp e he).2 hlt)⟩⟩
  have key := C72_dc_ell_converges (Ω := scalingOmega find G cost) (fun _ _ => True)
    (fun t => ((π - ψ + 7 * r : ℝ) : WithTop ℝ) ≤ t) hwf hr (by rw [hpts]; exact hball) (o := o) (fun x t w _ => by
      obtain ⟨u', g, β, t1, e1, e2, -, e4, e5, e6⟩ := scalingOmega_answer hG hfind cost x t w
      refine ⟨u', _, t1, e1, trivial, fun h => le_trans h e2, fun h => ?_⟩
      have hz : ∀ z ∈ euclBall a r, g ⬝ᵥ (z - x) + β ≤ -r := by
        intro z hz
        obtain ⟨h1, h2⟩ := hbd z hz
        rw [abs_le] at h1 h2
        exact e6 z r hr.le (hmono (by linarith) (by linarith)) ((WithTop.coe_le_coe.2 (by linarith)).trans h)
      refine ⟨fun z h => ?_, e5, e4, a, hc, ?_⟩
      · change g ⬝ᵥ (z - x) + β ≤ 0
        linarith [hz z h]
      · have := hz a hc
        change o.tol ≤ (g ⬝ᵥ (a - x)) ^ 2
        nlinarith) (by rw [hB]; exact hmax) (w₀ := u₀) (t0 := t0) trivial
  obtain ⟨h1, j, l, u, u', cut, t1, h2, h3, h4, h5⟩ := key
  rw [hB] at h2
  exact ⟨fun u E xb t info h => not_le.1 (h1 u E xb t info h), j, l, u, u', cut, t1, h2, h3, h4, not_le.1 h5⟩

/-- C94 applies to the two-node graph with costs `3` and `1` in the two directions, the in-repository cycle finder,
`ell(100, 0)`, `t0 = inf` and default options: `(π, ψ) = (3, 1)` admits a scaling, so the returned level is below `2.07`. -/
example (u : Fin 2 → ℝ) (E : Ell 2) (xb : Option (Fin 2 → ℝ)) (t : WithTop ℝ) (info : CInfo)
    (h : cuttingPlaneDc (fun x t => liftOracle (scalingOmega (repoFinder exG2) exG2.edges (fun e => if e = (0, 1) then (3 : ℝ) else 1) x t))
      (Ell.space (Fin 2 → ℝ) 2) ⊤ ⟨2000, 1 / 10 ^ 8⟩ (fun _ => 0, ⟨true, false, 0, 1, 10 ^ 2⟩) = .ok ((u, E), xb, t, info)) :
    t < ((3 - 1 + 7 * (1 / 100) : ℝ) : WithTop ℝ) := by
  refine (C94_optscaling_converges (R := 10) (r := 1 / 100) (π := 3) (ψ := 1) (x₀ := 0) ?_ (C41_repoFinder exG2_nodes) _
    (by norm_num) ?_ ?_ ?_ (by norm_num) ?_ ⊤ (fun _ => 0)).1 u E xb t info h
  · decide
  · unfold Ell.init c1? pyDiv; norm_num
  · exact ⟨fun _ => 0, by simp [exG2]⟩
  · intro z hz
    simp only [euclBall, Set.mem_ofPred_eq, Fin.sum_univ_two, cons_val_zero, cons_val_one, Pi.zero_apply] at hz ⊢
    have h0 : |z 0 - (3 + 2 * (1 / 100))| ≤ 1 / 100 := abs_le_of_sq_le_sq (by nlinarith [sq_nonneg (z 1 - (1 - 2 * (1 / 100)))]) (by norm_num)
    have h1 : |z 1 - (1 - 2 * (1 / 100))| ≤ 1 / 100 := abs_le_of_sq_le_sq (by nlinarith [sq_nonneg (z 0 - (3 + 2 * (1 / 100)))]) (by norm_num)
    rw [abs_le] at h0 h1
    nlinarith
  · have hx : Real.log (10 / (1 / 100)) ≤ 3 * Real.log 10 := by
      rw [show (10 / (1 / 100) : ℝ) = 10 ^ 3 by norm_num, Real.log_pow]; norm_num
    have := Real.log_le_sub_one_of_pos (show (0 : ℝ) < 10 by norm_num)
    push_cast
    linarith

end Verif
