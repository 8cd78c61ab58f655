import Verif.Props.NetworkSolve
import Verif.Props.EllTotal

/-!
# C103: the start of `tests/test_optscaling.py`

`x0 = (cmax, cmin)`, `ell(1.5·(cmax - cmin), x0)`, start level `inf`, for an arbitrary graph and costs.
-/
namespace Verif
open Matrix Ell
variable {V : Type _} [LinearOrder V] {G : List (V × V)} {find : Finder V ℝ} {cost : V × V → ℝ} {cmax cmin : ℝ}

/-- The largest and the smallest cost admit the trivial scaling. -/
theorem scaling_trivial (h1 : ∀ e ∈ G, cost e ≤ cmax) (h2 : ∀ e ∈ G, cmin ≤ cost e) : ScalingFeasible G cost cmax cmin :=
  ⟨fun _ => 0, fun e he => ⟨fun _ => by linarith [h1 e he], fun _ => by linarith [h2 e he]⟩⟩

/-- **C103** every graph without self-loops, every correct cycle finder, costs between `cmin` and `cmax`, any ellipsoid centred at
`(cmax, cmin)`, any options: every run that returns reports a feasible solution, namely a point that admits a scaling and whose value
is at most `cmax - cmin`. -/
theorem C103_optscaling_start (hG : ∀ e ∈ G, e.1 ≠ e.2) (hfind : FinderOK G find) (h1 : ∀ e ∈ G, cost e ≤ cmax)
    (h2 : ∀ e ∈ G, cmin ≤ cost e) {E₀ E : Ell 2} (hE : E₀.WF) (hc : E₀.xc = ![cmax, cmin]) {o : Options ℝ} {t : WithTop ℝ}
    {xb : Option (Fin 2 → ℝ)} {info : CInfo} {u₀ u : V → ℝ}
    (hr : cuttingPlaneDc (fun x t => liftOracle (scalingOmega find G cost x t)) (Ell.space (V → ℝ) 2) ⊤ o (u₀, E₀) =
      .ok ((u, E), xb, t, info)) :
    info.feasible = true ∧ ∃ x, xb = some x ∧ ScalingFeasible G cost (x 0) (x 1) ∧ t = ((x 0 - x 1 : ℝ) : WithTop ℝ) ∧
      x 0 - x 1 ≤ cmax - cmin := by
  have hv := (C94_optscaling_verdict hG hfind cost hE hr).1
  obtain ⟨s, i, hf, hw, hx, rfl, rfl⟩ := dc_ok hr
  set body := dcBody (fun x t => liftOracle (scalingOmega find G cost x t)) (Ell.space (V → ℝ) 2) o.tol with hbody
  let s0 : DcSt ((V → ℝ) × Ell 2) (Fin 2 → ℝ) (WithTop ℝ) := ⟨(u₀, E₀), none, ⊤, .success⟩
  let Le (j : ℕ) (s : DcSt ((V → ℝ) × Ell 2) (Fin 2 → ℝ) (WithTop ℝ)) : Prop :=
    (j = 0 ∧ s = s0) ∨ (1 ≤ j ∧ s.t ≤ ((cmax - cmin : ℝ) : WithTop ℝ))
  have hq : ∀ j s w1 c t1, Le j s → liftOracle (scalingOmega find G cost s.w.2.xc s.t) s.w = .ok (w1, c, t1) →
      t1.getD s.t ≤ ((cmax - cmin : ℝ) : WithTop ℝ) := by
    intro j s w1 c t1 hs hq
    obtain ⟨hq1, -⟩ := liftOracle_ok hq
    rcases hs with ⟨-, rfl⟩ | ⟨-, hs⟩
    · obtain ⟨u', cut, t1', e1, e2, -⟩ := C43_optscaling_oracle hG hfind cost E₀.xc ⊤ u₀
      simp only [scalingOmega, s0, e1, Except.map, Except.ok.injEq, Prod.mk.injEq] at hq1
      rw [← hq1.2.2, (e2 ((cmax - cmin : ℝ) : WithTop ℝ)).2 ⟨by simp [hc], WithTop.coe_lt_top _, by simpa [hc] using scaling_trivial h1 h2⟩]
      exact le_rfl
    · obtain ⟨u', g, β, t1', e1, e2, -⟩ := scalingOmega_answer hG hfind cost s.w.2.xc s.t s.w.1
      rw [e1] at hq1
      simp only [Except.ok.injEq, Prod.mk.injEq] at hq1
      rw [← hq1.2.2]
      exact e2.trans hs
  have ht1 : ∀ (s : DcSt ((V → ℝ) × Ell 2) (Fin 2 → ℝ) (WithTop ℝ)) w1 (t1 : Option (WithTop ℝ)),
      (dcAfter (Ell.space (V → ℝ) 2) s w1 t1).t = t1.getD s.t := by
    intro s w1 t1; cases t1 <;> rfl
  have hR : ∀ {j s}, Rounds body 0 s0 j s → Le j s := fun h => Rounds.inv Le (.inl ⟨rfl, rfl⟩) (fun j s s' hs hb => by
    obtain ⟨w1, c, t1, w2, tsq, e1, -, -, rfl⟩ := dcBody_cont hb
    exact .inr ⟨by omega, by simpa only [ht1] using hq j s w1 c t1 hs e1⟩) h
  have hle : s.t ≤ ((cmax - cmin : ℝ) : WithTop ℝ) := by
    rcases forRange_ok hf with ⟨s1, -, h, hb⟩ | ⟨-, h⟩
    · obtain ⟨w1, c, t1, w2, st, tsq, e1, -, e3⟩ := dcBody_brk hb
      have := hq i s1 w1 c t1 (hR h) e1
      rcases e3 with ⟨-, rfl⟩ | ⟨-, -, rfl⟩ <;> simpa only [ht1] using this
    · rcases hR h with ⟨h, -⟩ | ⟨-, h⟩
      · omega
      · exact h
  rcases hv with ⟨-, hv⟩ | ⟨x, e1, e2, e3, -⟩
  · rw [hv] at hle; simp at hle
  · refine ⟨by simp [e3], x, e1, e2, e3, ?_⟩
    rw [e3] at hle
    exact WithTop.coe_le_coe.1 hle

/-- **C103** the run returns, or divides by zero after an exactly tangent cut. -/
theorem C103_optscaling_total (hG : ∀ e ∈ G, e.1 ≠ e.2) (hfind : FinderOK G find) {E₀ : Ell 2} (hE : E₀.Proper) {o : Options ℝ}
    (hmax : 1 ≤ o.maxIt) (htol : 0 < o.tol) (t0 : WithTop ℝ) (u₀ : V → ℝ) :
    (∃ r, cuttingPlaneDc (fun x t => liftOracle (scalingOmega find G cost x t)) (Ell.space (V → ℝ) 2) t0 o (u₀, E₀) = .ok r) ∨
    cuttingPlaneDc (fun x t => liftOracle (scalingOmega find G cost x t)) (Ell.space (V → ℝ) 2) t0 o (u₀, E₀) =
      .error .zeroDivision := by
  have hans : Answers (fun _ : V → ℝ => True) (scalingOmega find G cost) := by
    intro x t u _
    obtain ⟨u', g, β, t1, e1, -, -, e4, e5, -⟩ := scalingOmega_answer hG hfind cost x t u
    exact ⟨u', g, β, t1, e1, trivial, e5, e4⟩
  rcases C99_dc_total hans hE hmax htol (w₀ := u₀) trivial t0 with h | ⟨h, -⟩
  · exact .inl h
  · exact .inr h

/-- **C103** (when every edge has its reverse with the same cost, as in the test): no scaling has `π < ψ`, so the value is
nonnegative. -/
theorem C103_value_nonneg {e : V × V} (he : e ∈ G) (he' : e.swap ∈ G) (hne : e.1 ≠ e.2) (hsym : cost e.swap = cost e) {π ψ : ℝ}
    (h : ScalingFeasible G cost π ψ) : ψ ≤ π := by
  obtain ⟨p, hp⟩ := h
  have a := hp e he
  have b := hp e.swap he'
  simp only [Prod.fst_swap, Prod.snd_swap, hsym] at b
  rcases lt_or_gt_of_ne hne with h | h
  · linarith [a.1 h, b.2 h]
  · linarith [a.2 h, b.1 h]

/-- **C103** (finding).  `ell(1.5·t, x0)` takes `1.5·t` as the square of the radius, so for a spread `t = cmax - cmin > 3` the initial
disc need not contain an optimum: for the path `0 – 1 – 2` with costs `0` and `t` every `(c, c)` admits a scaling (value 0), but every
point of the initial disc has a value of at least `t - √(3t) > 0`. -/
theorem C103_disc_misses {t : ℝ} (ht : 3 < t) :
    ∃ cost : Fin 3 × Fin 3 → ℝ, (∀ e ∈ ([(0, 1), (1, 0), (1, 2), (2, 1)] : List (Fin 3 × Fin 3)), 0 ≤ cost e ∧ cost e ≤ t ∧ cost e.swap = cost e) ∧
      (∃ e ∈ ([(0, 1), (1, 0), (1, 2), (2, 1)] : List (Fin 3 × Fin 3)), cost e = 0) ∧
      (∃ e ∈ ([(0, 1), (1, 0), (1, 2), (2, 1)] : List (Fin 3 × Fin 3)), cost e = t) ∧
      (∀ c, ScalingFeasible [(0, 1), (1, 0), (1, 2), (2, 1)] cost c c) ∧
      0 < t - √(3 * t) ∧ ∀ E₀, Ell.init (.scalar (1.5 * t)) ![t, 0] = .ok E₀ → ∀ z ∈ E₀.pts, t - √(3 * t) ≤ z 0 - z 1 := by
  refine ⟨fun e => if e = (0, 1) ∨ e = (1, 0) then 0 else t, ?_, ⟨(0, 1), by simp, by simp⟩, ⟨(1, 2), by simp, by simp⟩, fun c => ?_, ?_, ?_⟩
  · intro e he
    simp only [List.mem_cons, List.not_mem_nil, or_false] at he
    rcases he with rfl | rfl | rfl | rfl <;> simp <;> linarith
  · refine ⟨![0, c, 2 * c - t], ?_⟩
    intro e he
    simp only [List.mem_cons, List.not_mem_nil, or_false] at he
    rcases he with rfl | rfl | rfl | rfl <;> simp <;> linarith
  · have : √(3 * t) < t := by rw [Real.sqrt_lt' (by linarith)]; nlinarith
    linarith
  · intro E₀ hinit z hz
    have h15 : 1.5 * t = √(1.5 * t) ^ 2 := (Real.sq_sqrt (by linarith)).symm
    rw [h15] at hinit
    rw [(init_bound (r := 1) le_rfl hinit).2.1] at hz
    simp only [euclBall, Set.mem_ofPred_eq] at hz
    rw [← h15, Fin.sum_univ_two] at hz
    simp only [cons_val_zero, cons_val_one, sub_zero] at hz
    have h3 : (t - (z 0 - z 1)) ≤ √(3 * t) := by
      apply Real.le_sqrt_of_sq_le
      nlinarith [sq_nonneg (z 0 - t + z 1)]
    linarith

/-- The theorem applies to the two-node graph with costs 3 and 1, the in-repository finder, `ell(1.5·2, (3, 1))`, default options. -/
example {E : Ell 2} {t : WithTop ℝ} {xb : Option (Fin 2 → ℝ)} {info : CInfo} {u : Fin 2 → ℝ}
    (hr : cuttingPlaneDc (fun x t => liftOracle (scalingOmega (repoFinder exG2) exG2.edges (fun e => if e = (0, 1) then (3 : ℝ) else 1) x t))
      (Ell.space (Fin 2 → ℝ) 2) ⊤ ⟨2000, 1e-8⟩ (fun _ => 0, ⟨true, false, ![3, 1], 1, 3⟩) = .ok ((u, E), xb, t, info)) :
    info.feasible = true ∧ ∃ v : ℝ, t = (v : WithTop ℝ) ∧ v ≤ 2 := by
  obtain ⟨h1, x, -, -, h4, h5⟩ := C103_optscaling_start (cmax := 3) (cmin := 1) (by decide) (C41_repoFinder exG2_nodes)
    (by intro e he; split_ifs <;> norm_num) (by intro e he; split_ifs <;> norm_num) (Ell.Proper.wf ⟨le_rfl, Matrix.PosDef.one, by norm_num⟩) rfl hr
  exact ⟨h1, _, h4, by linarith⟩

end Verif
