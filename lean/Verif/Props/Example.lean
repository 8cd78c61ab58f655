import Verif.Props.Quasi

/-! # C100: the linear programs of `tests/test_example1.py` and `tests/test_example2.py` -/
namespace Verif
open Matrix Ell

/-- The constraints `x + y ≤ 3` and `x - y ≥ 1`. -/
def LpFeasible (z : Fin 2 → ℝ) : Prop := z 0 + z 1 ≤ 3 ∧ 1 ≤ z 0 - z 1

/-- The oracle accepts exactly the feasible points. -/
theorem lpCut_none {z : Fin 2 → ℝ} : lpCut z = none ↔ LpFeasible z := by
  unfold lpCut LpFeasible
  constructor
  · intro h
    simp only at h
    split_ifs at h with h1 h2
    exact ⟨by linarith, by linarith⟩
  · rintro ⟨h1, h2⟩
    simp only
    rw [if_neg (by linarith), if_neg (by linarith)]

/-- A cut has positive `β`, a nonzero gradient, and at every point that satisfies the constraints with room `δ` it has room `δ`. -/
theorem lpCut_some {x : Fin 2 → ℝ} {c : (Fin 2 → ℝ) × Beta} (h : lpCut x = some c) :
    ∃ g β, c = (g, .scalar β) ∧ 0 < β ∧ g ≠ 0 ∧
      ∀ (z : Fin 2 → ℝ) (δ : ℝ), z 0 + z 1 ≤ 3 - δ → 1 + δ ≤ z 0 - z 1 → g ⬝ᵥ (z - x) + β ≤ -δ := by
  unfold lpCut at h
  simp only at h
  split_ifs at h with h1 h2
  · obtain rfl := Option.some.inj h
    refine ⟨_, _, rfl, h1, fun h0 => by simpa using congrFun h0 0, fun z δ h3 h4 => ?_⟩
    rw [dot2]; simp; linarith
  · obtain rfl := Option.some.inj h
    refine ⟨_, _, rfl, h2, fun h0 => by simpa using congrFun h0 1, fun z δ h3 h4 => ?_⟩
    rw [dot2]; simp; linarith

/-- `my_oracle2` as a stateless oracle of the feasibility driver. -/
noncomputable def lpFeas (x : Fin 2 → ℝ) (w : Unit) : Except PyErr (Unit × Option ((Fin 2 → ℝ) × Beta)) := .ok (w, lpCut x)

/-- **C100** `test_case_feasible` of `test_example2.py`: the run with the default options raises nothing, reports `feasible` and
`success` after at most twelve iterations, and the centre satisfies the constraints. -/
theorem C100_example2_feasible {E₀ : Ell 2} (hinit : Ell.init (.scalar 10) ![0, 0] = .ok E₀) :
    ∃ E info, cuttingPlaneFeas (fun x => liftOracle (lpFeas x)) (Ell.space Unit 2) ⟨2000, 1e-8⟩ ((), E₀) = .ok (((), E), info) ∧
      info.feasible = true ∧ info.status = .success ∧ info.numIters ≤ 12 ∧ LpFeasible E.xc := by
  have e10 : (10 : ℝ) = √10 ^ 2 := (Real.sq_sqrt (by norm_num)).symm
  rw [e10] at hinit
  obtain ⟨hwf, hpts, hB⟩ := init_bound (r := 1.17) le_rfl hinit
  set a : Fin 2 → ℝ := ![1.35, -1.35] with ha
  have haa : ∀ z ∈ euclBall a 1.17, (z 0 - 1.35) ^ 2 + (z 1 + 1.35) ^ 2 ≤ 1.17 ^ 2 := by
    intro z hz
    have hz : ∑ i, (z i - a i) ^ 2 ≤ 1.17 ^ 2 := hz
    rw [Fin.sum_univ_two] at hz
    simpa [ha] using hz
  have hroom : ∀ z ∈ euclBall a 1.17, z 0 + z 1 ≤ 3 - 0.04 ∧ 1 + 0.04 ≤ z 0 - z 1 := by
    intro z hz
    have h := haa z hz
    constructor
    · nlinarith [sq_nonneg (z 0 - 1.35 - (z 1 + 1.35)), sq_nonneg (z 0 + z 1 - 2)]
    · nlinarith [sq_nonneg (z 0 - 1.35 + (z 1 + 1.35)), sq_nonneg (z 0 - z 1 - 1)]
  have hball : euclBall a 1.17 ⊆ E₀.pts := by
    rw [hpts]
    intro z hz
    have h := haa z hz
    change ∑ i, (z i - (![0, 0] : Fin 2 → ℝ) i) ^ 2 ≤ √10 ^ 2
    rw [← e10, Fin.sum_univ_two]
    simp
    have h1 : z 0 - z 1 - 2.7 ≤ 1.17 * 1.4143 := by nlinarith [sq_nonneg (z 0 - 1.35 + (z 1 + 1.35))]
    nlinarith
  have hlog : 2 * ((2 : ℕ) : ℝ) * (((2 : ℕ) : ℝ) + 1) * Real.log (√10 / 1.17) < 12 := by
    have h2 : Real.log (√10 / 1.17) < 1 := by
      rw [Real.log_lt_iff_lt_exp (by positivity)]
      have h3 : √10 < 3.17 := by rw [Real.sqrt_lt' (by norm_num)]; norm_num
      have h4 := Real.exp_one_gt_d9
      rw [div_lt_iff₀ (by norm_num)]
      nlinarith
    push_cast
    linarith
  have key := C25_feas_ell_converges (Ω := lpFeas) (fun _ => True) hwf (a := a) (r := 1.17) (by norm_num) hball
    (o := ⟨2000, 1e-8⟩) (fun x w _ => by
      cases hx : lpCut x with
      | none => exact .inl ⟨w, by simp [lpFeas, hx]⟩
      | some c =>
        obtain ⟨g, β, rfl, h1, h2, h3⟩ := lpCut_some hx
        have haself : a ∈ euclBall a 1.17 := by
          change ∑ i, (a i - a i) ^ 2 ≤ (1.17 : ℝ) ^ 2; simp; norm_num
        refine .inr ⟨w, g, .scalar β, by simp [lpFeas, hx], trivial, fun z hz => ?_, h1.le, h2, a, haself, ?_⟩
        · obtain ⟨h4, h5⟩ := hroom z hz
          have := h3 z _ h4 h5
          change g ⬝ᵥ (z - x) + β ≤ 0
          linarith
        · obtain ⟨h4, h5⟩ := hroom a haself
          have := h3 a _ h4 h5
          change (1e-8 : ℝ) ≤ (g ⬝ᵥ (a - x)) ^ 2
          nlinarith) (by rw [hB]; push_cast at hlog ⊢; linarith) () trivial
  obtain ⟨w, E, info, h1, h2, h3, h4, u, -, h5⟩ := key
  refine ⟨E, info, h1, h2, h3, ?_, ?_⟩
  · rw [hB] at h4
    have : (info.numIters : ℝ) < 13 := by linarith
    have : info.numIters < 13 := by exact_mod_cast this
    omega
  · simp only [lpFeas, Except.ok.injEq, Prod.mk.injEq] at h5
    exact lpCut_none.1 h5.2

/-- The first cut from `(100, 100)` misses the ball of squared radius 10. -/
theorem lp_miss : lpCut ![100, 100] = some (![1, 1], .scalar 197) ∧
    update (![1, 1], .scalar 197) (⟨true, false, ![100, 100], 1, 10⟩ : Ell 2) =
      .ok (⟨true, false, ![100, 100], 1, 10⟩, .nosoln, 20) := by
  constructor
  · unfold lpCut; norm_num
  · have e1 : (![1, 1] : Fin 2 → ℝ) ⬝ᵥ (1 : Matrix (Fin 2) (Fin 2) ℝ) *ᵥ ![1, 1] = 2 := by
      rw [one_mulVec, dot2]; simp; norm_num
    have h20 : √20 < 197 := by rw [Real.sqrt_lt' (by norm_num)]; norm_num
    have hs : pySqrt (20 : ℝ) = .ok √20 := by rw [pySqrt_ok]; norm_num
    simp only [update, calcLl, calcDc, e1, show (10 : ℝ) * 2 = 20 by norm_num, hs, sub_neg.2 h20, if_true]

/-- **C100** `test_case_infeasible` of `test_example2.py`, for any options with `max_it ≥ 1`: one iteration, `nosoln`. -/
theorem C100_example2_infeasible {E₀ : Ell 2} (hinit : Ell.init (.scalar 10) ![100, 100] = .ok E₀) {o : Options ℝ}
    (ho : 1 ≤ o.maxIt) :
    cuttingPlaneFeas (fun x => liftOracle (lpFeas x)) (Ell.space Unit 2) o ((), E₀) =
      .ok (((), E₀), ⟨false, 1, .nosoln⟩) := by
  obtain ⟨h1, h2⟩ := lp_miss
  obtain rfl : (⟨true, false, ![100, 100], 1, 10⟩ : Ell 2) = E₀ := by
    unfold Ell.init at hinit
    split at hinit
    · simp at hinit
    · simpa using hinit
  obtain ⟨m, hm⟩ : ∃ m : ℕ, o.maxIt.toNat = m + 1 := ⟨o.maxIt.toNat - 1, by omega⟩
  simp [cuttingPlaneFeas, forRange, hm, forLoop, feasBody, liftOracle, Ell.space, lpFeas, h1, h2, readVar]

/-- Points that satisfy the constraints and exceed the level `t`, all with room `δ`. -/
def lpRoom (t : WithBot ℝ) (z : Fin 2 → ℝ) (δ : ℝ) : Prop :=
  z 0 + z 1 ≤ 3 - δ ∧ 1 + δ ≤ z 0 - z 1 ∧ t ≤ ((z 0 + z 1 - δ : ℝ) : WithBot ℝ)

theorem lpOracle_quasi (t0 : WithBot ℝ) :
    QuasiOracle (fun t => t = t0 ∨ t0 < t ∧ ∃ z, LpFeasible z ∧ t = ((z 0 + z 1 : ℝ) : WithBot ℝ)) lpRoom (fun _ _ => True)
      (fun _ : Unit => True) (pureOracle lpOracle) := by
  intro x t w _ ht
  unfold pureOracle lpOracle
  cases hx : lpCut x with
  | some c =>
    obtain ⟨g, β, rfl, h1, -, h3⟩ := lpCut_some hx
    refine ⟨w, g, β, some t, rfl, trivial, h1.le, ?_, ?_⟩
    · rintro s hs
      obtain rfl := Option.some.inj hs
      exact ⟨ht, trivial, fun z δ _ h => h⟩
    · rintro z δ - ⟨h4, h5, -⟩
      exact h3 z δ h4 h5
  | none =>
    have hf := lpCut_none.1 hx
    have new : t < ((x 0 + x 1 : ℝ) : WithBot ℝ) → ∀ s, some ((x 0 + x 1 : ℝ) : WithBot ℝ) = some s →
        (s = t0 ∨ t0 < s ∧ ∃ z, LpFeasible z ∧ s = ((z 0 + z 1 : ℝ) : WithBot ℝ)) ∧ True ∧
          ∀ z δ, 0 ≤ δ → lpRoom s z δ → lpRoom t z δ := by
      rintro hlt s hs
      obtain rfl := Option.some.inj hs
      refine ⟨.inr ⟨?_, x, hf, rfl⟩, trivial, fun z δ _ h => ⟨h.1, h.2.1, hlt.le.trans h.2.2⟩⟩
      rcases ht with rfl | ht
      · exact hlt
      · exact ht.1.trans hlt
    have dot : ∀ z : Fin 2 → ℝ, (-1 • ![1, 1] : Fin 2 → ℝ) ⬝ᵥ (z - x) = -(z 0 + z 1) + (x 0 + x 1) := by
      intro z; rw [dot2]; simp; ring
    induction t using WithBot.recBotCoe with
    | bot =>
      refine ⟨w, _, _, _, rfl, trivial, le_rfl, new (WithBot.bot_lt_coe _), ?_⟩
      rintro z δ - ⟨-, -, h⟩
      simp only [Option.getD_some, WithBot.coe_le_coe] at h
      rw [dot]; linarith
    | coe t =>
      simp only
      split_ifs with h1
      · refine ⟨w, _, _, _, rfl, trivial, le_rfl, new (WithBot.coe_lt_coe.2 (by linarith)), ?_⟩
        rintro z δ - ⟨-, -, h⟩
        simp only [Option.getD_some, WithBot.coe_le_coe] at h
        rw [dot]; linarith
      · refine ⟨w, _, _, _, rfl, trivial, not_lt.1 h1, ?_, ?_⟩
        · rintro s hs
          obtain rfl := Option.some.inj hs
          exact ⟨ht, trivial, fun z δ _ h => h⟩
        · rintro z δ - ⟨-, -, h⟩
          simp only [Option.getD_some, WithBot.coe_le_coe] at h
          rw [dot]; linarith

variable {E₀ E : Ell 2} {o : Options ℝ} {t0 t : WithBot ℝ} {xb : Option (Fin 2 → ℝ)} {info : CInfo}

/-- **C100** every run of `test_example1.py` that returns: the value is the initial one, and then `feasible` is `False`; or it
is larger, `feasible` is `True`, and it is `x + y` at some feasible point; so it never exceeds 3 unless the initial one does. -/
theorem C100_example1_sound (hE : E₀.WF)
    (hr : cuttingPlaneDc (fun x t => liftOracle (pureOracle lpOracle x t)) (Ell.space Unit 2) t0 o ((), E₀) =
      .ok (((), E), xb, t, info)) :
    (t = t0 ∧ info.feasible = false) ∨
      (t0 < t ∧ info.feasible = true ∧ t ≤ (3 : ℝ) ∧ ∃ z, LpFeasible z ∧ t = ((z 0 + z 1 : ℝ) : WithBot ℝ)) := by
  have hf : info.feasible = decide (t ≠ t0) := by
    obtain ⟨s, i, -, -, -, rfl, rfl⟩ := dc_ok hr; rfl
  have key := C98_quasi_verdict (lpOracle_quasi t0) hE (.inl rfl) (w₀ := ()) trivial hr
  have h : t = t0 ∨ t0 < t ∧ ∃ z, LpFeasible z ∧ t = ((z 0 + z 1 : ℝ) : WithBot ℝ) := by
    rcases key.1 with ⟨-, h⟩ | ⟨x, -, h, -⟩
    · exact .inl h
    · exact h
  rcases h with rfl | ⟨h, z, hz, rfl⟩
  · exact .inl ⟨rfl, by simp [hf]⟩
  · exact .inr ⟨h, by rw [hf]; exact decide_eq_true h.ne', WithBot.coe_le_coe.2 hz.1, z, hz, rfl⟩

/-- **C100** `test_case_infeasible2`: from a level of 3 or more the run reports infeasible, whatever the ellipsoid and the options. -/
theorem C100_example1_infeasible2 (hE : E₀.WF) (ht : ((3 : ℝ) : WithBot ℝ) ≤ t0)
    (hr : cuttingPlaneDc (fun x t => liftOracle (pureOracle lpOracle x t)) (Ell.space Unit 2) t0 o ((), E₀) =
      .ok (((), E), xb, t, info)) : t = t0 ∧ info.feasible = false := by
  rcases C100_example1_sound hE hr with h | ⟨h1, -, h2, -⟩
  · exact h
  · exact absurd (h1.trans_le h2) (not_lt.2 ht)

/-- **C100** accuracy: with `max_it > 12 ln(R/r)` and a ball of radius `r` just inside the edge `x + y = 3` within the initial ball, the
value is within `6r` of the optimum 3. -/
theorem C100_example1_accuracy {x₀ a : Fin 2 → ℝ} {R r : ℝ} (h0 : 0 < r) (hinit : Ell.init (.scalar (R ^ 2)) x₀ = .ok E₀)
    (ha : a 0 + a 1 = 3 - 3 * r) (ha' : 1 + 3 * r ≤ a 0 - a 1) (hball : euclBall a r ⊆ euclBall x₀ R) (htol : o.tol ≤ r ^ 2)
    (hmax : 12 * Real.log (R / r) < o.maxIt)
    (hr : cuttingPlaneDc (fun x t => liftOracle (pureOracle lpOracle x t)) (Ell.space Unit 2) t0 o ((), E₀) =
      .ok (((), E), xb, t, info)) : ((3 - 6 * r : ℝ) : WithBot ℝ) < t := by
  have key := (C98_quasi_complexity le_rfl (lpOracle_quasi t0) h0 h0 hinit hball htol
    (by push_cast; linarith) (w₀ := ()) trivial t0 (.inl rfl)).1 _ _ _ _ _ hr
  by_contra hc
  refine key fun z hz => ?_
  obtain ⟨e0, e1⟩ := ball2 h0.le hz
  rw [abs_le] at e0 e1
  exact ⟨by linarith [e0.2, e1.2], by linarith [e0.1, e1.2], (not_lt.1 hc).trans (WithBot.coe_le_coe.2 (by linarith [e0.1, e1.1]))⟩

/-- **C100** `test_case_feasible` of `test_example1.py` with the default options: `feasible`, and `2.9994 < t ≤ 3`. -/
theorem C100_example1_feasible (hinit : Ell.init (.scalar 10) ![0, 0] = .ok E₀)
    (hr : cuttingPlaneDc (fun x t => liftOracle (pureOracle lpOracle x t)) (Ell.space Unit 2) ⊥ ⟨2000, 1e-8⟩ ((), E₀) =
      .ok (((), E), xb, t, info)) :
    info.feasible = true ∧ ∃ v : ℝ, t = v ∧ 2.9994 < v ∧ v ≤ 3 := by
  have e10 : (10 : ℝ) = √10 ^ 2 := (Real.sq_sqrt (by norm_num)).symm
  rw [e10] at hinit
  have h1 := C100_example1_accuracy (a := ![2.2, 0.7997]) (r := 0.0001) (by norm_num) hinit (by simp; norm_num) (by simp; norm_num)
    (fun z hz => by
      obtain ⟨e0, e1⟩ := ball2 (by norm_num) hz
      simp only [cons_val_zero, cons_val_one, abs_le] at e0 e1
      change ∑ i, (z i - (![0, 0] : Fin 2 → ℝ) i) ^ 2 ≤ √10 ^ 2
      rw [← e10, Fin.sum_univ_two]
      simp
      nlinarith) (by norm_num) log_test hr
  rcases C100_example1_sound (init_bound (r := 1) le_rfl hinit).1 hr with ⟨rfl, -⟩ | ⟨-, h2, h3, z, -, rfl⟩
  · simp at h1
  · refine ⟨h2, _, rfl, ?_, WithBot.coe_le_coe.1 h3⟩
    have := WithBot.coe_lt_coe.1 h1
    linarith

/-- **C100** `test_case_infeasible1`: one iteration, `nosoln`, not feasible — and yet `x_best` is the infeasible start. -/
theorem C100_example1_infeasible1 (hinit : Ell.init (.scalar 10) ![100, 100] = .ok E₀) (ho : 1 ≤ o.maxIt) :
    cuttingPlaneDc (fun x t => liftOracle (pureOracle lpOracle x t)) (Ell.space Unit 2) ⊥ o ((), E₀) =
      .ok (((), E₀), some ![100, 100], ⊥, ⟨false, 1, .nosoln⟩) := by
  obtain ⟨h1, h2⟩ := lp_miss
  obtain rfl : (⟨true, false, ![100, 100], 1, 10⟩ : Ell 2) = E₀ := by
    unfold Ell.init at hinit
    split at hinit
    · simp at hinit
    · simpa using hinit
  obtain ⟨m, hm⟩ : ∃ m : ℕ, o.maxIt.toNat = m + 1 := ⟨o.maxIt.toNat - 1, by omega⟩
  simp [cuttingPlaneDc, forRange, hm, forLoop, dcBody, liftOracle, Ell.space, lpOracle, pureOracle, h1, h2, readVar]

/-- **C100** this oracle always returns a level, so the driver records every centre: `x_best` is the last point queried, not the
one the value belongs to.  A run that reports `feasible`, the value 2 and a point outside the constraints. -/
theorem C100_example1_xbest : ∃ (E₀ E : Ell 2) (info : CInfo), Ell.init (.scalar 18) ![2, 0] = .ok E₀ ∧
    cuttingPlaneDc (fun x t => liftOracle (pureOracle lpOracle x t)) (Ell.space Unit 2) ⊥ ⟨2, 1e-8⟩ ((), E₀) =
      .ok (((), E), some ![3, 1], ((2 : ℝ) : WithBot ℝ), info) ∧ info.feasible = true ∧ ¬ LpFeasible ![3, 1] := by
  have hE : (⟨true, false, ![2, 0], 1, 18⟩ : Ell 2).Proper := ⟨le_rfl, Matrix.PosDef.one, by norm_num⟩
  have hs : pySqrt (36 : ℝ) = .ok 6 := by
    rw [pySqrt_ok]; exact ⟨by norm_num, by rw [show (36 : ℝ) = 6 ^ 2 by norm_num, Real.sqrt_sq (by norm_num)]⟩
  have hg : (-1 • ![1, 1] : Fin 2 → ℝ) ≠ 0 := fun h => by simpa using congrFun h 0
  have e1 : (-1 • ![1, 1] : Fin 2 → ℝ) ⬝ᵥ (-1 • ![1, 1]) = 2 := by rw [dot2]; simp; norm_num
  obtain ⟨E1, u1, x1⟩ : ∃ E1, update (-1 • ![1, 1], .scalar 0) (⟨true, false, ![2, 0], 1, 18⟩ : Ell 2) = .ok (E1, .success, 36) ∧
      E1.xc = ![3, 1] := by
    simp only [update, calcLl, calcDc, one_mulVec, e1, show (18 : ℝ) * 2 = 36 by norm_num, hs, pyDiv, calcCc]
    norm_num
    ext i; fin_cases i
  have hE1 := C20_ell_proper hE hg (b := .scalar 0) (by
    change (0 : ℝ) < √((18 : ℝ) * _)
    rw [Real.sqrt_pos, one_mulVec, e1]; norm_num) u1
  obtain ⟨E2, st, tsq, u2, -, -⟩ := Ell.update_deep_total hE1 (g := ![1, 1]) (β := 1) (fun h => by simpa using congrFun h 0) (by norm_num)
  have q1 : lpOracle ![2, 0] ⊥ = ((-1 • ![1, 1], .scalar 0), some ((2 : ℝ) : WithBot ℝ)) := by
    have : lpCut ![2, 0] = none := lpCut_none.2 (by constructor <;> norm_num)
    simp [lpOracle, this]
  have q2 : lpOracle ![3, 1] ((2 : ℝ) : WithBot ℝ) = ((![1, 1], .scalar 1), some ((2 : ℝ) : WithBot ℝ)) := by
    have : lpCut ![3, 1] = some (![1, 1], .scalar 1) := by simp [lpCut]
    simp [lpOracle, this]
  have ht : ¬ (36 : ℝ) < 1e-8 := by norm_num
  have h2 : (2 : ℤ).toNat = 2 := rfl
  have hfin : ∃ info : CInfo, cuttingPlaneDc (fun x t => liftOracle (pureOracle lpOracle x t)) (Ell.space Unit 2) ⊥ ⟨2, 1e-8⟩
      ((), ⟨true, false, ![2, 0], 1, 18⟩) = .ok (((), E2), some ![3, 1], ((2 : ℝ) : WithBot ℝ), info) ∧ info.feasible = true := by
    simp only [cuttingPlaneDc, forRange, h2, forLoop, dcBody, liftOracle, Ell.space, pureOracle, q1, u1, ht, x1, q2, u2, if_false,
      ne_eq, not_true_eq_false]
    by_cases h1 : st = .success
    · by_cases h3 : tsq < 1e-8
      · simp [h1, h3, readVar]
      · simp [h1, h3, readVar]
    · simp [h1, readVar]
  obtain ⟨info, h3, h4⟩ := hfin
  refine ⟨⟨true, false, ![2, 0], 1, 18⟩, E2, info, ?_, h3, h4, ?_⟩
  · simp [Ell.init, c1?, pyDiv]; norm_num
  · rintro ⟨h, -⟩
    norm_num at h

end Verif
