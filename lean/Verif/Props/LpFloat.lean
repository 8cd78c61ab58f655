import Verif.Props.QuasiFloat

/-! # C143: the linear program of `tests/test_example1.py`, every operation rounded -/
namespace Verif
open Matrix Ell FloatSpec
variable {fl : ℝ → ℝ} {u : ℝ}

section
variable (hfl : RelErr u fl) (hu0 : 0 ≤ u) (hu : u ≤ 1 / 50)
include hfl hu0 hu

theorem rel_neg {x : ℝ} (h : fl x < 0) : x < 0 := by
  obtain ⟨a, ha, e⟩ := rel_factor hfl hu0 hu x
  by_contra hc
  have := abs_le.1 ha
  rw [e] at h
  exact absurd (mul_nonneg (not_lt.1 hc) (by linarith : 0 ≤ 1 + a)) (not_le.2 h)

theorem rel_le {x : ℝ} (h : ¬ 0 < fl x) : x ≤ 0 := by
  by_contra hc
  exact h (rel_pos hfl hu0 hu (not_le.1 hc))

theorem sum_close {R a b : ℝ} (ha : |a| ≤ R) (hb : |b| ≤ R) : |fl (a + b) - (a + b)| ≤ 2 * (u * R) ∧ |fl (a + b)| ≤ 3 * R := by
  have h1 : |a + b| ≤ 2 * R := (abs_add_le _ _).trans (by linarith)
  have h2 : |fl (a + b) - (a + b)| ≤ 2 * (u * R) := (hfl _).trans (by have := mul_le_mul_of_nonneg_left h1 hu0; linarith)
  refine ⟨h2, ?_⟩
  have h3 := abs_sub_abs_le_abs_sub (fl (a + b)) (a + b)
  have h4 : 0 ≤ R := (abs_nonneg _).trans ha
  nlinarith

/-- **C143** (`test_example1.py`, a call).  The oracle either cuts a constraint, and then repeats the level it was given; or the point satisfies the constraints up to `2uR`, and the level is the maximum of the old one and
`fl(x + y) ≤ 3`.  The cut keeps the points with room up to `8u(R + 1)`. -/
theorem C143_lp_call {R : ℝ} {x : Fin 2 → ℝ} (hxR : ∀ i, |x i| ≤ R) (t : WithBot ℝ) :
    ∃ g β s, lpOracleF fl x t = ((g, .scalar β), some s) ∧ 0 ≤ β ∧
      (s = t ∨ t < s ∧ s = ((fl (x 0 + x 1) : ℝ) : WithBot ℝ) ∧ fl (x 0 + x 1) ≤ 3 ∧ x 0 + x 1 ≤ 3 + 2 * (u * R) ∧ 1 - 2 * (u * R) ≤ x 0 - x 1) ∧
      ∀ z, (∀ i, |z i| ≤ R) → ∀ δ, 0 ≤ δ → lpRoom s z δ → g ⬝ᵥ (z - x) + β ≤ -δ + 8 * (u * (R + 1)) := by
  have hR0 : 0 ≤ R := (abs_nonneg _).trans (hxR 0)
  have huR := mul_nonneg hu0 hR0
  obtain ⟨a1, a2⟩ := sum_close hfl hu0 hu (hxR 0) (hxR 1)
  obtain ⟨b1, b2⟩ := sum_close (a := -x 0) hfl hu0 hu (by rw [abs_neg]; exact hxR 0) (hxR 1)
  rw [abs_le] at a1 b1
  have a3 : |fl (fl (x 0 + x 1) - 3) - (fl (x 0 + x 1) - 3)| ≤ u * (3 * R + 3) :=
    (hfl _).trans (mul_le_mul_of_nonneg_left ((abs_sub _ _).trans (by rw [abs_of_pos (by norm_num : (0:ℝ) < 3)]; linarith)) hu0)
  have b3 : |fl (fl (-x 0 + x 1) + 1) - (fl (-x 0 + x 1) + 1)| ≤ u * (3 * R + 1) :=
    (hfl _).trans (mul_le_mul_of_nonneg_left ((abs_add_le _ _).trans (by rw [abs_one]; linarith)) hu0)
  rw [abs_le] at a3 b3
  unfold lpOracleF lpCutF
  simp only
  by_cases h1 : 0 < fl (fl (x 0 + x 1) - 3)
  · simp only [if_pos h1]
    refine ⟨_, _, _, rfl, h1.le, .inl rfl, fun z hz δ hδ hr => ?_⟩
    have := hr.1
    rw [dot2]
    simp only [cons_val_zero, cons_val_one, Pi.sub_apply]
    linarith
  by_cases h2 : 0 < fl (fl (-x 0 + x 1) + 1)
  · simp only [if_neg h1, if_pos h2]
    refine ⟨_, _, _, rfl, h2.le, .inl rfl, fun z hz δ hδ hr => ?_⟩
    have := hr.2.1
    rw [dot2]
    simp only [cons_val_zero, cons_val_one, Pi.sub_apply]
    linarith
  simp only [if_neg h1, if_neg h2]
  have k1 := rel_le hfl hu0 hu h1
  have k2 := rel_le hfl hu0 hu h2
  have new : ∀ t : WithBot ℝ, t < ((fl (x 0 + x 1) : ℝ) : WithBot ℝ) →
      ∃ g β s, (((-1 • ![1, 1], .scalar 0), some ((fl (x 0 + x 1) : ℝ) : WithBot ℝ)) : ((Fin 2 → ℝ) × Beta) × Option (WithBot ℝ)) = ((g, .scalar β), some s) ∧ 0 ≤ β ∧
      (s = t ∨ t < s ∧ s = ((fl (x 0 + x 1) : ℝ) : WithBot ℝ) ∧ fl (x 0 + x 1) ≤ 3 ∧ x 0 + x 1 ≤ 3 + 2 * (u * R) ∧ 1 - 2 * (u * R) ≤ x 0 - x 1) ∧
      ∀ z, (∀ i, |z i| ≤ R) → ∀ δ, 0 ≤ δ → lpRoom s z δ → g ⬝ᵥ (z - x) + β ≤ -δ + 8 * (u * (R + 1)) := by
    intro t ht
    refine ⟨_, _, _, rfl, le_rfl, .inr ⟨ht, rfl, by linarith, by linarith, by linarith⟩, fun z hz δ hδ hr => ?_⟩
    have := WithBot.coe_le_coe.1 hr.2.2
    rw [dot2]
    simp
    linarith
  cases t with
  | bot => exact new ⊥ (WithBot.bot_lt_coe _)
  | coe t =>
    simp only
    by_cases h3 : fl (t - fl (x 0 + x 1)) < 0
    · simp only [if_pos h3]
      exact new _ (WithBot.coe_lt_coe.2 (by linarith [rel_neg hfl hu0 hu h3]))
    · simp only [if_neg h3]
      refine ⟨_, _, _, rfl, not_lt.1 h3, .inl rfl, fun z hz δ hδ hr => ?_⟩
      have hr3 := WithBot.coe_le_coe.1 hr.2.2
      have hz0 := abs_le.1 (hz 0)
      have hz1 := abs_le.1 (hz 1)
      obtain ⟨d, hd, ed⟩ := rel_factor hfl hu0 hu (t - fl (x 0 + x 1))
      have hd' := abs_le.1 hd
      have k3 : 0 ≤ t - fl (x 0 + x 1) := by
        by_contra hc
        rw [ed] at h3
        exact h3 (mul_neg_of_neg_of_pos (not_le.1 hc) (by linarith))
      have k4 : t - fl (x 0 + x 1) ≤ 5 * R := by linarith [(abs_le.1 a2).1]
      have k5 : (t - fl (x 0 + x 1)) * d ≤ 5 * R * u := (mul_le_mul_of_nonneg_left hd'.2 k3).trans (mul_le_mul_of_nonneg_right k4 hu0)
      rw [dot2, ed]
      simp
      linarith
end

/-- **C143** (`test_example1.py`).  A first ellipsoid with a representable centre that contains a ball of radius `r` where the constraints hold and `x + y` exceeds `τ`, all with room `r`.  There are an `N`, a number of
bits and a tolerance, not zero, such that from any start level: a run with `max_it ≥ N` that returns has a level above `τ`, which is the start level or else at most 3, so started at 3 or above it reports infeasible; and if
the start level is at most `τ`, within `N` oracle calls, before which nothing is raised, a point is found that satisfies the constraints up to `r`, with `τ < s ≤ 3` for the reported `s = fl(x + y)`. -/
theorem C143_example1 {E₀ : Ell 2} (hE : E₀.Proper) {c : Fin 2 → ℝ} {r τ : ℝ} (h0 : 0 < r) (h1 : τ + 3 * r ≤ c 0 + c 1) (h2 : c 0 + c 1 ≤ 3 - 3 * r) (h3 : 1 + 3 * r ≤ c 0 - c 1)
    (hball : euclBall c r ⊆ E₀.pts) :
    ∃ (N p₀ : ℕ) (tol₀ : ℝ), 0 < tol₀ ∧ ∀ p fl, p₀ ≤ p → Nearest p fl → VecRep p E₀.xc → ∀ tol, tol ≤ tol₀ → ∀ t0 : WithBot ℝ,
      let Ω := fun x t => liftOracle (pureOracle (lpOracleF fl) x t)
      let S := (Ell.spaceF fl (vecDot fl)).beside Unit
      (∀ m : Int, (N : Int) ≤ m → ∀ w' xb t info, cuttingPlaneDc Ω S t0 ⟨m, tol⟩ ((), E₀) = .ok (w', xb, t, info) →
        ((τ : ℝ) : WithBot ℝ) < t ∧ (t = t0 ∨ t0 < t ∧ t ≤ ((3 : ℝ) : WithBot ℝ)) ∧ info.feasible = decide (t ≠ t0) ∧ (((3 : ℝ) : WithBot ℝ) ≤ t0 → info.feasible = false)) ∧
      (t0 ≤ ((τ : ℝ) : WithBot ℝ) → ∃ (j : ℕ) (log : _) (P : Unit × Ell 2) (cut : _), j < N ∧ DcRounds Ω S tol t0 ((), E₀) j log P ∧
        lpOracleF fl P.2.xc (bestT t0 log) = (cut, some ((fl (P.2.xc 0 + P.2.xc 1) : ℝ) : WithBot ℝ)) ∧ τ < fl (P.2.xc 0 + P.2.xc 1) ∧ fl (P.2.xc 0 + P.2.xc 1) ≤ 3 ∧
        |fl (P.2.xc 0 + P.2.xc 1) - (P.2.xc 0 + P.2.xc 1)| ≤ r ∧ P.2.xc 0 + P.2.xc 1 ≤ 3 + r ∧ 1 - r ≤ P.2.xc 0 - P.2.xc 1) := by
  obtain ⟨N, R, ε₀, tol₀, hR, hK, hε, htol₀, main⟩ := C143_levels (W := Unit) (T := WithBot ℝ) hE h0 (half_pos h0) hball
  set ζ := min ε₀ (min (1 / 50) (r / 2 / (8 * (R + 1)))) with hζdef
  have hζ : 0 < ζ := by positivity
  obtain ⟨p₀, hp₀⟩ := bits_precise 0 2 hζ
  refine ⟨N, p₀, tol₀, htol₀, fun p fl hp hfl hx₀ tol htol t0 => ?_⟩
  obtain ⟨v, hv0, hv, e1, -, e3⟩ := hp₀ p fl hp hfl
  have f1 : RelErr ζ fl := fun x => (e1 x).trans (mul_le_mul_of_nonneg_right hv (abs_nonneg _))
  have f3 : VecDotErr ζ (vecDot (n := 2) fl) := fun x y => (e3 x y).trans (mul_le_mul_of_nonneg_right hv (Finset.sum_nonneg fun _ _ => abs_nonneg _))
  have z1 : ζ ≤ ε₀ := min_le_left _ _
  have z2 : ζ ≤ 1 / 50 := (min_le_right _ _).trans (min_le_left _ _)
  have z4 : 8 * (ζ * (R + 1)) ≤ r / 2 := by
    have : ζ ≤ r / 2 / (8 * (R + 1)) := (min_le_right _ _).trans (min_le_right _ _)
    rw [le_div_iff₀ (by positivity)] at this
    linarith
  have z5 : 2 * (ζ * R) ≤ r := by
    have := hζ.le
    have := mul_nonneg hζ.le hR
    linarith
  have hbox : ∀ x : Fin 2 → ℝ, ∃ B, ∀ i, |x i| ≤ B := fun x => ⟨max |x 0| |x 1|, fun i => by fin_cases i; exacts [le_max_left _ _, le_max_right _ _]⟩
  have hcuts : LevelCuts p (euclBall c r) (fun t => t = t0 ∨ t0 < t ∧ t ≤ ((3 : ℝ) : WithBot ℝ)) (fun t => t ≤ ((τ : ℝ) : WithBot ℝ)) R (r / 2) (fun _ : Unit => True) (pureOracle (lpOracleF fl)) := by
    constructor
    · rintro x t w w' cut s - ht hq
      obtain ⟨B, hB⟩ := hbox x
      obtain ⟨g, β, s', k1, -, k3, -⟩ := C143_lp_call f1 hζ.le z2 hB t
      simp only [pureOracle, k1, Except.ok.injEq, Prod.mk.injEq, Option.some.injEq] at hq
      obtain ⟨-, -, rfl⟩ := hq
      rcases k3 with rfl | ⟨k3, k4, k5, -, -⟩
      · exact ⟨ht, id⟩
      · refine ⟨.inr ⟨?_, ?_⟩, fun h => k3.le.trans h⟩
        · rcases ht with rfl | ht
          · exact k3
          · exact ht.1.trans k3
        · rw [k4]; exact WithBot.coe_le_coe.2 k5
    · rintro x - hxR t w - ht hbad
      obtain ⟨g, β, s, k1, k2, -, k4⟩ := C143_lp_call f1 hζ.le z2 hxR t
      refine ⟨w, g, β, some s, by simp only [pureOracle, k1], trivial, k2, fun hb z hz => ?_⟩
      obtain ⟨b0, b1⟩ := ball2 h0.le hz
      rw [abs_le] at b0 b1
      have := k4 z (hK z hz) r h0.le ⟨by linarith, by linarith, le_trans hb (WithBot.coe_le_coe.2 (by linarith))⟩
      linarith
  obtain ⟨r1, r2⟩ := main ζ hζ.le z1 p fl (vecDot fl) hfl f1 f3 tol htol _ _ _ _ hcuts hx₀ () trivial t0 (.inl rfl)
  dsimp only
  refine ⟨fun m hm w' xb t info h => ?_, fun hbad => ?_⟩
  · have q1 := r1 m hm w' xb t info h
    obtain ⟨q2, -⟩ := (dc_guarded hfl (fun x t w w' c s a1 a2 a3 => (hcuts.lev x t w w' c s a1 a2 a3).1) hx₀ (.inl rfl) _).2 w' xb t info h
    refine ⟨not_le.1 q1, q2, dc_feasible h, fun hlt => ?_⟩
    rw [dc_feasible h]
    rcases q2 with q2 | ⟨q2, q3⟩
    · simp [q2]
    · exact absurd (hlt.trans_lt q2) (not_lt.2 q3)
  · obtain ⟨k, log, P, w', cut, s, q1, q2, -, q3, -, -, q4, q6, q7⟩ := r2 hbad
    obtain ⟨g, β, s', k1, k2, k3, -⟩ := C143_lp_call f1 hζ.le z2 q3 (bestT t0 log)
    simp only [pureOracle, k1, Except.ok.injEq, Prod.mk.injEq, Option.some.injEq] at q6
    obtain ⟨-, -, rfl⟩ := q6
    rcases k3 with k3 | ⟨k3, k4, k5, k6, k7⟩
    · rw [k3] at q7; exact absurd q4 q7
    · subst k4
      refine ⟨k, log, P, _, q1, q2, k1, WithBot.coe_lt_coe.1 (not_le.1 q7), k5, ?_, by linarith, by linarith⟩
      exact (sum_close f1 hζ.le z2 (q3 0) (q3 1)).1.trans z5

/-- **C143** (`test_example1.py:test_case_feasible` and `test_case_infeasible2`).  `ell(10, (0,0))`, start level `-inf`: for any accuracy there are a number of iterations, a number of bits and a tolerance for which a run that
returns is feasible and its level is in `(3 - acc, 3]`; and a point with such a level, feasible up to `acc`, is found.  Started at 100 it reports infeasible. -/
theorem C143_test_example1 (nd : Bool) {acc : ℝ} (hacc : 0 < acc) (hacc1 : acc ≤ 1) :
    ∃ (N p₀ : ℕ) (tol₀ : ℝ), 0 < tol₀ ∧ ∀ p fl, p₀ ≤ p → Nearest p fl → ∀ tol, tol ≤ tol₀ →
      let Ω := fun x t => liftOracle (pureOracle (lpOracleF fl) x t)
      let S := (Ell.spaceF fl (vecDot fl)).beside Unit
      let w₀ : Unit × Ell 2 := ((), ⟨true, nd, ![0, 0], 1, 10⟩)
      (∀ m : Int, (N : Int) ≤ m → ∀ w' xb t info, cuttingPlaneDc Ω S ⊥ ⟨m, tol⟩ w₀ = .ok (w', xb, t, info) →
        info.feasible = true ∧ ∃ s : ℝ, t = s ∧ 3 - acc < s ∧ s ≤ 3) ∧
      (∃ (j : ℕ) (log : _) (P : Unit × Ell 2) (cut : _), j < N ∧ DcRounds Ω S tol ⊥ w₀ j log P ∧
        lpOracleF fl P.2.xc (bestT ⊥ log) = (cut, some ((fl (P.2.xc 0 + P.2.xc 1) : ℝ) : WithBot ℝ)) ∧ 3 - acc < fl (P.2.xc 0 + P.2.xc 1) ∧ fl (P.2.xc 0 + P.2.xc 1) ≤ 3 ∧
        |P.2.xc 0 + P.2.xc 1 - 3| ≤ 2 * acc ∧ 1 - acc ≤ P.2.xc 0 - P.2.xc 1) ∧
      ∀ m : Int, (N : Int) ≤ m → ∀ w' xb t info, cuttingPlaneDc Ω S ((100 : ℝ) : WithBot ℝ) ⟨m, tol⟩ w₀ = .ok (w', xb, t, info) → info.feasible = false := by
  have e10 : (10 : ℝ) = √10 ^ 2 := (Real.sq_sqrt (by norm_num)).symm
  have hpts : (⟨true, nd, ![0, 0], 1, 10⟩ : Ell 2).pts = euclBall ![0, 0] √10 := by
    have := euclBall_eq_pts (n := 2) (by norm_num) ![0, 0] √10 true nd
    rwa [← e10] at this
  obtain ⟨N, p₀, tol₀, h2, h3⟩ := C143_example1 (E₀ := ⟨true, nd, ![0, 0], 1, 10⟩) (c := ![2.2, 0.8 - acc / 2]) (r := acc / 8) (τ := 3 - acc) ⟨by norm_num, Matrix.PosDef.one, by norm_num⟩
    (by linarith) (by simp only [cons_val_zero, cons_val_one]; linarith) (by simp only [cons_val_zero, cons_val_one]; linarith) (by simp only [cons_val_zero, cons_val_one]; linarith) (by
    rw [hpts]
    intro z hz
    obtain ⟨b0, b1⟩ := ball2 (by linarith) hz
    change ∑ i, (z i - (![0, 0] : Fin 2 → ℝ) i) ^ 2 ≤ √10 ^ 2
    rw [← e10, Fin.sum_univ_two]
    simp only [cons_val_zero, cons_val_one, sub_zero] at b0 b1 ⊢
    rw [abs_le] at b0 b1
    have c0 : |z 0| ≤ 2.5 := by rw [abs_le]; constructor <;> linarith
    have c1 : |z 1| ≤ 1 := by rw [abs_le]; constructor <;> linarith
    have d0 := (sq_le_sq₀ (abs_nonneg _) (by norm_num)).2 c0
    have d1 := (sq_le_sq₀ (abs_nonneg _) (by norm_num)).2 c1
    rw [sq_abs] at d0 d1
    linarith)
  have hx₀ : ∀ p, VecRep p (![0, 0] : Fin 2 → ℝ) := fun p i => by fin_cases i <;> exact rep_zero
  refine ⟨N, p₀, tol₀, h2, fun p fl hp hfl tol htol => ?_⟩
  obtain ⟨q1, q2⟩ := h3 p fl hp hfl (hx₀ p) tol htol ⊥
  dsimp only
  refine ⟨fun m hm w' xb t info h => ?_, ?_, fun m hm w' xb t info h => ?_⟩
  · obtain ⟨r1, r2, r3, -⟩ := q1 m hm w' xb t info h
    cases t with
    | bot => exact absurd r1 (not_lt.2 bot_le)
    | coe s =>
      refine ⟨by rw [r3]; simp, s, rfl, WithBot.coe_lt_coe.1 r1, ?_⟩
      rcases r2 with r2 | r2
      · simp at r2
      · exact WithBot.coe_le_coe.1 r2.2
  · obtain ⟨j, log, P, cut, a1, a2, a3, a4, a5, a6, a7, a8⟩ := q2 bot_le
    refine ⟨j, log, P, cut, a1, a2, a3, a4, a5, ?_, by linarith⟩
    rw [abs_le] at a6 ⊢
    constructor <;> linarith
  · exact ((h3 p fl hp hfl (hx₀ p) tol htol ((100 : ℝ) : WithBot ℝ)).1 m hm w' xb t info h).2.2.2 (WithBot.coe_le_coe.2 (by norm_num))

end Verif
