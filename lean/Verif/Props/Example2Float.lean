import Verif.Props.LpFloat

/-! # C144: the feasibility runs of `tests/test_example2.py` and the misplaced starts of `test_example1.py` and `test_quasicvx.py`, every operation rounded -/
namespace Verif
open Matrix Ell FloatSpec MeasureTheory
variable {fl : ℝ → ℝ} {u : ℝ} {p : ℕ}

/-- `my_oracle2` of `tests/test_example2.py:10-29`, the same function as in `test_example1.py`, as `cutting_plane_feas` sees it. -/
noncomputable def lpFeasF (fl : ℝ → ℝ) (x : Fin 2 → ℝ) (w : Unit) : Except PyErr (Unit × Option ((Fin 2 → ℝ) × Beta)) := .ok (w, lpCutF fl x)

section
variable (hfl : RelErr u fl) (hu0 : 0 ≤ u) (hu : u ≤ 1 / 50)
include hfl hu0 hu

/-- **C144** (a call).  Either the point satisfies the constraints up to `2uR`, or the cut is deep and keeps the points with room up to `8u(R + 1)`. -/
theorem C144_call {R : ℝ} {x : Fin 2 → ℝ} (hxR : ∀ i, |x i| ≤ R) :
    (lpCutF fl x = none ∧ x 0 + x 1 ≤ 3 + 2 * (u * R) ∧ 1 - 2 * (u * R) ≤ x 0 - x 1) ∨
    ∃ g β, lpCutF fl x = some (g, .scalar β) ∧ 0 < β ∧
      ∀ z δ, z 0 + z 1 ≤ 3 - δ → 1 + δ ≤ z 0 - z 1 → g ⬝ᵥ (z - x) + β ≤ -δ + 8 * (u * (R + 1)) := by
  have hR0 : 0 ≤ R := (abs_nonneg _).trans (hxR 0)
  have huR := mul_nonneg hu0 hR0
  obtain ⟨a1, a2⟩ := sum_close hfl hu0 hu (hxR 0) (hxR 1)
  obtain ⟨b1, b2⟩ := sum_close (a := -x 0) hfl hu0 hu (by rw [abs_neg]; exact hxR 0) (hxR 1)
  rw [abs_le] at a1 b1
  have a3 : |fl (fl (x 0 + x 1) - 3) - (fl (x 0 + x 1) - 3)| ≤ u * (3 * R + 3) :=
    (hfl _).trans (mul_le_mul_of_nonneg_left ((abs_sub _ _).trans (by rw [abs_of_pos (by norm_num : (0:ℝ) < 3)]; linarith)) hu0)
  have b3 : |fl (fl (-x 0 + x 1) + 1) - (fl (-x 0 + x 1) + 1)| ≤ u * (3 * R + 1) :=
    (hfl _).trans (mul_le_mul_of_nonneg_left ((abs_add_le _ _).trans (by rw [abs_one]; linarith)) hu0)
  rw [abs_le] at a3 b3
  unfold lpCutF
  simp only
  by_cases h1 : 0 < fl (fl (x 0 + x 1) - 3)
  · simp only [if_pos h1]
    refine .inr ⟨_, _, rfl, h1, fun z δ h3 h4 => ?_⟩
    rw [dot2]
    simp only [cons_val_zero, cons_val_one, Pi.sub_apply]
    linarith
  by_cases h2 : 0 < fl (fl (-x 0 + x 1) + 1)
  · simp only [if_neg h1, if_pos h2]
    refine .inr ⟨_, _, rfl, h2, fun z δ h3 h4 => ?_⟩
    rw [dot2]
    simp only [cons_val_zero, cons_val_one, Pi.sub_apply]
    linarith
  simp only [if_neg h1, if_neg h2]
  have k1 := rel_le hfl hu0 hu h1
  have k2 := rel_le hfl hu0 hu h2
  exact .inl ⟨trivial, by linarith, by linarith⟩
end

/-- **C144** (any first ellipsoid).  If it contains a ball of radius `r` on which the constraints hold with room, there are a number of iterations, a number of bits and a tolerance, not zero, for which the run raises nothing,
reports feasible and success within `N` iterations, and ends at a centre that satisfies the constraints up to `r`. -/
theorem C144_example2 {E₀ : Ell 2} (hE : E₀.Proper) {c : Fin 2 → ℝ} {r : ℝ} (h0 : 0 < r) (h2 : c 0 + c 1 ≤ 3 - 3 * r) (h3 : 1 + 3 * r ≤ c 0 - c 1) (hball : euclBall c r ⊆ E₀.pts) :
    ∃ (N p₀ : ℕ) (tol₀ : ℝ), 0 < tol₀ ∧ ∀ p fl, p₀ ≤ p → Nearest p fl → ∀ tol, tol ≤ tol₀ → ∀ m : Int, (N : Int) ≤ m →
      ∃ w' info, cuttingPlaneFeas (fun x => liftOracle (lpFeasF fl x)) ((Ell.spaceF fl (vecDot fl)).beside Unit) ⟨m, tol⟩ ((), E₀) = .ok (w', info) ∧
        info.feasible = true ∧ info.status = .success ∧ info.numIters ≤ N ∧ w'.2.xc 0 + w'.2.xc 1 ≤ 3 + r ∧ 1 - r ≤ w'.2.xc 0 - w'.2.xc 1 := by
  set A := |c 0| + |c 1| + r with hA
  have hA0 : 0 ≤ A := by positivity
  have hKA : ∀ z ∈ euclBall c r, ∀ i, |z i| ≤ A := fun z hz i => by
    obtain ⟨b0, b1⟩ := ball2 h0.le hz
    have t0 := abs_sub_abs_le_abs_sub (z 0) (c 0)
    have t1 := abs_sub_abs_le_abs_sub (z 1) (c 1)
    have := abs_nonneg (c 0)
    have := abs_nonneg (c 1)
    fin_cases i
    · show |z 0| ≤ A
      linarith
    · show |z 1| ≤ A
      linarith
  have hpos : 0 < volume.real (euclBall c r ∩ E₀.pts) := by
    rw [Set.inter_eq_left.2 hball, vol_ball hE.dim h0]
    have := euclBall_real_pos (n := 2)
    positivity
  obtain ⟨N, L, ε₀, hε₀, C, η', θ', l, q, L₀, v', hS⟩ := C134_precise hE hKA hpos
  set R := A + √L with hR
  have hR0 : 0 ≤ R := by positivity
  set ζ := min ε₀ (min (1 / 50) (r / 2 / (8 * (R + 1)))) with hζdef
  have hζ : 0 < ζ := by positivity
  obtain ⟨p₀, hp₀⟩ := bits_precise 0 2 hζ
  refine ⟨N, p₀, 199 / 200 * (r / 2) ^ 2, by positivity, fun p fl hp hfl tol htol m hm => ?_⟩
  obtain ⟨v, hv0, hv, e1, -, e3⟩ := hp₀ p fl hp hfl
  have f1 : RelErr ζ fl := fun x => (e1 x).trans (mul_le_mul_of_nonneg_right hv (abs_nonneg _))
  have f3 : VecDotErr ζ (vecDot (n := 2) fl) := fun x y => (e3 x y).trans (mul_le_mul_of_nonneg_right hv (Finset.sum_nonneg fun _ _ => abs_nonneg _))
  have z1 : ζ ≤ ε₀ := min_le_left _ _
  have z2 : ζ ≤ 1 / 50 := (min_le_right _ _).trans (min_le_left _ _)
  have z4 : 8 * (ζ * (R + 1)) ≤ r / 2 := by
    have : ζ ≤ r / 2 / (8 * (R + 1)) := (min_le_right _ _).trans (min_le_right _ _)
    rw [le_div_iff₀ (by positivity)] at this
    linarith
  have z5 : 2 * (ζ * R) ≤ r := by
    have := hζ.le
    have := mul_nonneg hζ.le hR0
    linarith
  have hkeep : FeasKeepsAny (euclBall c r) {x | ∀ i, |x i| ≤ R} (fun _ : Unit => True) tol (lpFeasF fl) := by
    intro x hx w _
    rcases C144_call f1 hζ.le z2 hx with ⟨k1, -, -⟩ | ⟨g, β, k1, k2, k3⟩
    · exact .inl ⟨w, by rw [lpFeasF, k1]⟩
    have key : ∀ z ∈ euclBall c r, g ⬝ᵥ (z - x) + β ≤ -(r / 2) := fun z hz => by
      obtain ⟨b0, b1⟩ := ball2 h0.le hz
      rw [abs_le] at b0 b1
      have := k3 z r (by linarith) (by linarith)
      linarith
    refine .inr ⟨w, (g, .scalar β), by rw [lpFeasF, k1], trivial, k2.le, ?_, fun z hz => ⟨?_, ?_⟩⟩
    · rintro rfl
      have := key c (by change ∑ i, (c i - c i) ^ 2 ≤ r ^ 2; simp; positivity)
      simp at this
      linarith
    · have := key z hz
      change g ⬝ᵥ (z - x) + β ≤ 0
      linarith
    · have := key z hz
      have h : r / 2 ≤ -(g ⬝ᵥ (z - x)) := by linarith
      have := (sq_le_sq₀ (by positivity) (by linarith)).2 h
      rw [neg_sq] at this
      dsimp only
      linarith
  obtain ⟨w', info, k1, k2, k3, k4, k5, w, -, k6⟩ := C134_feas (w₀ := ()) (hS ζ ζ hζ.le le_rfl z1 {x | ∀ i, |x i| ≤ R} fun _ h => h) hE f1 hζ.le le_rfl f3 hkeep trivial hm
  refine ⟨w', info, k1, k2, k3, k4, ?_⟩
  rcases C144_call f1 hζ.le z2 k5 with ⟨-, a1, a2⟩ | ⟨g, β, a1, -, -⟩
  · exact ⟨by linarith, by linarith⟩
  · simp [lpFeasF, a1] at k6

/-! ### The two tests, to the iteration -/

section
variable (hn : Nearest p fl) (hp : 10 ≤ p)
include hn hp

theorem fl_int (z : ℤ) (hz : |z| ≤ 1000) : fl (z : ℝ) = z := by
  refine hn.rounding.exact _ (rep_int (hz.trans ?_))
  calc (1000 : ℤ) ≤ 2 ^ 10 := by norm_num
    _ ≤ 2 ^ p := by gcongr; norm_num

theorem fl_thousandth (x : ℝ) : |fl x - x| ≤ |x| / 1000 := by
  refine (hn.err x).trans (div_le_div_of_nonneg_left (abs_nonneg _) (by norm_num) ?_)
  calc (1000 : ℝ) ≤ 2 ^ 10 := by norm_num
    _ ≤ 2 ^ p := by gcongr; norm_num

omit hn hp in
theorem vecDot_pair (x y : Fin 2 → ℝ) : vecDot fl x y = fl (fl (0 + fl (x 0 * y 0)) + fl (x 1 * y 1)) := rfl

/-- The vectors of the first cut are small integers: nothing is rounded. -/
theorem lp_first (g : Fin 2 → ℝ) (a b : ℤ) (ha : a = 1 ∨ a = -1) (hb : b = 1 ∨ b = -1) (hg : g = ![(a : ℝ), b]) :
    (fun i => vecDot fl ((1 : Matrix (Fin 2) (Fin 2) ℝ) i) g) = g ∧ vecDot fl g g = 2 ∧ fl (10 * 2) = 20 := by
  have fi := fl_int hn hp
  have f0 : fl 0 = 0 := by simpa using fi 0 (by norm_num)
  have f1 : fl 1 = 1 := by simpa using fi 1 (by norm_num)
  have f2 : fl 2 = 2 := by simpa using fi 2 (by norm_num)
  have fm : fl (-1) = -1 := by simpa using fi (-1) (by norm_num)
  have f20 : fl 20 = 20 := by simpa using fi 20 (by norm_num)
  subst hg
  refine ⟨?_, ?_, by norm_num [f20]⟩
  · funext i
    rw [vecDot_pair]
    rcases ha with rfl | rfl <;> rcases hb with rfl | rfl <;> fin_cases i <;> simp [Matrix.one_apply, f0, f1, fm]
  · rw [vecDot_pair]
    rcases ha with rfl | rfl <;> rcases hb with rfl | rfl <;> simp [f0, f1, fm] <;> norm_num [f2]

theorem fl_between {x a b : ℝ} (ha : 0 ≤ a) (h1 : a ≤ x) (h2 : x ≤ b) : a * (999 / 1000) ≤ fl x ∧ fl x ≤ b * (1001 / 1000) := by
  have := fl_thousandth hn hp x
  rw [abs_of_nonneg (ha.trans h1), abs_le] at this
  constructor <;> linarith

/-- The first step of `test_case_feasible`. -/
theorem lp_step (nd : Bool) : ∃ (E' : Ell 2) (r : ℝ), updateF fl (vecDot fl) (![-1, 1], .scalar 1) (⟨true, nd, ![0, 0], 1, 10⟩ : Ell 2) = .ok (E', .success, 20) ∧
    E'.xc = ![r, -r] ∧ Rep p r ∧ 1 ≤ r ∧ r ≤ 6 / 5 := by
  obtain ⟨k1, k2, k3⟩ := lp_first hn hp ![-1, 1] (-1) 1 (by simp) (by simp) (by simp)
  have fi := fl_int hn hp
  have f2 : fl 2 = 2 := by simpa using fi 2 (by norm_num)
  have hs1 : 4.47 ≤ √20 := Real.le_sqrt_of_sq_le (by norm_num)
  have hs2 : √20 ≤ 4.48 := Real.sqrt_le_iff.2 ⟨by norm_num, by norm_num⟩
  obtain ⟨t1, t2⟩ := fl_between hn hp (by norm_num) hs1 hs2
  set tau := fl √20 with htau
  obtain ⟨d1, d2⟩ := fl_between hn hp (by norm_num) (show (3.4 : ℝ) ≤ tau - 1 by linarith) (show tau - 1 ≤ 3.5 by linarith)
  obtain ⟨g1, g2⟩ := fl_between hn hp (by norm_num) (show (6.46 : ℝ) ≤ tau + 2 by linarith) (show tau + 2 ≤ 6.49 by linarith)
  obtain ⟨b1, b2⟩ := fl_between hn hp (by norm_num) (show (5.4 : ℝ) ≤ tau + 1 by linarith) (show tau + 1 ≤ 5.5 by linarith)
  have hg : fl (tau + fl ((2 : ℕ) * 1)) = fl (tau + 2) := by norm_num [f2]
  set gamma := fl (tau + 2) with hgamma
  obtain ⟨r1, r2⟩ := fl_between hn hp (by norm_num) (show (2.15 : ℝ) ≤ gamma / 3 by linarith) (show gamma / 3 ≤ 2.17 by linarith)
  set rho := fl (gamma / 3) with hrho
  obtain ⟨o1, o2⟩ := fl_between hn hp (by norm_num) (show (1.07 : ℝ) ≤ rho / 2 by linarith) (show rho / 2 ≤ 1.09 by linarith)
  set ro := fl (rho / 2) with hro
  have hrep : Rep p ro := (hn _).1
  have e1 : fl ro = ro := hn.rounding.exact _ hrep
  have e2 : fl (-ro) = -ro := hn.rounding.exact _ hrep.neg
  have hdc : ∃ sigma delta, calcDcF fl 2 20 1 = .ok (.accept rho sigma delta, 20) := by
    have a1 : ¬ fl (tau - 1) < 0 := by linarith
    have a2 : ¬ gamma < 0 := by linarith
    have a3 : gamma ≠ 0 := by linarith
    have a4 : fl (tau + 1) ≠ 0 := by linarith
    have e3 : ((2 : ℕ) : ℝ) + 1 = 3 := by norm_num
    simp only [calcDcF, sqrtF, pySqrt, if_neg (show ¬ (20 : ℝ) < 0 by norm_num), Except.map, ← htau, if_neg a1, if_neg (one_ne_zero (α := ℝ)), hg, if_neg a2, divF, pyDiv, if_neg a3, if_neg a4, e3,
      if_neg (show (20 : ℝ) ≠ 0 by norm_num), bind, Except.bind, pure, Except.pure, ← hrho]
    exact ⟨_, _, rfl⟩
  obtain ⟨sigma, delta, hdc⟩ := hdc
  have hxc : (fun i => fl ((![0, 0] : Fin 2 → ℝ) i - fl (ro * (![-1, 1] : Fin 2 → ℝ) i))) = ![ro, -ro] := by
    funext i
    fin_cases i <;> simp [e1, e2]
  have hxc' : (fun i => fl ((![0, 0] : Fin 2 → ℝ) i - fl (ro * vecDot fl ((1 : Matrix (Fin 2) (Fin 2) ℝ) i) ![-1, 1]))) = ![ro, -ro] := by
    rw [← hxc]
    funext i
    rw [congrFun k1 i]
  have key : ∃ E' : Ell 2, updateF fl (vecDot fl) (![-1, 1], .scalar 1) (⟨true, nd, ![0, 0], 1, 10⟩ : Ell 2) = .ok (E', .success, 20) ∧ E'.xc = ![ro, -ro] := by
    cases nd <;> simp only [updateF, k1, k2, k3, calcLlF, hdc, divF, pyDiv, if_neg (show (2 : ℝ) ≠ 0 by norm_num), Except.map, ← hro] <;> exact ⟨_, rfl, hxc'⟩
  obtain ⟨E', q1, q2⟩ := key
  exact ⟨E', ro, q1, q2, hrep, by linarith, by linarith⟩

/-- **C144** (`test_case_feasible`).  In any arithmetic with ten bits or more, doubles among them, and for all options with `max_it ≥ 2` and `tol ≤ 20`: one cut, and the second call accepts.  The run raises nothing, reports
feasible, success and two iterations, and the centre satisfies the constraints exactly. -/
theorem C144_test_feasible (nd : Bool) {m : Int} (hm : 2 ≤ m) {tol : ℝ} (htol : tol ≤ 20) :
    ∃ E', cuttingPlaneFeas (fun x => liftOracle (lpFeasF fl x)) ((Ell.spaceF fl (vecDot fl)).beside Unit) ⟨m, tol⟩ ((), ⟨true, nd, ![0, 0], 1, 10⟩) = .ok (((), E'), ⟨true, 2, .success⟩) ∧
      LpFeasible E'.xc := by
  obtain ⟨E', r, h1, h2, h3, h4, h5⟩ := lp_step hn hp nd
  have fi := fl_int hn hp
  have f0 : fl 0 = 0 := by simpa using fi 0 (by norm_num)
  have f1 : fl 1 = 1 := by simpa using fi 1 (by norm_num)
  have fm : fl (-3) = -3 := by simpa using fi (-3) (by norm_num)
  have c1 : lpCutF fl ![0, 0] = some (![-1, 1], .scalar 1) := by
    simp [lpCutF, f0, f1, fm]
  have hr2 : fl (-r + -r) = -(r * 2 ^ (1 : ℤ)) := by
    rw [← hn.rounding.exact _ (h3.scale 1).neg]
    congr 1
    rw [zpow_one]
    ring
  have c2 : lpCutF fl E'.xc = none := by
    have a1 : ¬ 0 < fl (-(r * 2 ^ (1 : ℤ)) + 1) := by
      have := fl_thousandth hn hp (-(r * 2 ^ (1 : ℤ)) + 1)
      rw [zpow_one] at this ⊢
      rw [abs_of_nonpos (show -(r * 2) + 1 ≤ 0 by linarith), abs_le] at this
      linarith
    simp [h2, lpCutF, f0, fm]
    rw [hr2, if_neg (by norm_num), if_neg a1]
  obtain ⟨k, hk⟩ : ∃ k : ℕ, m.toNat = k + 2 := ⟨m.toNat - 2, by omega⟩
  refine ⟨E', ?_, ?_⟩
  · simp [cuttingPlaneFeas, forRange, hk, forLoop, feasBody, liftOracle, Space.beside, Ell.spaceF, lpFeasF, c1, c2, h1, not_lt.2 htol, readVar]
  · rw [h2]
    simp only [LpFeasible, cons_val_zero, cons_val_one]
    constructor <;> linarith

/-- The first step from `(100, 100)`. -/
theorem lp_missF (nd : Bool) : lpCutF fl ![100, 100] = some (![1, 1], .scalar 197) ∧
    updateF fl (vecDot fl) (![1, 1], .scalar 197) (⟨true, nd, ![100, 100], 1, 10⟩ : Ell 2) = .ok (⟨true, nd, ![100, 100], 1, 10⟩, .nosoln, 20) := by
  obtain ⟨k1, k2, k3⟩ := lp_first hn hp ![1, 1] 1 1 (by simp) (by simp) (by simp)
  have fi := fl_int hn hp
  have f200 : fl 200 = 200 := by simpa using fi 200 (by norm_num)
  have f197 : fl 197 = 197 := by simpa using fi 197 (by norm_num)
  refine ⟨by norm_num [lpCutF, f200, f197], ?_⟩
  have hs1 : 4.47 ≤ √20 := Real.le_sqrt_of_sq_le (by norm_num)
  have hs2 : √20 ≤ 4.48 := Real.sqrt_le_iff.2 ⟨by norm_num, by norm_num⟩
  obtain ⟨t1, t2⟩ := fl_between hn hp (by norm_num) hs1 hs2
  have hneg : fl (fl √20 - 197) < 0 := by
    have := fl_thousandth hn hp (fl √20 - 197)
    rw [abs_of_nonpos (show fl √20 - 197 ≤ 0 by linarith), abs_le] at this
    linarith
  simp only [updateF, k1, k2, k3, calcLlF, calcDcF, sqrtF, pySqrt, if_neg (show ¬ (20 : ℝ) < 0 by norm_num), Except.map, if_pos hneg]

/-- **C144** (`test_case_infeasible` of `test_example2.py`).  From `(100, 100)` the first cut misses the ball of squared radius 10: one iteration, not feasible, `nosoln`, the ellipsoid as it was; for all options with
`max_it ≥ 1`. -/
theorem C144_test_infeasible (nd : Bool) {o : Options ℝ} (ho : 1 ≤ o.maxIt) :
    cuttingPlaneFeas (fun x => liftOracle (lpFeasF fl x)) ((Ell.spaceF fl (vecDot fl)).beside Unit) o ((), ⟨true, nd, ![100, 100], 1, 10⟩) =
      .ok (((), ⟨true, nd, ![100, 100], 1, 10⟩), ⟨false, 1, .nosoln⟩) := by
  obtain ⟨c1, hu⟩ := lp_missF hn hp nd
  obtain ⟨k, hk⟩ : ∃ k : ℕ, o.maxIt.toNat = k + 1 := ⟨o.maxIt.toNat - 1, by omega⟩
  simp [cuttingPlaneFeas, forRange, hk, forLoop, feasBody, liftOracle, Space.beside, Ell.spaceF, lpFeasF, c1, hu, readVar]

/-- **C144** (`test_case_infeasible1` of `test_example1.py`).  The same start: one iteration, not feasible, `nosoln` — and `x_best` is the infeasible start. -/
theorem C144_example1_infeasible1 (nd : Bool) {o : Options ℝ} (ho : 1 ≤ o.maxIt) :
    cuttingPlaneDc (fun x t => liftOracle (pureOracle (lpOracleF fl) x t)) ((Ell.spaceF fl (vecDot fl)).beside Unit) ⊥ o ((), ⟨true, nd, ![100, 100], 1, 10⟩) =
      .ok (((), ⟨true, nd, ![100, 100], 1, 10⟩), some ![100, 100], ⊥, ⟨false, 1, .nosoln⟩) := by
  obtain ⟨c1, hu⟩ := lp_missF hn hp nd
  obtain ⟨k, hk⟩ : ∃ k : ℕ, o.maxIt.toNat = k + 1 := ⟨o.maxIt.toNat - 1, by omega⟩
  simp [cuttingPlaneDc, forRange, hk, forLoop, dcBody, liftOracle, pureOracle, Space.beside, Ell.spaceF, lpOracleF, c1, hu, readVar]
end

/-- **C144** (`test_case_infeasible1` of `test_quasicvx.py`).  From `(100, 100)` with 20 bits or more, whatever `math.exp` does and whatever the start level: one iteration, not feasible, `nosoln`, no point. -/
theorem C144_quasicvx_infeasible1 (hn : Nearest p fl) (hp : 20 ≤ p) (ex : ℝ → ℝ) (nd : Bool) (t0 : ℝ) {o : Options ℝ} (ho : 1 ≤ o.maxIt) :
    cuttingPlaneDc (fun x t => liftOracle (pureOracle (quasi1F fl ex) x t)) ((Ell.spaceF fl (vecDot fl)).beside Unit) t0 o ((), ⟨true, nd, ![100, 100], 1, 10⟩) =
      .ok (((), ⟨true, nd, ![100, 100], 1, 10⟩), none, t0, ⟨false, 1, .nosoln⟩) := by
  have fi : ∀ z : ℤ, |z| ≤ 1000000 → fl (z : ℝ) = z := fun z hz => by
    refine hn.rounding.exact _ (rep_int (hz.trans ?_))
    calc (1000000 : ℤ) ≤ 2 ^ 20 := by norm_num
      _ ≤ 2 ^ p := by gcongr; norm_num
  have f0 : fl 0 = 0 := by simpa using fi 0 (by norm_num)
  have f1 : fl 1 = 1 := by simpa using fi 1 (by norm_num)
  have fm : fl (-1) = -1 := by simpa using fi (-1) (by norm_num)
  have f2 : fl 200 = 200 := by simpa using fi 200 (by norm_num)
  have f3 : fl 10000 = 10000 := by simpa using fi 10000 (by norm_num)
  have f4 : fl 9900 = 9900 := by simpa using fi 9900 (by norm_num)
  have f5 : fl 40000 = 40000 := by simpa using fi 40000 (by norm_num)
  have f6 : fl 40001 = 40001 := by simpa using fi 40001 (by norm_num)
  have f7 : fl 400010 = 400010 := by simpa using fi 400010 (by norm_num)
  have c1 : quasi1F fl ex ![100, 100] t0 = ((![200, -1], .scalar 9900), none) := by
    norm_num [quasi1F, f2, f3, f4]
  have k1 : (fun i => vecDot fl ((1 : Matrix (Fin 2) (Fin 2) ℝ) i) ![200, -1]) = ![200, -1] := by
    funext i
    rw [vecDot_pair]
    fin_cases i <;> simp [Matrix.one_apply, f0, f2, fm]
  have k2 : vecDot fl ![200, -1] ![200, -1] = 40001 := by
    rw [vecDot_pair]
    norm_num [f1, f5, f6]
  have k3 : fl (10 * 40001) = 400010 := by norm_num [f7]
  have hs1 : 600 ≤ √400010 := Real.le_sqrt_of_sq_le (by norm_num)
  have hs2 : √400010 ≤ 700 := Real.sqrt_le_iff.2 ⟨by norm_num, by norm_num⟩
  obtain ⟨t1, t2⟩ := fl_between hn (by omega) (by norm_num) hs1 hs2
  have hneg : fl (fl √400010 - 9900) < 0 := by
    have := fl_thousandth hn (by omega) (fl √400010 - 9900)
    rw [abs_of_nonpos (show fl √400010 - 9900 ≤ 0 by linarith), abs_le] at this
    linarith
  have hu : updateF fl (vecDot fl) (![200, -1], .scalar 9900) (⟨true, nd, ![100, 100], 1, 10⟩ : Ell 2) = .ok (⟨true, nd, ![100, 100], 1, 10⟩, .nosoln, 400010) := by
    simp only [updateF, k1, k2, k3, calcLlF, calcDcF, sqrtF, pySqrt, if_neg (show ¬ (400010 : ℝ) < 0 by norm_num), Except.map, if_pos hneg]
  obtain ⟨k, hk⟩ : ∃ k : ℕ, o.maxIt.toNat = k + 1 := ⟨o.maxIt.toNat - 1, by omega⟩
  simp [cuttingPlaneDc, forRange, hk, forLoop, dcBody, liftOracle, pureOracle, Space.beside, Ell.spaceF, c1, hu, readVar]

/-- With doubles and the default options of `cutting_plane_feas`. -/
example : ∃ E', cuttingPlaneFeas (fun x => liftOracle (lpFeasF (ieee 53) x)) ((Ell.spaceF (ieee 53) (vecDot (ieee 53))).beside Unit) ⟨2000, 1 / 10 ^ 8⟩ ((), ⟨true, false, ![0, 0], 1, 10⟩) =
    .ok (((), E'), ⟨true, 2, .success⟩) ∧ LpFeasible E'.xc :=
  C144_test_feasible (ieee_nearest (p := 53) (by norm_num)) (by norm_num) false (by norm_num) (by norm_num)

/-- A ball with room for `C144_example2` in the ellipsoid of the test. -/
example : ∃ (N p₀ : ℕ) (tol₀ : ℝ), 0 < tol₀ ∧ ∀ p fl, p₀ ≤ p → Nearest p fl → ∀ tol, tol ≤ tol₀ → ∀ m : Int, (N : Int) ≤ m →
    ∃ w' info, cuttingPlaneFeas (fun x => liftOracle (lpFeasF fl x)) ((Ell.spaceF fl (vecDot fl)).beside Unit) ⟨m, tol⟩ ((), ⟨true, false, ![0, 0], 1, 3 ^ 2⟩) = .ok (w', info) ∧
      info.feasible = true ∧ info.status = .success ∧ info.numIters ≤ N ∧ w'.2.xc 0 + w'.2.xc 1 ≤ 3 + 1 / 5 ∧ 1 - 1 / 5 ≤ w'.2.xc 0 - w'.2.xc 1 := by
  refine C144_example2 (c := ![1.35, -1.35]) ⟨by norm_num, Matrix.PosDef.one, by norm_num⟩ (by norm_num) (by norm_num) (by norm_num) ?_
  rw [euclBall_eq_pts (n := 2) (by norm_num)]
  intro z hz
  obtain ⟨b0, b1⟩ := ball2 (by norm_num) hz
  change ∑ i, (z i - (![0, 0] : Fin 2 → ℝ) i) ^ 2 ≤ 3 ^ 2
  rw [Fin.sum_univ_two]
  simp only [cons_val_zero, cons_val_one, sub_zero] at b0 b1 ⊢
  rw [abs_le] at b0 b1
  nlinarith

end Verif
