import Mathlib.Analysis.SpecialFunctions.Exp
import Mathlib.Analysis.Complex.ExponentialBounds
import Verif.Model.Quasi
import Verif.Spec.QuasiSpec
import Verif.Props.EllTotal

/-! # C98: quasi-convex programs -/
namespace Verif
open Matrix Ell
variable {n : ℕ} {W T : Type _} [DecidableEq T]

/-- **C98** (verdict).  For every quasi-convex oracle and every run that returns: the level is the initial one (and no point
was recorded) or attained at the returned point; and if the run stopped by itself no point of the initial ellipsoid has room
`δ`, `tol ≤ δ²`, at the returned level. -/
theorem C98_quasi_verdict {Lvl : T → Prop} {Room : T → (Fin n → ℝ) → ℝ → Prop} {Hit : (Fin n → ℝ) → T → Prop} {Inv : W → Prop}
    {Ω : (Fin n → ℝ) → T → W → Except PyErr (W × ((Fin n → ℝ) × Beta) × Option T)} (hΩ : QuasiOracle Lvl Room Hit Inv Ω)
    {E₀ E : Ell n} (hE : E₀.WF) {o : Options ℝ} {t0 t : T} (ht0 : Lvl t0) {xb : Option (Fin n → ℝ)} {info : CInfo} {w₀ w : W}
    (hw₀ : Inv w₀)
    (hr : cuttingPlaneDc (fun x t => liftOracle (Ω x t)) (Ell.space W n) t0 o (w₀, E₀) = .ok ((w, E), xb, t, info)) :
    ((xb = none ∧ t = t0) ∨ ∃ x, xb = some x ∧ Lvl t ∧ Hit x t) ∧
    (info.status ≠ .success → ∀ z ∈ E₀.pts, ∀ δ, 0 ≤ δ → o.tol ≤ δ ^ 2 → ¬ Room t z δ) := by
  have key := C71_dc_ell_verdict (Ω := Ω) (fun w t => Inv w ∧ Lvl t)
    (fun t => {z | ∃ δ, 0 ≤ δ ∧ o.tol ≤ δ ^ 2 ∧ Room t z δ}) hE (o := o) ?_ (w₀ := w₀) ⟨hw₀, ht0⟩ hr
  · obtain ⟨h1, -, -, h4⟩ := key
    refine ⟨?_, fun hs z hz δ h0 hd hh => h1 hs z ⟨δ, h0, hd, hh⟩ hz⟩
    rcases h4 with h4 | ⟨x, s, u, u', c, hx, ⟨hu, hs⟩, hq⟩
    · exact .inl h4
    · obtain ⟨w', g, β, t1, e1, -, -, e4, -⟩ := hΩ x s u hu hs
      rw [hq] at e1
      simp only [Except.ok.injEq, Prod.mk.injEq] at e1
      obtain ⟨a1, a2, -⟩ := e4 t e1.2.2.symm
      exact .inr ⟨x, hx, a1, a2⟩
  · rintro x t w w' c t1 ⟨hi, hl⟩ hq
    obtain ⟨w'', g, β, t1', e1, e2, e3, e4, e5⟩ := hΩ x t w hi hl
    rw [hq] at e1
    simp only [Except.ok.injEq, Prod.mk.injEq] at e1
    obtain ⟨rfl, rfl, rfl⟩ := e1
    have hle : Lvl (t1.getD t) ∧ ∀ z δ, 0 ≤ δ → Room (t1.getD t) z δ → Room t z δ := by
      cases t1 with
      | none => exact ⟨hl, fun _ _ _ h => h⟩
      | some s => exact ⟨(e4 s rfl).1, (e4 s rfl).2.2⟩
    refine ⟨⟨e2, hle.1⟩, ?_, e3, ?_⟩
    · rintro z ⟨δ, h0, hd, h1⟩
      exact ⟨δ, h0, hd, hle.2 z δ h0 h1⟩
    · rintro z ⟨δ, h0, hd, h1⟩
      have h3 := e5 z δ h0 h1
      have h5 : g ⬝ᵥ (z - x) ≤ -δ := by linarith
      refine ⟨?_, by nlinarith⟩
      change g ⬝ᵥ (z - x) + β ≤ 0
      linarith

/-- **C98** (complexity).  If a ball of radius `r` inside the initial ball `B(x₀, R)` has room `δ > 0`, `tol ≤ δ²`, at every level
satisfying `Goal`, and `max_it > 2n(n+1)·ln(R/r)`, then no run that returns ends at a `Goal` level, and a level beyond is reported
within `2n(n+1)·ln(R/r) + 1` oracle calls. -/
theorem C98_quasi_complexity (hn : 2 ≤ n) {Lvl : T → Prop} {Room : T → (Fin n → ℝ) → ℝ → Prop} {Hit : (Fin n → ℝ) → T → Prop}
    {Inv : W → Prop} {Ω : (Fin n → ℝ) → T → W → Except PyErr (W × ((Fin n → ℝ) × Beta) × Option T)}
    (hΩ : QuasiOracle Lvl Room Hit Inv Ω) {E₀ : Ell n} {x₀ a : Fin n → ℝ} {R r δ : ℝ} (hr : 0 < r) (hδ : 0 < δ)
    (hinit : Ell.init (.scalar (R ^ 2)) x₀ = .ok E₀) (hball : euclBall a r ⊆ euclBall x₀ R)
    {o : Options ℝ} (htol : o.tol ≤ δ ^ 2) (hmax : 2 * (n : ℝ) * ((n : ℝ) + 1) * Real.log (R / r) < o.maxIt)
    {w₀ : W} (hw₀ : Inv w₀) (t0 : T) (ht0 : Lvl t0) :
    (∀ w E xb t info, cuttingPlaneDc (fun x t => liftOracle (Ω x t)) (Ell.space W n) t0 o (w₀, E₀) =
      .ok ((w, E), xb, t, info) → ¬ ∀ z ∈ euclBall a r, Room t z δ) ∧
    ∃ (j : ℕ) (l : _) (u : _) (u' : _) (cut : _) (t1 : _), (j : ℝ) ≤ 2 * (n : ℝ) * ((n : ℝ) + 1) * Real.log (R / r) ∧
      DcRounds (fun x t => liftOracle (Ω x t)) (Ell.space W n) o.tol t0 (w₀, E₀) j l u ∧
      Ω u.2.xc (bestT t0 l) u.1 = .ok (u', cut, t1) ∧ ¬ ∀ z ∈ euclBall a r, Room (t1.getD (bestT t0 l)) z δ := by
  obtain ⟨hwf, hpts, hB⟩ := init_bound (r := r) hn hinit
  have ha : a ∈ euclBall a r := by
    change ∑ i, (a i - a i) ^ 2 ≤ r ^ 2; simp; positivity
  have key := C72_dc_ell_converges (Ω := Ω) (fun w t => Inv w ∧ Lvl t) (fun t => ∀ z ∈ euclBall a r, Room t z δ) hwf hr
    (by rw [hpts]; exact hball) (o := o) (fun x t w hi => by
      obtain ⟨w', g, β, t1, e1, e2, e3, e4, e5⟩ := hΩ x t w hi.1 hi.2
      have hle : Lvl (t1.getD t) ∧ ∀ z δ, 0 ≤ δ → Room (t1.getD t) z δ → Room t z δ := by
        cases t1 with
        | none => exact ⟨hi.2, fun _ _ _ h => h⟩
        | some s => exact ⟨(e4 s rfl).1, (e4 s rfl).2.2⟩
      refine ⟨w', _, t1, e1, ⟨e2, hle.1⟩, fun hg z hz => hle.2 z δ hδ.le (hg z hz), fun hg => ?_⟩
      have hz : ∀ z ∈ euclBall a r, g ⬝ᵥ (z - x) + β ≤ -δ := fun z hz => e5 z δ hδ.le (hg z hz)
      refine ⟨fun z hz' => ?_, e3, ?_, a, ha, ?_⟩
      · change g ⬝ᵥ (z - x) + β ≤ 0
        linarith [hz z hz']
      · intro h0
        have h0' : g = 0 := h0
        have := hz a ha
        rw [h0', zero_dotProduct] at this
        linarith
      · have := hz a ha
        change o.tol ≤ (g ⬝ᵥ (a - x)) ^ 2
        nlinarith) (by rw [hB]; exact hmax) (w₀ := w₀) (t0 := t0) ⟨hw₀, ht0⟩
  obtain ⟨h1, j, l, u, u', cut, t1, h2, h3, h4, h5⟩ := key
  rw [hB] at h2
  exact ⟨h1, j, l, u, u', cut, t1, h2, h3, h4, h5⟩

/-! ## The two programs of the tests -/

theorem dot2 (g z : Fin 2 → ℝ) : g ⬝ᵥ z = g 0 * z 0 + g 1 * z 1 := by
  simp [dotProduct, Fin.sum_univ_two]

theorem exp_tangent (u v : ℝ) : Real.exp u + Real.exp u * (v - u) ≤ Real.exp v := by
  have h := Real.add_one_le_exp (v - u)
  have h2 : Real.exp v = Real.exp u * Real.exp (v - u) := by rw [← Real.exp_add]; congr 1; ring
  rw [h2]
  nlinarith [Real.exp_pos u]

/-- The optimal value of the program is `quasiOpt`. -/
theorem C98_opt : (∀ x y, quasiFeasible x y → quasiValue x y ≤ quasiOpt) ∧
    quasiFeasible (1 / 2) (Real.exp (1 / 2)) ∧ quasiValue (1 / 2) (Real.exp (1 / 2)) = quasiOpt := by
  refine ⟨?_, ⟨le_rfl, by norm_num⟩, ?_⟩
  · rintro x y ⟨h1, h0⟩
    have hy : 0 < y := (Real.exp_pos x).trans_le h1
    unfold quasiValue quasiOpt
    -- `2x ≤ exp(2x - 1)`, hence `√(2x) ≤ exp(x - 1/2)`
    have h2 : 2 * x ≤ Real.exp (x - 1 / 2) ^ 2 := by
      rw [← Real.exp_nat_mul]
      have := Real.add_one_le_exp (2 * x - 1)
      have e : ((2 : ℕ) : ℝ) * (x - 1 / 2) = 2 * x - 1 := by push_cast; ring
      rw [e]; linarith
    have h3 : √x ≤ √(1 / 2) * Real.exp (x - 1 / 2) := by
      rw [Real.sqrt_le_left (by positivity), mul_pow, Real.sq_sqrt (by norm_num)]
      linarith
    have h4 : Real.exp (x - 1 / 2) = Real.exp x * Real.exp (-(1 / 2)) := by rw [← Real.exp_add]; congr 1
    rw [div_le_iff₀ hy]
    calc √x ≤ √(1 / 2) * Real.exp (x - 1 / 2) := h3
      _ = √(1 / 2) * Real.exp (-(1 / 2)) * Real.exp x := by rw [h4]; ring
      _ ≤ √(1 / 2) * Real.exp (-(1 / 2)) * y := by
        apply mul_le_mul_of_nonneg_left h1; positivity
  · unfold quasiValue quasiOpt
    rw [Real.exp_neg, div_eq_mul_inv]

/-- Room in the coordinates of `test_quasicvx.py`. -/
def room1 (t : ℝ) (z : Fin 2 → ℝ) (δ : ℝ) : Prop := z 0 ^ 2 - z 1 ≤ -δ ∧ -(z 0) + t * Real.exp (z 1) ≤ -δ

/-- The oracle of `test_quasicvx.py` started at `t₀ ≥ 0` meets the contract; an improved level is the value of the program at
`(x, y) = (sqrtx², exp(ly))`, which is feasible. -/
theorem quasi1_oracle {t₀ : ℝ} (h0 : 0 ≤ t₀) :
    QuasiOracle (fun t => t₀ ≤ t) room1
      (fun z t => quasiFeasible (z 0 ^ 2) (Real.exp (z 1)) ∧ t = quasiValue (z 0 ^ 2) (Real.exp (z 1)) ∧ 0 < z 0)
      (fun _ : Unit => True) (pureOracle quasi1) := by
  intro x t w _ ht
  have he := Real.exp_pos (x 1)
  have ht' : 0 ≤ t := h0.trans ht
  unfold pureOracle quasi1
  simp only
  split_ifs with h1 h2
  · refine ⟨w, _, _, _, rfl, trivial, h1.le, by simp, ?_⟩
    rintro z δ - ⟨hz, -⟩
    rw [dot2]
    simp
    nlinarith [sq_nonneg (z 0 - x 0)]
  · have hx0 : 0 < x 0 := by nlinarith
    have hlt : t < x 0 / Real.exp (x 1) := by rw [lt_div_iff₀ he]; linarith
    refine ⟨w, _, _, _, rfl, trivial, le_rfl, ?_, ?_⟩
    · rintro s hs
      obtain rfl := Option.some.inj hs
      refine ⟨by linarith, ⟨⟨Real.exp_le_exp.2 (by nlinarith), sq_nonneg _⟩, ?_, hx0⟩, ?_⟩
      · unfold quasiValue; rw [Real.sqrt_sq hx0.le]
      · rintro z δ - ⟨hz1, hz2⟩
        refine ⟨hz1, le_trans ?_ hz2⟩
        nlinarith [Real.exp_pos (z 1)]
    · rintro z δ - ⟨-, hz⟩
      have h3 := exp_tangent (x 1) (z 1)
      simp only [Option.getD_some] at hz
      have h4 := mul_le_mul_of_nonneg_left h3 (div_nonneg hx0.le he.le)
      have h5 : x 0 / Real.exp (x 1) * (Real.exp (x 1) + Real.exp (x 1) * (z 1 - x 1)) = x 0 + x 0 * (z 1 - x 1) := by
        field_simp
      rw [h5] at h4
      rw [dot2]
      simp
      linarith
  · refine ⟨w, _, _, _, rfl, trivial, not_lt.1 h2, by simp, ?_⟩
    rintro z δ - ⟨-, hz⟩
    have h3 := mul_le_mul_of_nonneg_left (exp_tangent (x 1) (z 1)) ht'
    simp only [Option.getD_none] at hz
    rw [dot2]
    simp
    nlinarith

/-- Room in the coordinates of `test_quasicvx2.py`. -/
def room2 (t : ℝ) (z : Fin 2 → ℝ) (δ : ℝ) : Prop :=
  Real.exp (z 0) - z 1 ≤ -δ ∧ δ ≤ z 0 ∧ -√(z 0) - t * z 1 ≤ -δ

/-- The oracle of `test_quasicvx2.py` meets the contract from every start level. -/
theorem quasi2_oracle {t₀ : ℝ} :
    QuasiOracle (fun t => t ≤ t₀) room2 (fun z t => quasiFeasible (z 0) (z 1) ∧ t = -quasiValue (z 0) (z 1) ∧ 0 < z 0)
      (fun _ : Unit => True) (pureOracle quasi2) := by
  intro x t w _ ht
  unfold pureOracle quasi2
  simp only
  split_ifs with h1 h2 h3 h4
  · refine ⟨w, _, _, _, rfl, trivial, h1.le, by simp, ?_⟩
    rintro z δ - ⟨hz, -⟩
    have := exp_tangent (x 0) (z 0)
    rw [dot2]
    simp
    linarith
  · exact absurd (Real.exp_pos (x 0)) (by linarith)
  · refine ⟨w, _, _, _, rfl, trivial, by linarith, by simp, ?_⟩
    rintro z δ - ⟨-, hz, -⟩
    rw [dot2]
    simp
    linarith
  all_goals
    have hx : 0 < x 0 := not_le.1 h3
    have hy : 0 < x 1 := not_le.1 h2
    have hs : 0 < √(x 0) := Real.sqrt_pos.2 hx
    -- the tangent of the square root
    have htan : ∀ z : ℝ, 0 ≤ z → √z ≤ √(x 0) + 0.5 / √(x 0) * (z - x 0) := by
      intro z hz
      have e : √(x 0) + 0.5 / √(x 0) * (z - x 0) = (√(x 0) ^ 2 + √z ^ 2) / (2 * √(x 0)) := by
        rw [Real.sq_sqrt hx.le, Real.sq_sqrt hz]
        have : x 0 = √(x 0) ^ 2 := (Real.sq_sqrt hx.le).symm
        field_simp
        rw [← this]; ring
      rw [e, le_div_iff₀ (by positivity)]
      nlinarith [sq_nonneg (√z - √(x 0))]
  · have hlt : -√(x 0) / x 1 < t := by rw [div_lt_iff₀ hy]; linarith
    refine ⟨w, _, _, _, rfl, trivial, le_rfl, ?_, ?_⟩
    · rintro s hs'
      obtain rfl := Option.some.inj hs'
      refine ⟨by linarith, ⟨⟨by linarith, hx.le⟩, by unfold quasiValue; ring, hx⟩, ?_⟩
      rintro z δ hδ ⟨hz1, hz2, hz3⟩
      refine ⟨hz1, hz2, le_trans ?_ hz3⟩
      nlinarith [Real.exp_pos (z 0)]
    · rintro z δ hδ ⟨-, hz2, hz⟩
      have h5 := htan (z 0) (hδ.trans hz2)
      simp only [Option.getD_some] at hz
      have h6 : -√(x 0) / x 1 * x 1 = -√(x 0) := by field_simp
      rw [dot2]
      have e : (![-0.5 / √(x 0), -(-√(x 0) / x 1)] : Fin 2 → ℝ) 0 * (z - x) 0 +
          (![-0.5 / √(x 0), -(-√(x 0) / x 1)] : Fin 2 → ℝ) 1 * (z - x) 1 =
          -(0.5 / √(x 0) * (z 0 - x 0)) - -√(x 0) / x 1 * (z 1 - x 1) := by simp; ring
      rw [e]
      nlinarith
  · refine ⟨w, _, _, _, rfl, trivial, not_lt.1 h4, by simp, ?_⟩
    rintro z δ hδ ⟨-, hz2, hz⟩
    have h5 := htan (z 0) (hδ.trans hz2)
    simp only [Option.getD_none] at hz
    rw [dot2]
    have e : (![-0.5 / √(x 0), -t] : Fin 2 → ℝ) 0 * (z - x) 0 + (![-0.5 / √(x 0), -t] : Fin 2 → ℝ) 1 * (z - x) 1 =
        -(0.5 / √(x 0) * (z 0 - x 0)) - t * (z 1 - x 1) := by simp; ring
    rw [e]
    nlinarith


theorem sqrt_half : √(1 / 2) ^ 2 = 1 / 2 ∧ 0.7 < √(1 / 2) ∧ √(1 / 2) < 0.71 := by
  refine ⟨Real.sq_sqrt (by norm_num), ?_, ?_⟩
  · rw [Real.lt_sqrt (by norm_num)]; norm_num
  · rw [Real.sqrt_lt' (by norm_num)]; norm_num

theorem quasiOpt_num : 0.4288 < quasiOpt ∧ quasiOpt < 0.4289 := by
  have h1 : quasiOpt ^ 2 = 1 / (2 * Real.exp 1) := by
    unfold quasiOpt
    rw [mul_pow, Real.sq_sqrt (by norm_num), ← Real.exp_nat_mul]
    have e : ((2 : ℕ) : ℝ) * (-(1 / 2)) = -1 := by push_cast; ring
    rw [e, Real.exp_neg]
    field_simp
  have h0 : 0 < quasiOpt := by unfold quasiOpt; positivity
  have l1 := Real.exp_one_gt_d9
  have l2 := Real.exp_one_lt_d9
  have h2 : quasiOpt ^ 2 * (2 * Real.exp 1) = 1 := by rw [h1]; field_simp
  constructor
  · by_contra hc
    have : quasiOpt ^ 2 ≤ 0.4288 ^ 2 := pow_le_pow_left₀ h0.le (not_lt.1 hc) 2
    nlinarith
  · by_contra hc
    have : 0.4289 ^ 2 ≤ quasiOpt ^ 2 := pow_le_pow_left₀ (by norm_num) (not_lt.1 hc) 2
    nlinarith

theorem exp_half_num : 1.64 < Real.exp (1 / 2) ∧ Real.exp (1 / 2) < 1.65 := by
  have l1 := Real.exp_one_gt_d9
  have l2 := Real.exp_one_lt_d9
  have h1 : Real.exp (1 / 2) ^ 2 = Real.exp 1 := by rw [← Real.exp_nat_mul]; congr 1; norm_num
  have h0 := Real.exp_pos (1 / 2)
  constructor
  · by_contra hc
    have : Real.exp (1 / 2) ^ 2 ≤ 1.64 ^ 2 := pow_le_pow_left₀ h0.le (not_lt.1 hc) 2
    rw [h1] at this
    norm_num at this l1
    linarith
  · by_contra hc
    have : 1.65 ^ 2 ≤ Real.exp (1 / 2) ^ 2 := pow_le_pow_left₀ (by norm_num) (not_lt.1 hc) 2
    rw [h1] at this
    norm_num at this l2
    linarith

/-- In a small ball both coordinates are close. -/
theorem ball2 {a z : Fin 2 → ℝ} {r : ℝ} (hr : 0 ≤ r) (h : z ∈ euclBall a r) :
    |z 0 - a 0| ≤ r ∧ |z 1 - a 1| ≤ r := by
  change ∑ i, (z i - a i) ^ 2 ≤ r ^ 2 at h
  rw [Fin.sum_univ_two] at h
  exact ⟨abs_le_of_sq_le_sq (by nlinarith [sq_nonneg (z 1 - a 1)]) hr,
    abs_le_of_sq_le_sq (by nlinarith [sq_nonneg (z 0 - a 0)]) hr⟩

/-- Around a point slightly inside the optimum there is room at all levels up to `opt - 4r`. -/
theorem room1_ball {r t : ℝ} (h0 : 0 < r) (h1 : r ≤ 1 / 10) (ht : t ≤ quasiOpt - 4 * r) :
    ∀ z ∈ euclBall ![√(1 / 2), 1 / 2 + 4 * r] r, room1 t z r := by
  intro z hz
  obtain ⟨e0, e1⟩ := ball2 h0.le hz
  simp only [cons_val_zero, cons_val_one] at e0 e1
  obtain ⟨hs, hs1, hs2⟩ := sqrt_half
  set s := √(1 / 2) with hsdef
  rw [abs_le] at e0 e1
  refine ⟨?_, ?_⟩
  · have : z 0 ^ 2 ≤ (s + r) ^ 2 := pow_le_pow_left₀ (by linarith) (by linarith) 2
    nlinarith
  · rcases le_or_gt t 0 with h | h
    · nlinarith [Real.exp_pos (z 1)]
    · have he : Real.exp (z 1) ≤ Real.exp (1 / 2 + 5 * r) := Real.exp_le_exp.2 (by linarith)
      have he2 : Real.exp (1 / 2 + 5 * r) * (1 - 5 * r) ≤ Real.exp (1 / 2) := by
        have := Real.add_one_le_exp (-(5 * r))
        calc Real.exp (1 / 2 + 5 * r) * (1 - 5 * r) ≤ Real.exp (1 / 2 + 5 * r) * Real.exp (-(5 * r)) := by
              apply mul_le_mul_of_nonneg_left (by linarith) (Real.exp_pos _).le
          _ = Real.exp (1 / 2) := by rw [← Real.exp_add]; congr 1; ring
      have hopt : quasiOpt * Real.exp (1 / 2) = s := by
        unfold quasiOpt
        rw [mul_assoc, ← Real.exp_add]; simp [hsdef]
      obtain ⟨x1, x2⟩ := exp_half_num
      have hr5 : 0 < 1 - 5 * r := by linarith
      -- `t·exp(1/2+5r)·(1-5r) ≤ s - 4r·exp(1/2)`
      have k1 : t * Real.exp (z 1) * (1 - 5 * r) ≤ s - 4 * r * Real.exp (1 / 2) := by
        calc t * Real.exp (z 1) * (1 - 5 * r) ≤ t * (Real.exp (1 / 2 + 5 * r) * (1 - 5 * r)) := by
              rw [mul_assoc]
              apply mul_le_mul_of_nonneg_left _ h.le
              exact mul_le_mul_of_nonneg_right he hr5.le
          _ ≤ t * Real.exp (1 / 2) := mul_le_mul_of_nonneg_left he2 h.le
          _ ≤ (quasiOpt - 4 * r) * Real.exp (1 / 2) := mul_le_mul_of_nonneg_right ht (by linarith)
          _ = s - 4 * r * Real.exp (1 / 2) := by rw [sub_mul, hopt]
      have k2 : s - 4 * r * Real.exp (1 / 2) ≤ (s - 2 * r) * (1 - 5 * r) := by nlinarith
      have k3 := le_of_mul_le_mul_right (k1.trans k2) hr5
      linarith

theorem room2_ball {r t : ℝ} (h0 : 0 < r) (h1 : r ≤ 1 / 10) (ht : -quasiOpt + 4 * r ≤ t) :
    ∀ z ∈ euclBall ![1 / 2, Real.exp (1 / 2) + 4 * r] r, room2 t z r := by
  intro z hz
  obtain ⟨e0, e1⟩ := ball2 h0.le hz
  simp only [cons_val_zero, cons_val_one] at e0 e1
  obtain ⟨hs, hs1, hs2⟩ := sqrt_half
  obtain ⟨o1, o2⟩ := quasiOpt_num
  obtain ⟨x1, x2⟩ := exp_half_num
  have hopt : quasiOpt * Real.exp (1 / 2) = √(1 / 2) := by
    unfold quasiOpt
    rw [mul_assoc, ← Real.exp_add]; simp
  set s := √(1 / 2) with hsdef
  set e := Real.exp (1 / 2)
  rw [abs_le] at e0 e1
  refine ⟨?_, by linarith, ?_⟩
  · have he : Real.exp (z 0) ≤ Real.exp (1 / 2 + r) := Real.exp_le_exp.2 (by linarith)
    have he2 : Real.exp (1 / 2 + r) * (1 - r) ≤ e := by
      have := Real.add_one_le_exp (-r)
      calc Real.exp (1 / 2 + r) * (1 - r) ≤ Real.exp (1 / 2 + r) * Real.exp (-r) := by
            apply mul_le_mul_of_nonneg_left (by linarith) (Real.exp_pos _).le
        _ = e := by rw [← Real.exp_add]; congr 1; ring
    have he3 : e ≤ (e + 2 * r) * (1 - r) := by nlinarith
    have := le_of_mul_le_mul_right (he2.trans he3) (by linarith)
    linarith
  · have k1 : s * (1 - 2 * r) ≤ √(z 0) := by
      apply Real.le_sqrt_of_sq_le
      rw [mul_pow, hs]
      nlinarith
    have k2 : -t * z 1 ≤ (quasiOpt - 4 * r) * (e + 5 * r) := by
      have : 0 ≤ quasiOpt - 4 * r := by linarith
      calc -t * z 1 ≤ (quasiOpt - 4 * r) * z 1 := mul_le_mul_of_nonneg_right (by linarith) (by linarith)
        _ ≤ _ := mul_le_mul_of_nonneg_left (by linarith) this
    nlinarith

/-- **C98**, `test_quasicvx.py`.  Any run started at a level `t₀ ≥ 0` that returns: either nothing was found and the level is
`t₀`, or the level is the value `√x/y` at the feasible point `(x, y) = (sqrtx², exp(ly))` of the returned `(sqrtx, ly)`, hence at most
the optimum; `feasible` tells the two apart.  Started above the optimum it reports infeasible (`test_case_infeasible2`). -/
theorem C98_quasi1_sound {E₀ E : Ell 2} (hE : E₀.WF) {o : Options ℝ} {t0 t : ℝ} (ht0 : 0 ≤ t0) {xb : Option (Fin 2 → ℝ)}
    {info : CInfo} (hr : cuttingPlaneDc (fun x t => liftOracle (pureOracle quasi1 x t)) (Ell.space Unit 2) t0 o ((), E₀) =
      .ok (((), E), xb, t, info)) :
    ((xb = none ∧ t = t0) ∨ ∃ z, xb = some z ∧ quasiFeasible (z 0 ^ 2) (Real.exp (z 1)) ∧
      t = quasiValue (z 0 ^ 2) (Real.exp (z 1)) ∧ t0 ≤ t ∧ t ≤ quasiOpt) ∧
    (info.feasible = true ↔ t ≠ t0) ∧ (quasiOpt ≤ t0 → info.feasible = false) := by
  obtain ⟨h1, -⟩ := C98_quasi_verdict (quasi1_oracle ht0) hE le_rfl trivial hr
  have hf : info.feasible = true ↔ t ≠ t0 := by
    obtain ⟨s, i, -, -, -, rfl, rfl⟩ := dc_ok hr
    simp
  have h2 : (xb = none ∧ t = t0) ∨ ∃ z, xb = some z ∧ quasiFeasible (z 0 ^ 2) (Real.exp (z 1)) ∧
      t = quasiValue (z 0 ^ 2) (Real.exp (z 1)) ∧ t0 ≤ t ∧ t ≤ quasiOpt := by
    refine h1.imp_right ?_
    rintro ⟨z, a1, a2, a3, a4, -⟩
    exact ⟨z, a1, a3, a4, a2, a4 ▸ C98_opt.1 _ _ a3⟩
  refine ⟨h2, hf, fun h => ?_⟩
  by_contra hc
  rw [Bool.not_eq_false, hf] at hc
  rcases h2 with ⟨-, h3⟩ | ⟨z, -, -, -, h3, h4⟩
  · exact hc h3
  · exact hc (le_antisymm (h4.trans h) h3)

/-- **C98**, `test_quasicvx2.py`, likewise, from any start level. -/
theorem C98_quasi2_sound {E₀ E : Ell 2} (hE : E₀.WF) {o : Options ℝ} {t0 t : ℝ} {xb : Option (Fin 2 → ℝ)}
    {info : CInfo} (hr : cuttingPlaneDc (fun x t => liftOracle (pureOracle quasi2 x t)) (Ell.space Unit 2) t0 o ((), E₀) =
      .ok (((), E), xb, t, info)) :
    ((xb = none ∧ t = t0) ∨ ∃ z, xb = some z ∧ quasiFeasible (z 0) (z 1) ∧
      t = -quasiValue (z 0) (z 1) ∧ t ≤ t0 ∧ -quasiOpt ≤ t) ∧
    (info.feasible = true ↔ t ≠ t0) ∧ (t0 ≤ -quasiOpt → info.feasible = false) := by
  obtain ⟨h1, -⟩ := C98_quasi_verdict (quasi2_oracle (t₀ := t0)) hE le_rfl trivial hr
  have hf : info.feasible = true ↔ t ≠ t0 := by
    obtain ⟨s, i, -, -, -, rfl, rfl⟩ := dc_ok hr
    simp
  have h2 : (xb = none ∧ t = t0) ∨ ∃ z, xb = some z ∧ quasiFeasible (z 0) (z 1) ∧
      t = -quasiValue (z 0) (z 1) ∧ t ≤ t0 ∧ -quasiOpt ≤ t := by
    refine h1.imp_right ?_
    rintro ⟨z, a1, a2, a3, a4, -⟩
    exact ⟨z, a1, a3, a4, a2, by rw [a4]; exact neg_le_neg (C98_opt.1 _ _ a3)⟩
  refine ⟨h2, hf, fun h => ?_⟩
  by_contra hc
  rw [Bool.not_eq_false, hf] at hc
  rcases h2 with ⟨-, h3⟩ | ⟨z, -, -, -, h3, h4⟩
  · exact hc h3
  · exact hc (le_antisymm h3 (h.trans h4))

/-- **C98**, accuracy of `test_quasicvx.py`: with `tol ≤ r²` and `max_it > 12·ln(R/r)` every run that returns has
`t > opt - 4r`. -/
theorem C98_quasi1_accuracy {E₀ : Ell 2} {x₀ : Fin 2 → ℝ} {R r : ℝ} (h0 : 0 < r) (h1 : r ≤ 1 / 10)
    (hinit : Ell.init (.scalar (R ^ 2)) x₀ = .ok E₀) (hball : euclBall ![√(1 / 2), 1 / 2 + 4 * r] r ⊆ euclBall x₀ R)
    {o : Options ℝ} (htol : o.tol ≤ r ^ 2) (hmax : 12 * Real.log (R / r) < o.maxIt) {t0 : ℝ} (ht0 : 0 ≤ t0)
    {E : Ell 2} {xb : Option (Fin 2 → ℝ)} {t : ℝ} {info : CInfo}
    (hr : cuttingPlaneDc (fun x t => liftOracle (pureOracle quasi1 x t)) (Ell.space Unit 2) t0 o ((), E₀) =
      .ok (((), E), xb, t, info)) : quasiOpt - 4 * r < t := by
  have key := (C98_quasi_complexity le_rfl (quasi1_oracle ht0) h0 h0 hinit hball htol
    (by push_cast; linarith) (w₀ := ()) trivial t0 le_rfl).1 _ _ _ _ _ hr
  by_contra hc
  exact key (room1_ball h0 h1 (not_lt.1 hc))

/-- **C98**, accuracy of `test_quasicvx2.py`. -/
theorem C98_quasi2_accuracy {E₀ : Ell 2} {x₀ : Fin 2 → ℝ} {R r : ℝ} (h0 : 0 < r) (h1 : r ≤ 1 / 10)
    (hinit : Ell.init (.scalar (R ^ 2)) x₀ = .ok E₀) (hball : euclBall ![1 / 2, Real.exp (1 / 2) + 4 * r] r ⊆ euclBall x₀ R)
    {o : Options ℝ} (htol : o.tol ≤ r ^ 2) (hmax : 12 * Real.log (R / r) < o.maxIt) {t0 : ℝ}
    {E : Ell 2} {xb : Option (Fin 2 → ℝ)} {t : ℝ} {info : CInfo}
    (hr : cuttingPlaneDc (fun x t => liftOracle (pureOracle quasi2 x t)) (Ell.space Unit 2) t0 o ((), E₀) =
      .ok (((), E), xb, t, info)) : t < -quasiOpt + 4 * r := by
  have key := (C98_quasi_complexity le_rfl (quasi2_oracle (t₀ := t0)) h0 h0 hinit hball htol
    (by push_cast; linarith) (w₀ := ()) trivial t0 le_rfl).1 _ _ _ _ _ hr
  by_contra hc
  exact key (room2_ball h0 h1 (not_lt.1 hc))

theorem log_test : 12 * Real.log (√10 / 0.0001) < ((2000 : ℤ) : ℝ) := by
  have h10 : √10 < 3.2 := by rw [Real.sqrt_lt' (by norm_num)]; norm_num
  have h1 : Real.log (√10 / 0.0001) ≤ Real.log (2 ^ 15) := by
    apply Real.log_le_log (by positivity)
    rw [div_le_iff₀ (by norm_num)]
    linarith
  rw [Real.log_pow] at h1
  have := Real.log_two_lt_d9
  push_cast at h1 ⊢
  linarith

theorem ball_sub {a c : Fin 2 → ℝ} {r R : ℝ} (hr : 0 ≤ r) (h0 : |a 0 - c 0| + r ≤ 1) (h1 : |a 1 - c 1| + r ≤ 1) (hR : 2 ≤ R ^ 2) :
    euclBall a r ⊆ euclBall c R := by
  intro z hz
  obtain ⟨e0, e1⟩ := ball2 hr hz
  change ∑ i, (z i - c i) ^ 2 ≤ R ^ 2
  rw [Fin.sum_univ_two]
  have a0 : |z 0 - c 0| ≤ 1 := by
    calc |z 0 - c 0| = |(z 0 - a 0) + (a 0 - c 0)| := by congr 1; ring
      _ ≤ |z 0 - a 0| + |a 0 - c 0| := abs_add_le _ _
      _ ≤ 1 := by linarith
  have a1 : |z 1 - c 1| ≤ 1 := by
    calc |z 1 - c 1| = |(z 1 - a 1) + (a 1 - c 1)| := by congr 1; ring
      _ ≤ |z 1 - a 1| + |a 1 - c 1| := abs_add_le _ _
      _ ≤ 1 := by linarith
  have b0 := sq_le_one_iff_abs_le_one (z 0 - c 0) |>.2 a0
  have b1 := sq_le_one_iff_abs_le_one (z 1 - c 1) |>.2 a1
  linarith

/-- **C98**, `test_quasicvx.py:test_case_feasible` in exact arithmetic: `ell(10, (0,0))`, start level 0, default options.  If the
run returns, it is feasible and `0.4284 < t < 0.4289`, within `0.0004` of the optimum. -/
theorem C98_test_quasicvx {E₀ : Ell 2} (hinit : Ell.init (.scalar 10) ![0, 0] = .ok E₀)
    {E : Ell 2} {xb : Option (Fin 2 → ℝ)} {t : ℝ} {info : CInfo}
    (hr : cuttingPlaneDc (fun x t => liftOracle (pureOracle quasi1 x t)) (Ell.space Unit 2) 0 ⟨2000, 1e-8⟩ ((), E₀) =
      .ok (((), E), xb, t, info)) :
    info.feasible = true ∧ quasiOpt - 0.0004 < t ∧ t ≤ quasiOpt ∧ 0.4284 < t ∧ t < 0.4289 := by
  have e10 : (10 : ℝ) = √10 ^ 2 := (Real.sq_sqrt (by norm_num)).symm
  rw [e10] at hinit
  obtain ⟨hs, hs1, hs2⟩ := sqrt_half
  obtain ⟨o1, o2⟩ := quasiOpt_num
  have h1 := C98_quasi1_accuracy (r := 0.0001) (by norm_num) (by norm_num) hinit
    (ball_sub (by norm_num) (by simp only [cons_val_zero]; rw [abs_of_pos (by linarith)]; linarith)
      (by simp only [cons_val_one]; rw [abs_of_pos] <;> norm_num) (by rw [← e10]; norm_num)) (by norm_num) log_test le_rfl hr
  obtain ⟨h2, h3, -⟩ := C98_quasi1_sound (init_bound (r := 1) le_rfl hinit).1 le_rfl hr
  have hne : t ≠ 0 := by intro h; norm_num at h1; linarith
  have hle : t ≤ quasiOpt := by
    rcases h2 with ⟨-, h⟩ | ⟨z, -, -, -, -, h⟩
    · exact absurd h hne
    · exact h
  norm_num at h1 ⊢
  exact ⟨h3.2 hne, by linarith, hle, by linarith, by linarith⟩

/-- **C98**, `test_quasicvx2.py:test_case_feasible`: `ell(10, (1,1))`, start level 0, default options. -/
theorem C98_test_quasicvx2 {E₀ : Ell 2} (hinit : Ell.init (.scalar 10) ![1, 1] = .ok E₀)
    {E : Ell 2} {xb : Option (Fin 2 → ℝ)} {t : ℝ} {info : CInfo}
    (hr : cuttingPlaneDc (fun x t => liftOracle (pureOracle quasi2 x t)) (Ell.space Unit 2) 0 ⟨2000, 1e-8⟩ ((), E₀) =
      .ok (((), E), xb, t, info)) :
    info.feasible = true ∧ t < -quasiOpt + 0.0004 ∧ -quasiOpt ≤ t ∧ -0.4289 < t ∧ t < -0.4284 := by
  have e10 : (10 : ℝ) = √10 ^ 2 := (Real.sq_sqrt (by norm_num)).symm
  rw [e10] at hinit
  obtain ⟨o1, o2⟩ := quasiOpt_num
  obtain ⟨x1, x2⟩ := exp_half_num
  have h1 := C98_quasi2_accuracy (r := 0.0001) (by norm_num) (by norm_num) hinit
    (ball_sub (by norm_num) (by simp only [cons_val_zero]; rw [abs_of_neg] <;> norm_num)
      (by
        have e : (![1 / 2, Real.exp (1 / 2) + 4 * 0.0001] : Fin 2 → ℝ) 1 - (![1, 1] : Fin 2 → ℝ) 1 =
          Real.exp (1 / 2) + 4 * 0.0001 - 1 := by simp
        rw [e, abs_of_pos] <;> linarith) (by rw [← e10]; norm_num)) (by norm_num) log_test hr
  obtain ⟨h2, h3, -⟩ := C98_quasi2_sound (init_bound (r := 1) le_rfl hinit).1 hr
  have hne : t ≠ 0 := by intro h; norm_num at h1; linarith
  have hle : -quasiOpt ≤ t := by
    rcases h2 with ⟨-, h⟩ | ⟨z, -, -, -, -, h⟩
    · exact absurd h hne
    · exact h
  norm_num at h1 ⊢
  exact ⟨h3.2 hne, by linarith, hle, by linarith, by linarith⟩

/-- **C98**, the start level matters for `test_quasicvx.py`: from a negative level the oracle may cut off feasible points that
are better than that level (here a point of positive value against the level `-0.01`). -/
theorem C98_quasi1_negative_level : ∃ x z : Fin 2 → ℝ, ∃ g : Fin 2 → ℝ, ∃ β : ℝ, quasi1 x (-0.01) = ((g, .scalar β), none) ∧
    z 0 ^ 2 ≤ z 1 ∧ 0 < z 0 / Real.exp (z 1) ∧ 0 < g ⬝ᵥ (z - x) + β := by
  refine ⟨![-2, 4], ![1 / 10, 1 / 50], ![-1, -0.01 * Real.exp 4], 2 - 0.01 * Real.exp 4, ?_, ?_, ?_, ?_⟩
  · have h4 : Real.exp 4 < 100 := by
      have l2 := Real.exp_one_lt_d9
      have : Real.exp 4 = Real.exp 1 ^ 4 := by rw [← Real.exp_nat_mul]; norm_num
      rw [this]
      calc Real.exp 1 ^ 4 ≤ 2.72 ^ 4 := pow_le_pow_left₀ (Real.exp_pos _).le (by linarith) 4
        _ < 100 := by norm_num
    unfold quasi1
    simp only [cons_val_zero, cons_val_one]
    norm_num
    rw [if_neg (by linarith)]
    norm_num; ring
  · simp; norm_num
  · simp; positivity
  · have h4 := Real.add_one_le_exp 4
    rw [dot2]
    simp
    norm_num
    nlinarith

theorem quasi1_answers : Answers (fun _ => True) (pureOracle quasi1) := by
  intro x t w _
  simp only [pureOracle, quasi1]
  split_ifs with h1 h2
  · exact ⟨w, _, _, _, rfl, trivial, h1.le, fun h => by simpa using congrFun h 1⟩
  · exact ⟨w, _, _, _, rfl, trivial, le_rfl, fun h => by simpa using congrFun h 0⟩
  · exact ⟨w, _, _, _, rfl, trivial, not_lt.1 h2, fun h => by simpa using congrFun h 0⟩

theorem quasi2_answers : Answers (fun _ => True) (pureOracle quasi2) := by
  intro x t w _
  simp only [pureOracle, quasi2]
  split_ifs with h1 h2 h3 h4
  · exact ⟨w, _, _, _, rfl, trivial, h1.le, fun h => by simpa using congrFun h 1⟩
  · exact ⟨w, _, _, _, rfl, trivial, by linarith, fun h => by simpa using congrFun h 1⟩
  · exact ⟨w, _, _, _, rfl, trivial, by linarith, fun h => by simpa using congrFun h 0⟩
  all_goals
    have h5 : √(x 0) ≠ 0 := (Real.sqrt_pos.2 (not_le.1 h3)).ne'
  · refine ⟨w, _, _, _, rfl, trivial, le_rfl, fun h => ?_⟩
    have := congrFun h 0
    simp [h5] at this
    norm_num at this
  · refine ⟨w, _, _, _, rfl, trivial, not_lt.1 h4, fun h => ?_⟩
    have := congrFun h 0
    simp [h5] at this
    norm_num at this

/-- **C99** the runs of `test_quasicvx.py` and `test_quasicvx2.py` return or divide by zero. -/
theorem C99_quasi_total {E₀ : Ell 2} (hE : E₀.Proper) {o : Options ℝ} (hmax : 1 ≤ o.maxIt) (htol : 0 < o.tol) (t0 : ℝ)
    {f : (Fin 2 → ℝ) → ℝ → ((Fin 2 → ℝ) × Beta) × Option ℝ} (hf : f = quasi1 ∨ f = quasi2) {e : PyErr}
    (he : cuttingPlaneDc (fun x t => liftOracle (pureOracle f x t)) (Ell.space Unit 2) t0 o ((), E₀) = .error e) :
    e = .zeroDivision := by
  have h : Answers (fun _ => True) (pureOracle f) := by rcases hf with rfl | rfl <;> [exact quasi1_answers; exact quasi2_answers]
  rcases C99_dc_total h hE hmax htol (w₀ := ()) trivial t0 with ⟨r, hr⟩ | ⟨hr, -⟩
  · rw [hr] at he; simp at he
  · rw [hr] at he; simpa using he.symm

end Verif
