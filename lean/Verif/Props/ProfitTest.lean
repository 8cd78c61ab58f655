import Mathlib.Analysis.Complex.ExponentialBounds
import Verif.Spec.ProfitRoom
import Verif.Props.Profit
import Verif.Props.Solve
import Verif.Props.Quasi

/-! # C104: runs of the profit oracles -/
namespace Verif
open Matrix Ell

/-! ### Starting from an array -/

/-- `ell([R², …, R²], x)` covers the same ball, with the same volume, as `ell(R², x)`. -/
theorem Ell.init_diag_bound {n : ℕ} (hn : 2 ≤ n) {x₀ : Fin n → ℝ} {R : ℝ} (hR : 0 < R) {E₀ : Ell n}
    (hinit : Ell.init (.diag fun _ => R ^ 2) x₀ = .ok E₀) : E₀.WF ∧ E₀.pts = euclBall x₀ R ∧ E₀.vsq = (R ^ 2) ^ n := by
  have hR2 : 0 < R ^ 2 := by positivity
  obtain ⟨h1, -, h3⟩ := C24_ell_init_diag hn (fun _ => hR2) hinit
  refine ⟨h1.wf, ?_, ?_⟩
  · rw [h3]
    ext z
    simp only [euclBall, Set.mem_ofPred_eq, ← Finset.sum_div]
    rw [div_le_one hR2]
  · unfold Ell.init at hinit
    split at hinit
    · simp at hinit
    simp only [Except.ok.injEq] at hinit
    subst hinit
    simp [Ell.vsq, Matrix.det_diagonal]

/-- **C104** (general start).  C98's complexity from any ellipsoid: if a ball of radius `r` inside the ellipsoid has room `δ > 0`,
`tol ≤ δ²`, at every level satisfying `Goal`, and `max_it > (n+1)·ln(vol²/r^{2n})`, no run that returns ends at such a level. -/
theorem C104_quasi_beats {n : ℕ} {W T : Type _} [DecidableEq T] {Lvl : T → Prop} {Room : T → (Fin n → ℝ) → ℝ → Prop}
    {Hit : (Fin n → ℝ) → T → Prop}
    {Inv : W → Prop} {Ω : (Fin n → ℝ) → T → W → Except PyErr (W × ((Fin n → ℝ) × Beta) × Option T)}
    (hΩ : QuasiOracle Lvl Room Hit Inv Ω) {E₀ : Ell n} (hE : E₀.WF) {a : Fin n → ℝ} {r δ : ℝ} (hr : 0 < r) (hδ : 0 < δ)
    (hball : euclBall a r ⊆ E₀.pts) {o : Options ℝ} (htol : o.tol ≤ δ ^ 2)
    (hmax : ((n : ℝ) + 1) * Real.log (E₀.vsq / (r ^ 2) ^ n) < o.maxIt)
    {w₀ : W} (hw₀ : Inv w₀) {t0 : T} (ht0 : Lvl t0) {w : W} {E : Ell n} {xb : Option (Fin n → ℝ)} {t : T} {info : CInfo}
    (hrun : cuttingPlaneDc (fun x t => liftOracle (Ω x t)) (Ell.space W n) t0 o (w₀, E₀) = .ok ((w, E), xb, t, info)) :
    ¬ ∀ z ∈ euclBall a r, Room t z δ := by
  have ha : a ∈ euclBall a r := by
    change ∑ i, (a i - a i) ^ 2 ≤ r ^ 2; simp; positivity
  have key := C72_dc_ell_converges (Ω := Ω) (fun w t => Inv w ∧ Lvl t) (fun t => ∀ z ∈ euclBall a r, Room t z δ) hE hr
    hball (o := o) (fun x t w hi => by
      obtain ⟨w', g, β, t1, e1, e2, e3, e4, e5⟩ := hΩ x t w hi.1 hi.2
      have hle : Lvl (t1.getD t) ∧ ∀ z δ, 0 ≤ δ → Room (t1.getD t) z δ → Room t z δ := by
        cases t1 with
        | none => exact ⟨hi.2, fun _ _ _ h => h⟩
        | some s => exact ⟨(e4 s rfl).1, (e4 s rfl).2.2⟩
      refine ⟨w', _, t1, e1, ⟨e2, hle.1⟩, fun hg z hz => hle.2 z δ hδ.le (hg z hz), fun hg => ?_⟩
      have hz : ∀ z ∈ euclBall a r, g ⬝ᵥ (z - x) + β ≤ -δ := fun z hz => e5 z δ hδ.le (hg z hz)
      refine ⟨fun z hz' => ?_, e3, ?_, a, ha, ?_⟩
      · change g ⬝ᵥ (z - x) + β ≤ 0
        linarith [hz z hz']
      · intro h0
        have h0' : g = 0 := h0
        have := hz a ha
        rw [h0', zero_dotProduct] at this
        linarith
      · have := hz a ha
        change o.tol ≤ (g ⬝ᵥ (a - x)) ^ 2
        nlinarith) hmax (w₀ := w₀) (t0 := t0) ⟨hw₀, ht0⟩
  exact key.1 w E xb t info hrun

/-! ### Both oracles meet the contract -/

section
variable {p A k : ℝ} {a v : Fin 2 → ℝ} {e : Unc}

/-- `profit_rb_oracle` as the `Omega` of `cutting_plane_dc`. -/
noncomputable def rbOmega (y : Fin 2 → ℝ) (t : ℝ) (o : ProfitRb) :
    Except PyErr (ProfitRb × ((Fin 2 → ℝ) × Beta) × Option ℝ) :=
  (ProfitRb.call y t o).map fun r => (r.1, scalarCut r.2.1, r.2.2)

theorem profitRoom_mono {s t : ℝ} (h : t ≤ s) {z : Fin 2 → ℝ} {δ : ℝ} (hz : ProfitRoom e p A k a v s z δ) :
    ProfitRoom e p A k a v t z δ :=
  ⟨hz.1, fun p' a' v' h' => (mul_le_mul_of_nonneg_right (by linarith) (Real.exp_pos δ).le).trans (hz.2 p' a' v' h')⟩

/-- The corner of the uncertainty set used at `y` is within the uncertainty. -/
theorem corner_within (h1 : 0 ≤ e.e1) (h2 : 0 ≤ e.e2) (h3 : 0 ≤ e.e3) (h5 : 0 ≤ e.e5) {o : ProfitRb} (ho1 : o.a = a)
    (ho2 : o.e = ![e.e1, e.e2]) (y : Fin 2 → ℝ) : e.Within p a v (p - e.e3) (o.aRb y) (fun i => v i + e.e5) := by
  refine ⟨?_, ?_, ?_, fun i => ?_⟩
  · simp only [ProfitRb.aRb, ho1, ho2, add_sub_cancel_left]
    split <;> simp [abs_of_nonneg h1]
  · simp only [ProfitRb.aRb, ho1, ho2, add_sub_cancel_left]
    split <;> simp [abs_of_nonneg h2]
  · rw [show p - e.e3 - p = -e.e3 by ring, abs_neg, abs_of_nonneg h3]
  · rw [add_sub_cancel_left, abs_of_nonneg h5]

/-- **C104** the robust oracle, in whatever state, answers every query with a nonnegative level; a reported value is the largest
guaranteed profit at the query point; the cut has room at every point with room at the new level. -/
theorem C104_rb_oracle (hA : 0 < A) (h1 : 0 ≤ e.e1) (h2 : 0 ≤ e.e2) (h3 : 0 ≤ e.e3) (h3' : e.e3 < p)
    (h4 : 0 ≤ e.e4) (h4' : e.e4 < k) (h5 : 0 ≤ e.e5) (hv : ∀ i, 0 < v i) :
    QuasiOracle (fun t => 0 ≤ t) (ProfitRoom e p A k a v) (ProfitHit e p A k a v)
      (RbReach (ProfitRb.init p A k a v e.e1 e.e2 e.e3 e.e4 e.e5)) rbOmega := by
  intro y t o ho ht
  obtain ⟨o', cut, t1, c1, c2, c3, c4, -⟩ := C46_profit_rb (v := v) hA h1 h2 h3 h3' h4 h4' h5 hv ho y ht
  have hcut : ∀ z δ, 0 ≤ δ → ProfitRoom e p A k a v (t1.getD t) z δ → cut.1 ⬝ᵥ (z - y) + cut.2 ≤ -δ := by
    intro z δ hδ hz
    obtain ⟨r1, r2, b, r3⟩ := ho
    have r1 : o.a = a := r1
    have r2 : o.e = ![e.e1, e.e2] := r2
    have hv' : ∀ i, 0 < (fun i => v i + e.e5) i := fun i => by have := hv i; simp only; linarith
    obtain ⟨cut', t1', d1, -, -, -, -, d6⟩ := profit_call (k := k - e.e4) (a := o.aRb y)
      (mul_pos (by linarith : 0 < p - e.e3) hA) hv' y ht
    have hP : (⟨o.P.logPA, o.P.logK, o.P.v, o.aRb y⟩ : Profit) =
        Profit.init (p - e.e3) A (k - e.e4) (o.aRb y) (fun i => v i + e.e5) := by
      rw [r3]; rfl
    simp only [ProfitRb.call] at c1
    rw [hP, d1] at c1
    simp only [Except.ok.injEq, Prod.mk.injEq] at c1
    obtain ⟨-, rfl, rfl⟩ := c1
    refine d6 z δ ?_ (hz.2 _ _ _ (corner_within h1 h2 h3 h5 r1 r2 y))
    have := hz.1 (k - e.e4) (by rw [show k - e.e4 - k = -e.e4 by ring, abs_neg, abs_of_nonneg h4])
    rw [Real.le_log_iff_exp_le (by linarith), Real.exp_add]
    exact this
  refine ⟨o', cut.1, cut.2, t1, by simp [rbOmega, c1, Except.map, scalarCut], c2, c3, fun s hs => ?_, hcut⟩
  obtain ⟨d1, d2, d3, d4⟩ := (c4 s).1 hs
  exact ⟨ht.trans d2.le, ⟨d1, d3, d4⟩, fun z δ _ hz => profitRoom_mono d2.le hz⟩

theorem within_none {p' : ℝ} {a' v' : Fin 2 → ℝ} (h : Unc.none.Within p a v p' a' v') : p' = p ∧ a' = a ∧ v' = v := by
  obtain ⟨h1, h2, h3, h4⟩ := h
  simp only [Unc.none] at h1 h2 h3 h4
  refine ⟨by linarith [abs_nonpos_iff.1 h3], funext fun i => ?_, funext fun i => by linarith [abs_nonpos_iff.1 (h4 i)]⟩
  fin_cases i
  · exact sub_eq_zero.1 (abs_nonpos_iff.1 h1)
  · exact sub_eq_zero.1 (abs_nonpos_iff.1 h2)

theorem none_within : Unc.none.Within p a v p a v := by simp [Unc.Within, Unc.none]

theorem guaranteed_none {x : Fin 2 → ℝ} {t : ℝ} : Guaranteed Unc.none p A a v x t ↔ t ≤ profit p A a v x := by
  refine ⟨fun h => h _ _ _ none_within, fun h p' a' v' h' => ?_⟩
  obtain ⟨rfl, rfl, rfl⟩ := within_none h'
  exact h

theorem limit_none {x : ℝ} : (∀ k', |k' - k| ≤ Unc.none.e4 → x ≤ k') ↔ x ≤ k := by
  refine ⟨fun h => h k (by simp [Unc.none]), fun h k' hk => ?_⟩
  rw [sub_eq_zero.1 (abs_nonpos_iff.1 (hk : |k' - k| ≤ 0))]
  exact h

theorem hit_none {z : Fin 2 → ℝ} {s : ℝ} :
    ProfitHit Unc.none p A k a v z s ↔ qty z 0 ≤ k ∧ s = profit p A a v (qty z) := by
  simp only [ProfitHit, limit_none, guaranteed_none]
  exact ⟨fun ⟨h1, h2, h3⟩ => ⟨h1, le_antisymm h2 (h3 _ le_rfl)⟩, fun ⟨h1, h2⟩ => ⟨h1, h2.le, fun s' h => h2 ▸ h⟩⟩

/-- **C104** the plain oracle meets the same contract without uncertainty. -/
theorem C104_profit_oracle (hpA : 0 < p * A) (hk : 0 < k) (hv : ∀ i, 0 < v i) :
    QuasiOracle (fun t => 0 ≤ t) (ProfitRoom Unc.none p A k a v) (ProfitHit Unc.none p A k a v) (fun _ : Unit => True)
      (profitOmega (Profit.init p A k a v)) := by
  intro y t w _ ht
  obtain ⟨⟨g, b⟩, t1, h1, h2, h3, -, -, h6⟩ := profit_call (k := k) (a := a) hpA hv y ht
  refine ⟨(), g, b, t1, by simp [profitOmega, h1, Except.map, scalarCut], trivial, h3, fun s hs => ?_, fun z δ hδ hz => ?_⟩
  · obtain ⟨r1, r2, r3⟩ := (h2 s).1 hs
    rw [← r1] at r3
    refine ⟨ht.trans r3.le, hit_none.2 ⟨?_, r1⟩, fun z δ _ hz => profitRoom_mono r3.le hz⟩
    rw [Real.le_log_iff_exp_le hk] at r2; exact r2
  · refine h6 z δ ?_ (hz.2 _ _ _ none_within)
    rw [Real.le_log_iff_exp_le hk, Real.exp_add]
    exact hz.1 k (by simp [Unc.none])

/-! ### Accuracy -/

/-- A disc of points with room next to any competitor `z` with guaranteed profit `s`. -/
theorem profit_ball (hA : 0 < A) (h3' : e.e3 < p) (h5' : ∀ i, e.e5 ≤ v i) {b : Fin 2 → ℝ}
    (hb0 : |a 0| + e.e1 ≤ b 0) (hb1 : |a 1| + e.e2 ≤ b 1) {z : Fin 2 → ℝ} {s t r δ : ℝ} (hr : 0 ≤ r) (hδ : 0 ≤ δ)
    (hlim : ∀ k', |k' - k| ≤ e.e4 → qty z 0 ≤ k') (hs : Guaranteed e p A a v (qty z) s)
    (ht : t ≤ s * Real.exp (-(δ + b 0 * (2 * r + δ) + b 1 * r)) -
      cost (fun i => v i + e.e5) (qty z) * (Real.exp r - Real.exp (-(δ + b 0 * (2 * r + δ) + b 1 * r)))) :
    ∀ w ∈ euclBall ![z 0 - r - δ, z 1] r, ProfitRoom e p A k a v t w δ := by
  intro w hw
  obtain ⟨w0, w1⟩ := ball2 hr hw
  simp only [cons_val_zero, cons_val_one] at w0 w1
  rw [abs_le] at w0 w1
  refine ⟨fun k' hk' => ?_, fun p' a' v' h' => ?_⟩
  · refine le_trans ?_ (hlim k' hk')
    rw [qty, qty, ← Real.exp_add]
    exact Real.exp_le_exp.2 (by linarith)
  set κ := δ + b 0 * (2 * r + δ) + b 1 * r with hκ
  have hg := hs p' a' v' h'
  obtain ⟨g1, g2, g3, g4⟩ := h'
  have hp' : 0 < p' * A := mul_pos (by linarith [(abs_le.1 g3).1]) hA
  have hv0 : ∀ i, 0 ≤ v' i := fun i => by linarith [(abs_le.1 (g4 i)).1, h5' i]
  have hq : ∀ (x : Fin 2 → ℝ) i, 0 < qty x i := fun x i => Real.exp_pos _
  -- revenue
  have ha0 : |a' 0| ≤ b 0 := by
    have := abs_sub_abs_le_abs_sub (a' 0) (a 0); linarith
  have ha1 : |a' 1| ≤ b 1 := by
    have := abs_sub_abs_le_abs_sub (a' 1) (a 1); linarith
  have d0 : -(b 0 * (2 * r + δ)) ≤ a' 0 * (w 0 - z 0) := by
    have h := mul_le_mul ha0 (show |w 0 - z 0| ≤ 2 * r + δ by rw [abs_le]; constructor <;> linarith) (abs_nonneg _)
      ((abs_nonneg _).trans ha0)
    rw [← abs_mul] at h
    linarith [(abs_le.1 h).1]
  have d1 : -(b 1 * r) ≤ a' 1 * (w 1 - z 1) := by
    have h := mul_le_mul ha1 (show |w 1 - z 1| ≤ r by rw [abs_le]; constructor <;> linarith) (abs_nonneg _)
      ((abs_nonneg _).trans ha1)
    rw [← abs_mul] at h
    linarith [(abs_le.1 h).1]
  have hrev : p' * (A * qty z 0 ^ a' 0 * qty z 1 ^ a' 1) * Real.exp (-κ) * Real.exp δ ≤
      p' * (A * qty w 0 ^ a' 0 * qty w 1 ^ a' 1) := by
    rw [← cobb_eq hp', ← cobb_eq hp', ← Real.exp_add, ← Real.exp_add, dot2, dot2]
    apply Real.exp_le_exp.2
    rw [hκ]; linarith
  -- cost
  have hc0 : qty w 0 ≤ qty z 0 * Real.exp r := by
    rw [qty, qty, ← Real.exp_add]; exact Real.exp_le_exp.2 (by linarith)
  have hc1 : qty w 1 ≤ qty z 1 * Real.exp r := by
    rw [qty, qty, ← Real.exp_add]; exact Real.exp_le_exp.2 (by linarith)
  have hcost : v' 0 * qty w 0 + v' 1 * qty w 1 ≤ cost v' (qty z) * Real.exp r := by
    have k0 := mul_le_mul_of_nonneg_left hc0 (hv0 0)
    have k1 := mul_le_mul_of_nonneg_left hc1 (hv0 1)
    unfold cost; linarith
  have hcc : cost v' (qty z) ≤ cost (fun i => v i + e.e5) (qty z) := by
    have k0 := mul_le_mul_of_nonneg_right (show v' 0 ≤ v 0 + e.e5 by linarith [(abs_le.1 (g4 0)).2]) (hq z 0).le
    have k1 := mul_le_mul_of_nonneg_right (show v' 1 ≤ v 1 + e.e5 by linarith [(abs_le.1 (g4 1)).2]) (hq z 1).le
    unfold cost; linarith
  have hb0' : 0 ≤ b 0 := (abs_nonneg _).trans ha0
  have hb1' : 0 ≤ b 1 := (abs_nonneg _).trans ha1
  have hfac : 0 ≤ Real.exp r - Real.exp (-κ) := by
    have : -κ ≤ r := by rw [hκ]; nlinarith [mul_nonneg hb0' hr, mul_nonneg hb0' hδ, mul_nonneg hb1' hr]
    linarith [Real.exp_le_exp.2 this]
  have h1 := mul_le_mul_of_nonneg_right hcc hfac
  have h2 : s + cost v' (qty z) ≤ p' * (A * qty z 0 ^ a' 0 * qty z 1 ^ a' 1) := by
    unfold profit at hg; unfold cost; linarith
  have h3 := mul_le_mul_of_nonneg_right h2 (Real.exp_pos (-κ)).le
  have h4 : t + (v' 0 * qty w 0 + v' 1 * qty w 1) ≤ p' * (A * qty z 0 ^ a' 0 * qty z 1 ^ a' 1) * Real.exp (-κ) := by
    nlinarith
  exact (mul_le_mul_of_nonneg_right h4 (Real.exp_pos δ).le).trans hrev

/-- **C104** (accuracy, robust).  `cutting_plane_dc(profit_rb_oracle(...), E, t0)`, `t0 ≥ 0`, from any ellipsoid: every run that
returns ends with a value larger than `s·e^{-κ} - C(e^r - e^{-κ})` for every point `z` within all limits with guaranteed profit `s` and
worst-case cost `C`, provided the disc of radius `r` about `(z₀ - r - δ, z₁)` lies in the ellipsoid, `tol ≤ δ²` and
`max_it > 3·ln(vol²/r⁴)`; here `κ = δ + b₀(2r + δ) + b₁ r` and `b` bounds the elasticities. -/
theorem C104_rb_accuracy (hA : 0 < A) (h1 : 0 ≤ e.e1) (h2 : 0 ≤ e.e2) (h3 : 0 ≤ e.e3) (h3' : e.e3 < p)
    (h4 : 0 ≤ e.e4) (h4' : e.e4 < k) (h5 : 0 ≤ e.e5) (h5' : ∀ i, e.e5 ≤ v i) (hv : ∀ i, 0 < v i) {b : Fin 2 → ℝ}
    (hb0 : |a 0| + e.e1 ≤ b 0) (hb1 : |a 1| + e.e2 ≤ b 1) {E₀ E : Ell 2} (hE : E₀.WF) {z : Fin 2 → ℝ} {s r δ : ℝ} (hr : 0 < r)
    (hδ : 0 < δ) (hball : euclBall ![z 0 - r - δ, z 1] r ⊆ E₀.pts) {o : Options ℝ} (htol : o.tol ≤ δ ^ 2)
    (hmax : 3 * Real.log (E₀.vsq / r ^ 4) < o.maxIt) (hlim : ∀ k', |k' - k| ≤ e.e4 → qty z 0 ≤ k')
    (hs : Guaranteed e p A a v (qty z) s) {t0 t : ℝ} (ht0 : 0 ≤ t0) {xb : Option (Fin 2 → ℝ)} {info : CInfo} {w₀ w : ProfitRb}
    (hw₀ : RbReach (ProfitRb.init p A k a v e.e1 e.e2 e.e3 e.e4 e.e5) w₀)
    (hrun : cuttingPlaneDc (fun y t => liftOracle (rbOmega y t)) (Ell.space ProfitRb 2) t0 o (w₀, E₀) = .ok ((w, E), xb, t, info)) :
    s * Real.exp (-(δ + b 0 * (2 * r + δ) + b 1 * r)) -
      cost (fun i => v i + e.e5) (qty z) * (Real.exp r - Real.exp (-(δ + b 0 * (2 * r + δ) + b 1 * r))) < t := by
  by_contra hcon
  refine C104_quasi_beats (C104_rb_oracle (a := a) hA h1 h2 h3 h3' h4 h4' h5 hv) hE hr hδ hball htol ?_ hw₀ ht0 hrun
    (profit_ball hA h3' h5' hb0 hb1 hr.le hδ.le hlim hs (not_lt.1 hcon))
  refine lt_of_eq_of_lt ?_ hmax
  rw [← pow_mul]; push_cast; norm_num

/-- **C104** (accuracy).  The same for `profit_oracle`; `C` is the cost at `z`. -/
theorem C104_profit_accuracy (hp : 0 < p) (hA : 0 < A) (hk : 0 < k) (hv : ∀ i, 0 < v i) {E₀ E : Ell 2} (hE : E₀.WF)
    {z : Fin 2 → ℝ} {r δ : ℝ} (hr : 0 < r) (hδ : 0 < δ) (hball : euclBall ![z 0 - r - δ, z 1] r ⊆ E₀.pts) {o : Options ℝ}
    (htol : o.tol ≤ δ ^ 2) (hmax : 3 * Real.log (E₀.vsq / r ^ 4) < o.maxIt) (hlim : qty z 0 ≤ k) {t0 t : ℝ} (ht0 : 0 ≤ t0)
    {xb : Option (Fin 2 → ℝ)} {info : CInfo} {w₀ w : Unit}
    (hrun : cuttingPlaneDc (fun y t => liftOracle (profitOmega (Profit.init p A k a v) y t)) (Ell.space Unit 2) t0 o (w₀, E₀) =
      .ok ((w, E), xb, t, info)) :
    profit p A a v (qty z) * Real.exp (-(δ + |a 0| * (2 * r + δ) + |a 1| * r)) -
      cost v (qty z) * (Real.exp r - Real.exp (-(δ + |a 0| * (2 * r + δ) + |a 1| * r))) < t := by
  by_contra hcon
  have hb := profit_ball (e := Unc.none) (p := p) (A := A) (k := k) (a := a) (v := v) (b := fun i => |a i|) (z := z) (t := t) hA hp
    (fun i => (hv i).le) (by simp [Unc.none]) (by simp [Unc.none]) hr.le hδ.le (limit_none.2 hlim) (guaranteed_none.2 le_rfl)
    (by simpa [Unc.none] using not_lt.1 hcon)
  refine C104_quasi_beats (C104_profit_oracle (a := a) (mul_pos hp hA) hk hv) hE hr hδ hball htol ?_ trivial ht0 hrun hb
  refine lt_of_eq_of_lt ?_ hmax
  rw [← pow_mul]; push_cast; norm_num

/-- Levels stay below `s♯`. -/
theorem rb_answersAt (hA : 0 < A) (h1 : 0 ≤ e.e1) (h2 : 0 ≤ e.e2) (h3 : 0 ≤ e.e3) (h3' : e.e3 < p)
    (h4 : 0 ≤ e.e4) (h4' : e.e4 < k) (h5 : 0 ≤ e.e5) (hv : ∀ i, 0 < v i) {zs : Fin 2 → ℝ} {ss : ℝ}
    (hss : Guaranteed e p A a v (qty zs) ss)
    (hbind : ∀ y, (∀ k', |k' - k| ≤ e.e4 → qty y 0 ≤ k') → ∀ s, Guaranteed e p A a v (qty y) s → s < ss) :
    AnswersAt (fun o t => RbReach (ProfitRb.init p A k a v e.e1 e.e2 e.e3 e.e4 e.e5) o ∧ 0 ≤ t ∧ t < ss) rbOmega := by
  rintro y t o ⟨ho, ht, hts⟩
  obtain ⟨o', cut, t1, c1, c2, c3, c4, -⟩ := C46_profit_rb (v := v) hA h1 h2 h3 h3' h4 h4' h5 hv ho y ht
  have hnew : 0 ≤ t1.getD t ∧ t1.getD t < ss := by
    cases t1 with
    | none => exact ⟨ht, hts⟩
    | some s =>
      obtain ⟨d1, d2, d3, -⟩ := (c4 s).1 rfl
      exact ⟨ht.trans d2.le, hbind y d1 s d3⟩
  refine ⟨o', cut.1, cut.2, t1, by simp [rbOmega, c1, Except.map, scalarCut], ⟨c2, hnew⟩, c3, fun hg => ?_⟩
  obtain ⟨r1, r2, b, r3⟩ := ho
  have r1 : o.a = a := r1
  have r2 : o.e = ![e.e1, e.e2] := r2
  have hv' : ∀ i, 0 < (fun i => v i + e.e5) i := fun i => by have := hv i; simp only; linarith
  obtain ⟨cut', t1', d1, -, -, -, d5, -⟩ := profit_call (k := k - e.e4) (a := o.aRb y)
    (mul_pos (by linarith : 0 < p - e.e3) hA) hv' y ht
  have hP : (⟨o.P.logPA, o.P.logK, o.P.v, o.aRb y⟩ : Profit) =
      Profit.init (p - e.e3) A (k - e.e4) (o.aRb y) (fun i => v i + e.e5) := by
    rw [r3]; rfl
  simp only [ProfitRb.call] at c1
  rw [hP, d1] at c1
  simp only [Except.ok.injEq, Prod.mk.injEq] at c1
  obtain ⟨-, rfl, rfl⟩ := c1
  by_cases hy : y 0 ≤ Real.log (k - e.e4)
  · have := d5 hy zs (hnew.2.trans_le (hss _ _ _ (corner_within h1 h2 h3 h5 r1 r2 y)))
    rw [hg, zero_dotProduct] at this
    linarith
  · have : (Profit.init (p - e.e3) A (k - e.e4) (o.aRb y) (fun i => v i + e.e5)).call y t =
        .ok ((![1, 0], y 0 - Real.log (k - e.e4)), none) := if_pos (by simp only [Profit.init]; linarith [not_le.1 hy])
    rw [d1] at this
    simp only [Except.ok.injEq, Prod.mk.injEq] at this
    have h0 := congrFun (hg.symm.trans (congrArg Prod.fst this.1)) 0
    simp at h0

/-- **C104** (no exception, robust).  If the limit is binding - some quantities beyond it have a guaranteed profit `s♯` larger than all
within it, and than the start level - the run returns, or divides by zero after an exactly tangent cut. -/
theorem C104_rb_total (hA : 0 < A) (h1 : 0 ≤ e.e1) (h2 : 0 ≤ e.e2) (h3 : 0 ≤ e.e3) (h3' : e.e3 < p)
    (h4 : 0 ≤ e.e4) (h4' : e.e4 < k) (h5 : 0 ≤ e.e5) (hv : ∀ i, 0 < v i) {zs : Fin 2 → ℝ} {ss : ℝ}
    (hss : Guaranteed e p A a v (qty zs) ss)
    (hbind : ∀ y, (∀ k', |k' - k| ≤ e.e4 → qty y 0 ≤ k') → ∀ s, Guaranteed e p A a v (qty y) s → s < ss)
    {E₀ : Ell 2} (hE : E₀.Proper) {o : Options ℝ} (hmax : 1 ≤ o.maxIt) (htol : 0 < o.tol) {t0 : ℝ} (ht0 : 0 ≤ t0) (ht0' : t0 < ss) :
    (∃ r, cuttingPlaneDc (fun y t => liftOracle (rbOmega y t)) (Ell.space ProfitRb 2) t0 o
      (ProfitRb.init p A k a v e.e1 e.e2 e.e3 e.e4 e.e5, E₀) = .ok r) ∨
    cuttingPlaneDc (fun y t => liftOracle (rbOmega y t)) (Ell.space ProfitRb 2) t0 o
      (ProfitRb.init p A k a v e.e1 e.e2 e.e3 e.e4 e.e5, E₀) = .error .zeroDivision := by
  rcases C99_dc_total_levels (rb_answersAt hA h1 h2 h3 h3' h4 h4' h5 hv hss hbind) hE hmax htol (t0 := t0)
    ⟨RbReach.refl _, ht0, ht0'⟩ with h | ⟨h, -⟩
  · exact .inl h
  · exact .inr h

/-- **C104** (no exception).  The same for `profit_oracle`. -/
theorem C104_profit_total (hpA : 0 < p * A) (hk : 0 < k) (hv : ∀ i, 0 < v i) {zs : Fin 2 → ℝ}
    (hbind : ∀ y, qty y 0 ≤ k → profit p A a v (qty y) < profit p A a v (qty zs))
    {E₀ : Ell 2} (hE : E₀.Proper) {o : Options ℝ} (hmax : 1 ≤ o.maxIt) (htol : 0 < o.tol) {t0 : ℝ} (ht0 : 0 ≤ t0)
    (ht0' : t0 < profit p A a v (qty zs)) :
    (∃ r, cuttingPlaneDc (fun y t => liftOracle (profitOmega (Profit.init p A k a v) y t)) (Ell.space Unit 2) t0 o ((), E₀) = .ok r) ∨
    cuttingPlaneDc (fun y t => liftOracle (profitOmega (Profit.init p A k a v) y t)) (Ell.space Unit 2) t0 o ((), E₀) =
      .error .zeroDivision := by
  have hans : AnswersAt (fun _ t => 0 ≤ t ∧ t < profit p A a v (qty zs)) (profitOmega (Profit.init p A k a v)) := by
    rintro y t w ⟨ht, hts⟩
    obtain ⟨⟨g, b⟩, t1, c1, c2, c3, -, c5, -⟩ := profit_call (k := k) (a := a) hpA hv y ht
    have hnew : 0 ≤ t1.getD t ∧ t1.getD t < profit p A a v (qty zs) := by
      cases t1 with
      | none => exact ⟨ht, hts⟩
      | some s =>
        obtain ⟨d1, d2, d3⟩ := (c2 s).1 rfl
        rw [Real.le_log_iff_exp_le hk] at d2
        exact ⟨by simp only [Option.getD_some]; linarith, by rw [Option.getD_some, d1]; exact hbind y d2⟩
    refine ⟨(), g, b, t1, by simp [profitOmega, c1, Except.map, scalarCut], hnew, c3, fun hg => ?_⟩
    by_cases hy : y 0 ≤ Real.log k
    · have := c5 hy zs hnew.2
      simp only [hg, zero_dotProduct] at this c3
      linarith
    · have : (Profit.init p A k a v).call y t = .ok ((![1, 0], y 0 - Real.log k), none) :=
        if_pos (by simp only [Profit.init]; linarith [not_le.1 hy])
      rw [c1] at this
      simp only [Except.ok.injEq, Prod.mk.injEq] at this
      have h0 := congrFun (hg.symm.trans this.1.1) 0
      simp at h0
  rcases C99_dc_total_levels hans hE hmax htol (t0 := t0) (w₀ := ()) ⟨ht0, ht0'⟩ with h | ⟨h, -⟩
  · exact .inl h
  · exact .inr h

end

/-! ### The data of the tests -/

/-- A Cobb-Douglas profit with a binding limit: if at `(k, e^ly)` the second factor earns its price and the first earns at least its
price, no quantities within the limit have a larger profit. -/
theorem cobb_opt {p A k α β v0 v1 ly R0 : ℝ} (hpA : 0 < p * A) (hk : 0 < k) (hα : 0 ≤ α) (hβ : 0 ≤ β) (hαβ : α + β ≤ 1)
    (hR : R0 = Real.exp (Real.log (p * A) + (α * Real.log k + β * ly))) (hY : β * R0 = v1 * Real.exp ly) (hX : v0 * k ≤ α * R0)
    {z : Fin 2 → ℝ} (hz : qty z 0 ≤ k) : profit p A ![α, β] ![v0, v1] (qty z) ≤ R0 - v0 * k - v1 * Real.exp ly := by
  have h := exp_weighted (t := 1 - α - β) (d0 := z 0 - Real.log k) (d1 := z 1 - ly) (te := 1) (by linarith) hα hβ (by ring) one_pos
  rw [one_mul, div_one] at h
  have hR0 : 0 < R0 := hR ▸ Real.exp_pos _
  have h1 : p * (A * qty z 0 ^ α * qty z 1 ^ β) = R0 * Real.exp (α * (z 0 - Real.log k) + β * (z 1 - ly)) := by
    have := cobb_eq hpA ![α, β] z
    simp only [cons_val_zero, cons_val_one] at this
    rw [← this, hR, ← Real.exp_add, dot2]
    congr 1
    simp only [cons_val_zero, cons_val_one]; ring
  have e0 : Real.exp (z 0 - Real.log k) = qty z 0 / k := by rw [Real.exp_sub, Real.exp_log hk]; rfl
  have e1 : Real.exp (z 1 - ly) = qty z 1 / Real.exp ly := by rw [Real.exp_sub]; rfl
  rw [e0, e1] at h
  have h2 := mul_le_mul_of_nonneg_left h hR0.le
  have e2 : R0 * (β * (qty z 1 / Real.exp ly)) = v1 * qty z 1 := by
    have := (Real.exp_pos ly).ne'
    have : β * R0 / Real.exp ly = v1 := by rw [hY]; field_simp
    rw [← this]; ring
  have e3 : (α * R0 / k - v0) * qty z 0 ≤ (α * R0 / k - v0) * k := by
    apply mul_le_mul_of_nonneg_left hz
    rw [sub_nonneg, le_div_iff₀ hk]; exact hX
  have e4 : (α * R0 / k - v0) * k = α * R0 - v0 * k := by field_simp
  simp only [profit, cons_val_zero, cons_val_one]
  rw [h1]
  have e5 : R0 * (1 - α - β + (α * (qty z 0 / k) + β * (qty z 1 / Real.exp ly))) =
      R0 * (1 - α - β) + α * R0 / k * qty z 0 + R0 * (β * (qty z 1 / Real.exp ly)) := by ring
  rw [e5, e2] at h2
  nlinarith

theorem exp_loss {s C κ r L : ℝ} (hs : 0 ≤ s) (hC : 0 ≤ C) (hr : 0 ≤ r) (hr' : r ≤ 1 / 2) (hL : s * κ + C * (r + r ^ 2 + r ^ 2 * r * 2 + κ) ≤ L) :
    s - L ≤ s * Real.exp (-κ) - C * (Real.exp r - Real.exp (-κ)) := by
  have h1 : 1 - κ ≤ Real.exp (-κ) := by linarith [Real.add_one_le_exp (-κ)]
  have h2 : Real.exp r ≤ 1 + r + r ^ 2 + r ^ 2 * r * 2 := by
    have h := Real.add_one_le_exp (-r)
    have h3 : Real.exp r * Real.exp (-r) = 1 := by rw [← Real.exp_add]; simp
    have h4 : 0 ≤ Real.exp r := (Real.exp_pos r).le
    have h5 : Real.exp r * (1 - r) ≤ 1 := by nlinarith
    by_contra hcon
    have := mul_lt_mul_of_pos_right (not_le.1 hcon) (by linarith : 0 < 1 - r)
    nlinarith [mul_nonneg (mul_nonneg (sq_nonneg r) hr) (by linarith : 0 ≤ 1 - 2 * r)]
  have h6 := mul_le_mul_of_nonneg_left h1 hs
  have h7 := mul_le_mul_of_nonneg_left (show Real.exp r - Real.exp (-κ) ≤ r + r ^ 2 + r ^ 2 * r * 2 + κ by linarith) hC
  nlinarith

theorem log_test' : 3 * Real.log ((10 ^ 2) ^ 2 / (1 / 10 ^ 5) ^ 4) < ((2000 : ℤ) : ℝ) := by
  have h1 : ((10 : ℝ) ^ 2) ^ 2 / (1 / 10 ^ 5) ^ 4 = 10 ^ 24 := by norm_num
  rw [h1, Real.log_pow]
  have := Real.log_le_sub_one_of_pos (by norm_num : (0 : ℝ) < 10)
  push_cast
  linarith

theorem ball_test {z : Fin 2 → ℝ} (h0 : 0 ≤ z 0) (h0' : z 0 ≤ 5) (h1 : 0 ≤ z 1) (h1' : z 1 ≤ 5) :
    euclBall ![z 0 - 1 / 10 ^ 5 - 1 / 10 ^ 4, z 1] (1 / 10 ^ 5) ⊆ euclBall (0 : Fin 2 → ℝ) 10 := by
  intro w hw
  obtain ⟨w0, w1⟩ := ball2 (by norm_num) hw
  simp only [cons_val_zero, cons_val_one] at w0 w1
  rw [abs_le] at w0 w1
  simp only [euclBall, Set.mem_ofPred_eq, Fin.sum_univ_two, Pi.zero_apply]
  have k0 : -1 ≤ w 0 ∧ w 0 ≤ 6 := ⟨by norm_num at w0 ⊢; linarith [w0.1], by norm_num at w0 ⊢; linarith [w0.2]⟩
  have k1 : -1 ≤ w 1 ∧ w 1 ≤ 6 := ⟨by norm_num at w1 ⊢; linarith [w1.1], by norm_num at w1 ⊢; linarith [w1.2]⟩
  nlinarith

theorem log_le_five {x : ℝ} (h0 : 1 ≤ x) (h1 : x ≤ 128) : 0 ≤ Real.log x ∧ Real.log x ≤ 5 := by
  refine ⟨Real.log_nonneg h0, ?_⟩
  have h := Real.log_le_log (by linarith) h1
  have : (128 : ℝ) = 2 ^ 7 := by norm_num
  rw [this, Real.log_pow] at h
  have := Real.log_two_lt_d9
  push_cast at h
  linarith

/-- The optimum of `test_profit`. -/
theorem profit_test_opt : ∃ ly : ℝ, 70.662 < Real.exp ly ∧ Real.exp ly < 70.6625 ∧
    (∀ z, qty z 0 ≤ 30.5 → profit 20 40 ![0.1, 0.4] ![10, 35] (qty z) ≤ 52.5 * Real.exp ly - 305) ∧
    profit 20 40 ![0.1, 0.4] ![10, 35] (qty ![Real.log 30.5, ly]) = 52.5 * Real.exp ly - 305 := by
  -- the optimum
  set ly : ℝ := (10 * Real.log (64 / 7) + Real.log 30.5) / 6 with hly
  have hY6 : Real.exp ly ^ 6 = (64 / 7) ^ 10 * 30.5 := by
    rw [← Real.exp_nat_mul, hly, show ((6 : ℕ) : ℝ) * ((10 * Real.log (64 / 7) + Real.log 30.5) / 6) =
      ((10 : ℕ) : ℝ) * Real.log (64 / 7) + Real.log 30.5 by push_cast; ring, Real.exp_add, Real.exp_nat_mul, Real.exp_log (by norm_num),
      Real.exp_log (by norm_num)]
  have hYlo : 70.662 < Real.exp ly := lt_of_pow_lt_pow_left₀ 6 (Real.exp_pos _).le (by rw [hY6]; norm_num)
  have hYhi : Real.exp ly < 70.6625 := lt_of_pow_lt_pow_left₀ 6 (by norm_num) (by rw [hY6]; norm_num)
  obtain ⟨R0, hR⟩ : ∃ R0, R0 = Real.exp (Real.log (20 * 40) + (0.1 * Real.log 30.5 + 0.4 * ly)) := ⟨_, rfl⟩
  have hR' : R0 = 87.5 * Real.exp ly := by
    have h1 : Real.log (20 * 40) = Real.log (64 / 7) + Real.log 87.5 := by
      rw [← Real.log_mul (by norm_num) (by norm_num)]; norm_num
    rw [hR, h1, show Real.log (64 / 7) + Real.log 87.5 + (0.1 * Real.log 30.5 + 0.4 * ly) = Real.log 87.5 + ly by rw [hly]; ring,
      Real.exp_add, Real.exp_log (by norm_num)]
  have hopt : ∀ z, qty z 0 ≤ 30.5 → profit 20 40 ![0.1, 0.4] ![10, 35] (qty z) ≤ 52.5 * Real.exp ly - 305 := fun z hz => by
    have := cobb_opt (v0 := 10) (v1 := 35) (by norm_num) (by norm_num) (by norm_num) (by norm_num) (by norm_num) hR (by rw [hR']; ring)
      (by rw [hR']; norm_num at hYlo ⊢; linarith) hz
    rw [hR'] at this
    linarith
  set zs : Fin 2 → ℝ := ![Real.log 30.5, ly] with hzs
  have hz0 : qty zs 0 = 30.5 := by rw [qty, hzs, cons_val_zero, Real.exp_log (by norm_num)]
  have hz1 : qty zs 1 = Real.exp ly := rfl
  have hprof : profit 20 40 ![0.1, 0.4] ![10, 35] (qty zs) = 52.5 * Real.exp ly - 305 := by
    have h1 := cobb_eq (p := 20) (A := 40) (by norm_num) ![0.1, 0.4] zs
    rw [dot2] at h1
    simp only [hzs, cons_val_zero, cons_val_one] at h1
    rw [← hR, hR'] at h1
    simp only [profit, cons_val_zero, cons_val_one] at h1 ⊢
    rw [← hzs] at h1
    rw [← h1, hz0, hz1]
    ring
  exact ⟨ly, hYlo, hYhi, hopt, hprof⟩

/-- **C104** `test_profit`: `p A = 800`, `k = 30.5`, `a = (0.1, 0.4)`, `v = (10, 35)`, `ell([100, 100], (0, 0))`, start level 0, default
options.  Every run that returns is feasible; the returned point respects the limit and has profit `t`; no quantities within the
limit have a profit of `t + 4/5` or more, and `3403.9 < t < 3404.8`. -/
theorem C104_test_profit {E₀ E : Ell 2} (hinit : Ell.init (.diag fun _ => 100) 0 = .ok E₀) {t : ℝ} {xb : Option (Fin 2 → ℝ)}
    {info : CInfo} {w : Unit}
    (hrun : cuttingPlaneDc (fun y t => liftOracle (profitOmega (Profit.init 20 40 30.5 ![0.1, 0.4] ![10, 35]) y t)) (Ell.space Unit 2) 0
      ⟨2000, 1 / 10 ^ 8⟩ ((), E₀) = .ok ((w, E), xb, t, info)) :
    info.feasible = true ∧ (∃ y, xb = some y ∧ qty y 0 ≤ 30.5 ∧ t = profit 20 40 ![0.1, 0.4] ![10, 35] (qty y)) ∧
      (∀ z, qty z 0 ≤ 30.5 → profit 20 40 ![0.1, 0.4] ![10, 35] (qty z) < t + 4 / 5) ∧ 3403.9 < t ∧ t < 3404.8 := by
  have hv : ∀ i, 0 < (![10, 35] : Fin 2 → ℝ) i := by intro i; fin_cases i <;> norm_num
  rw [show (fun _ : Fin 2 => (100 : ℝ)) = fun _ => 10 ^ 2 by norm_num] at hinit
  obtain ⟨hE, hpts, hvol⟩ := init_diag_bound le_rfl (by norm_num) hinit
  obtain ⟨ly, hYlo, hYhi, hopt, hprof⟩ := profit_test_opt
  set zs : Fin 2 → ℝ := ![Real.log 30.5, ly] with hzs
  have hz0 : qty zs 0 = 30.5 := by rw [qty, hzs, cons_val_zero, Real.exp_log (by norm_num)]
  have hz1 : qty zs 1 = Real.exp ly := rfl
  have hlo := C104_profit_accuracy (r := 1 / 10 ^ 5) (δ := 1 / 10 ^ 4) (z := zs) (by norm_num) (by norm_num) (by norm_num) hv hE (by norm_num)
    (by norm_num) (by
      rw [hpts]
      have hl := log_le_five (x := 30.5) (by norm_num) (by norm_num)
      have hl' := log_le_five (x := Real.exp ly) (by linarith) (by linarith)
      rw [Real.log_exp] at hl'
      exact ball_test hl.1 hl.2 hl'.1 hl'.2) (by norm_num) (by rw [hvol]; exact log_test') hz0.le le_rfl hrun
  have hloss := exp_loss (s := 52.5 * Real.exp ly - 305) (C := cost ![10, 35] (qty zs)) (r := 1 / 10 ^ 5) (L := 0.79)
    (κ := 1 / 10 ^ 4 + |(0.1 : ℝ)| * (2 * (1 / 10 ^ 5) + 1 / 10 ^ 4) + |(0.4 : ℝ)| * (1 / 10 ^ 5)) (by linarith)
    (by simp only [cost, hz0, hz1, cons_val_zero, cons_val_one]; linarith) (by norm_num) (by norm_num) (by
      simp only [cost, hz0, hz1, cons_val_zero, cons_val_one]
      rw [abs_of_pos (by norm_num), abs_of_pos (by norm_num)]
      norm_num at hYhi ⊢
      linarith)
  rw [hprof] at hlo
  simp only [cons_val_zero, cons_val_one] at hlo
  have htlo := hloss.trans_lt hlo
  have hver := (C98_quasi_verdict (C104_profit_oracle (a := ![0.1, 0.4]) (k := 30.5) (by norm_num) (by norm_num) hv) hE le_rfl trivial hrun).1
  norm_num at hYlo hYhi htlo
  have htpos : 0 < t := by linarith
  rcases hver with ⟨-, h⟩ | ⟨y, h1, -, h2⟩
  · linarith
  obtain ⟨h3, h4⟩ := hit_none.1 h2
  have htop := hopt y h3
  rw [← h4] at htop
  norm_num at htop
  refine ⟨?_, ⟨y, h1, h3, h4⟩, fun z hz => ?_, ?_, ?_⟩
  · obtain ⟨s, i, -, -, -, hs, rfl⟩ := dc_ok hrun
    simp only [decide_eq_true_eq, ← hs]
    exact htpos.ne'
  · have := hopt z hz
    norm_num at this ⊢
    linarith
  · norm_num; linarith
  · norm_num; linarith

/-- The uncertainty of `test_profit_rb`. -/
noncomputable def uncTest : Unc := ⟨0.003, 0.007, 1, 1, 1⟩

set_option exponentiation.threshold 1100 in
/-- The optimum of `test_profit_rb`. -/
theorem profit_rb_test_opt : ∃ ly : ℝ, 56.069 < Real.exp ly ∧ Real.exp ly < 56.07 ∧
    (∀ z, (∀ k', |k' - 30.5| ≤ 1 → qty z 0 ≤ k') → ∀ s, Guaranteed uncTest 20 40 ![0.1, 0.4] ![10, 35] (qty z) s →
      s ≤ 7284 / 131 * Real.exp ly - 324.5) ∧
    Guaranteed uncTest 20 40 ![0.1, 0.4] ![10, 35] (qty ![Real.log 29.5, ly]) (7284 / 131 * Real.exp ly - 324.5) := by
  -- the optimum
  set ly : ℝ := (1000 * Real.log (2489 / 300) + 97 * Real.log 29.5) / 607 with hly
  have hYp : Real.exp ly ^ 607 = (2489 / 300) ^ 1000 * 29.5 ^ 97 := by
    rw [← Real.exp_nat_mul, hly, show ((607 : ℕ) : ℝ) * ((1000 * Real.log (2489 / 300) + 97 * Real.log 29.5) / 607) =
      ((1000 : ℕ) : ℝ) * Real.log (2489 / 300) + ((97 : ℕ) : ℝ) * Real.log 29.5 by push_cast; ring, Real.exp_add, Real.exp_nat_mul,
      Real.exp_nat_mul, Real.exp_log (by norm_num), Real.exp_log (by norm_num)]
  have hYlo : 56.069 < Real.exp ly := lt_of_pow_lt_pow_left₀ 607 (Real.exp_pos _).le (by rw [hYp]; norm_num)
  have hYhi : Real.exp ly < 56.07 := lt_of_pow_lt_pow_left₀ 607 (by norm_num) (by rw [hYp]; norm_num)
  obtain ⟨R0, hR⟩ : ∃ R0, R0 = Real.exp (Real.log (19 * 40) + (0.097 * Real.log 29.5 + 0.393 * ly)) := ⟨_, rfl⟩
  have hR' : R0 = 12000 / 131 * Real.exp ly := by
    have h1 : Real.log (19 * 40) = Real.log (2489 / 300) + Real.log (12000 / 131) := by
      rw [← Real.log_mul (by norm_num) (by norm_num)]; norm_num
    rw [hR, h1, show Real.log (2489 / 300) + Real.log (12000 / 131) + (0.097 * Real.log 29.5 + 0.393 * ly) = Real.log (12000 / 131) + ly by
      rw [hly]; ring, Real.exp_add, Real.exp_log (by norm_num)]
  have hcorner : uncTest.Within 20 ![0.1, 0.4] ![10, 35] 19 ![0.097, 0.393] ![11, 36] := by
    refine ⟨?_, ?_, ?_, fun i => ?_⟩
    · norm_num [uncTest, abs_of_nonneg, abs_of_nonpos]
    · norm_num [uncTest, abs_of_nonneg, abs_of_nonpos]
    · norm_num [uncTest, abs_of_nonneg, abs_of_nonpos]
    · fin_cases i <;> norm_num [uncTest]
  have hopt : ∀ z, (∀ k', |k' - 30.5| ≤ 1 → qty z 0 ≤ k') → ∀ s, Guaranteed uncTest 20 40 ![0.1, 0.4] ![10, 35] (qty z) s →
      s ≤ 7284 / 131 * Real.exp ly - 324.5 := fun z hz s hs => by
    have h1 := hz 29.5 (by norm_num [abs_of_nonpos])
    have := cobb_opt (v0 := 11) (v1 := 36) (by norm_num) (by norm_num) (by norm_num) (by norm_num) (by norm_num) hR (by rw [hR']; ring)
      (by rw [hR']; norm_num at hYlo ⊢; linarith) h1
    have h2 := hs _ _ _ hcorner
    rw [hR'] at this
    linarith
  set zs : Fin 2 → ℝ := ![Real.log 29.5, ly] with hzs
  have hz0 : qty zs 0 = 29.5 := by rw [qty, hzs, cons_val_zero, Real.exp_log (by norm_num)]
  have hz1 : qty zs 1 = Real.exp ly := rfl
  have hl := log_le_five (x := 29.5) (by norm_num) (by norm_num)
  have hl' := log_le_five (x := Real.exp ly) (by linarith) (by linarith)
  rw [Real.log_exp] at hl'
  have hlpos : 0 < Real.log 29.5 := Real.log_pos (by norm_num)
  have hlypos : 0 < ly := by rw [← Real.exp_lt_exp, Real.exp_zero]; linarith
  have hprof : profit 19 40 ![0.097, 0.393] ![11, 36] (qty zs) = 7284 / 131 * Real.exp ly - 324.5 := by
    have h1 := cobb_eq (p := 19) (A := 40) (by norm_num) ![0.097, 0.393] zs
    rw [dot2] at h1
    simp only [hzs, cons_val_zero, cons_val_one] at h1
    rw [← hR, hR'] at h1
    simp only [profit, cons_val_zero, cons_val_one] at h1 ⊢
    rw [← hzs] at h1
    rw [← h1, hz0, hz1]
    ring
  have hguar : Guaranteed uncTest 20 40 ![0.1, 0.4] ![10, 35] (qty zs) (7284 / 131 * Real.exp ly - 324.5) := by
    refine (guaranteed_iff (e := uncTest) (p := 20) (A := 40) (a := ![0.1, 0.4]) (v := ![10, 35])
      (o := ProfitRb.init 20 40 30.5 ![0.1, 0.4] ![10, 35] 0.003 0.007 1 1 1) (by norm_num) (by norm_num [uncTest])
      (by norm_num [uncTest]) (by norm_num [uncTest]) (by norm_num [uncTest]) (by norm_num [uncTest]) rfl rfl zs _).2 ?_
    have e1 : (ProfitRb.init 20 40 30.5 ![0.1, 0.4] ![10, 35] 0.003 0.007 1 1 1).aRb zs = ![0.097, 0.393] := by
      funext i
      fin_cases i
      · have : 0 < zs 0 := hlpos
        simp only [ProfitRb.aRb, ProfitRb.init, Fin.zero_eta, cons_val_zero, if_pos this]; norm_num
      · have : 0 < zs 1 := hlypos
        simp only [ProfitRb.aRb, ProfitRb.init, Fin.mk_one, cons_val_one, if_pos this]; norm_num
    have e2 : (fun i => (![10, 35] : Fin 2 → ℝ) i + uncTest.e5) = ![11, 36] := by
      funext i; fin_cases i <;> norm_num [uncTest]
    have e3 : (20 : ℝ) - uncTest.e3 = 19 := by norm_num [uncTest]
    rw [e1, e2, e3, hprof]
  exact ⟨ly, hYlo, hYhi, hopt, hguar⟩

/-- **C104** `test_profit_rb`: the same data with half widths `0.003, 0.007, 1, 1, 1` of the uncertainty.  Every run that returns is
feasible; the returned point respects every limit and `t` is the largest profit guaranteed there; no point respecting every limit has
a guaranteed profit of `t + 4/5` or more, and `2792.3 < t < 2793.2`. -/
theorem C104_test_profit_rb {E₀ E : Ell 2} (hinit : Ell.init (.diag fun _ => 100) 0 = .ok E₀) {t : ℝ} {xb : Option (Fin 2 → ℝ)}
    {info : CInfo} {w : ProfitRb}
    (hrun : cuttingPlaneDc (fun y t => liftOracle (rbOmega y t)) (Ell.space ProfitRb 2) 0
      ⟨2000, 1 / 10 ^ 8⟩ (ProfitRb.init 20 40 30.5 ![0.1, 0.4] ![10, 35] 0.003 0.007 1 1 1, E₀) = .ok ((w, E), xb, t, info)) :
    info.feasible = true ∧ (∃ y, xb = some y ∧ ProfitHit uncTest 20 40 30.5 ![0.1, 0.4] ![10, 35] y t) ∧
      (∀ z, (∀ k', |k' - 30.5| ≤ 1 → qty z 0 ≤ k') → ∀ s, Guaranteed uncTest 20 40 ![0.1, 0.4] ![10, 35] (qty z) s → s < t + 4 / 5) ∧
      2792.3 < t ∧ t < 2793.2 := by
  have hv : ∀ i, 0 < (![10, 35] : Fin 2 → ℝ) i := by intro i; fin_cases i <;> norm_num
  rw [show (fun _ : Fin 2 => (100 : ℝ)) = fun _ => 10 ^ 2 by norm_num] at hinit
  obtain ⟨hE, hpts, hvol⟩ := init_diag_bound le_rfl (by norm_num) hinit
  obtain ⟨ly, hYlo, hYhi, hopt, hguar⟩ := profit_rb_test_opt
  set zs : Fin 2 → ℝ := ![Real.log 29.5, ly] with hzs
  have hz0 : qty zs 0 = 29.5 := by rw [qty, hzs, cons_val_zero, Real.exp_log (by norm_num)]
  have hz1 : qty zs 1 = Real.exp ly := rfl
  have hl := log_le_five (x := 29.5) (by norm_num) (by norm_num)
  have hl' := log_le_five (x := Real.exp ly) (by linarith) (by linarith)
  rw [Real.log_exp] at hl'
  have hcost : cost (fun i => (![10, 35] : Fin 2 → ℝ) i + uncTest.e5) (qty zs) = 324.5 + 36 * Real.exp ly := by
    simp only [cost, hz0, hz1, uncTest, cons_val_zero, cons_val_one]; ring
  have hlo := C104_rb_accuracy (e := uncTest) (p := 20) (A := 40) (k := 30.5) (a := ![0.1, 0.4]) (v := ![10, 35]) (b := ![0.103, 0.407])
    (r := 1 / 10 ^ 5) (δ := 1 / 10 ^ 4) (z := zs)
    (by norm_num) (by norm_num [uncTest]) (by norm_num [uncTest]) (by norm_num [uncTest]) (by norm_num [uncTest])
    (by norm_num [uncTest]) (by norm_num [uncTest]) (by norm_num [uncTest])
    (by intro i; fin_cases i <;> norm_num [uncTest]) hv
    (by simp only [cons_val_zero, uncTest]; rw [abs_of_pos (by norm_num)]; norm_num)
    (by simp only [cons_val_one, uncTest]; rw [abs_of_pos (by norm_num)]; norm_num) hE (by norm_num)
    (by norm_num) (by
      rw [hpts]
      exact ball_test hl.1 hl.2 hl'.1 hl'.2) (by norm_num) (by rw [hvol]; exact log_test')
    (fun k' hk' => by rw [hz0]; have := (abs_le.1 hk').1; norm_num [uncTest] at this ⊢; linarith) hguar le_rfl (RbReach.refl _) hrun
  rw [hcost] at hlo
  have hloss := exp_loss (s := 7284 / 131 * Real.exp ly - 324.5) (C := 324.5 + 36 * Real.exp ly) (r := 1 / 10 ^ 5) (L := 0.79)
    (κ := 1 / 10 ^ 4 + 0.103 * (2 * (1 / 10 ^ 5) + 1 / 10 ^ 4) + 0.407 * (1 / 10 ^ 5)) (by norm_num at hYlo ⊢; linarith)
    (by linarith) (by norm_num) (by norm_num) (by
      norm_num at hYhi ⊢
      linarith)
  simp only [cons_val_zero, cons_val_one] at hlo
  have htlo := hloss.trans_lt hlo
  have hver := (C98_quasi_verdict (C104_rb_oracle (e := uncTest) (p := 20) (A := 40) (k := 30.5) (a := ![0.1, 0.4]) (v := ![10, 35])
    (by norm_num) (by norm_num [uncTest]) (by norm_num [uncTest]) (by norm_num [uncTest]) (by norm_num [uncTest])
    (by norm_num [uncTest]) (by norm_num [uncTest]) (by norm_num [uncTest]) hv) hE le_rfl (RbReach.refl _) hrun).1
  norm_num at hYlo hYhi htlo
  have htpos : 0 < t := by linarith
  rcases hver with ⟨-, h⟩ | ⟨y, h1, -, h2⟩
  · linarith
  have htop := hopt y h2.1 t h2.2.1
  norm_num at htop
  refine ⟨?_, ⟨y, h1, h2⟩, fun z hz s hs => ?_, ?_, ?_⟩
  · obtain ⟨s, i, -, -, -, hs, rfl⟩ := dc_ok hrun
    simp only [decide_eq_true_eq, ← hs]
    exact htpos.ne'
  · have := hopt z hz s hs
    norm_num at this ⊢
    linarith
  · norm_num; linarith
  · norm_num; linarith

/-- **C104** `test_profit` raises nothing, except after an exactly tangent cut, whatever the options (`max_it ≥ 1`, `tol > 0`). -/
theorem C104_test_profit_total {E₀ : Ell 2} (hinit : Ell.init (.diag fun _ => 100) 0 = .ok E₀) {o : Options ℝ} (hmax : 1 ≤ o.maxIt)
    (htol : 0 < o.tol) :
    (∃ r, cuttingPlaneDc (fun y t => liftOracle (profitOmega (Profit.init 20 40 30.5 ![0.1, 0.4] ![10, 35]) y t)) (Ell.space Unit 2) 0 o
      ((), E₀) = .ok r) ∨
    cuttingPlaneDc (fun y t => liftOracle (profitOmega (Profit.init 20 40 30.5 ![0.1, 0.4] ![10, 35]) y t)) (Ell.space Unit 2) 0 o
      ((), E₀) = .error .zeroDivision := by
  have hv : ∀ i, 0 < (![10, 35] : Fin 2 → ℝ) i := by intro i; fin_cases i <;> norm_num
  obtain ⟨ly, -, hYhi, hopt, -⟩ := profit_test_opt
  have hz0 : qty ![Real.log 64, Real.log 76] 0 = 64 := by rw [qty, cons_val_zero, Real.exp_log (by norm_num)]
  have hz1 : qty ![Real.log 64, Real.log 76] 1 = 76 := Real.exp_log (by norm_num)
  -- beyond the limit there is more profit
  have hbig : 3500 < profit 20 40 ![0.1, 0.4] ![10, 35] (qty ![Real.log 64, Real.log 76]) := by
    have h1 := cobb_eq (p := 20) (A := 40) (by norm_num) ![0.1, 0.4] ![Real.log 64, Real.log 76]
    rw [dot2] at h1
    simp only [cons_val_zero, cons_val_one] at h1
    have h2 : 6800 < Real.exp (Real.log (20 * 40) + (0.1 * Real.log 64 + 0.4 * Real.log 76)) := by
      refine lt_of_pow_lt_pow_left₀ 10 (Real.exp_pos _).le ?_
      rw [← Real.exp_nat_mul, show ((10 : ℕ) : ℝ) * (Real.log (20 * 40) + (0.1 * Real.log 64 + 0.4 * Real.log 76)) =
        ((10 : ℕ) : ℝ) * Real.log (20 * 40) + Real.log 64 + ((4 : ℕ) : ℝ) * Real.log 76 by push_cast; ring, Real.exp_add, Real.exp_add,
        Real.exp_nat_mul, Real.exp_nat_mul, Real.exp_log (by norm_num), Real.exp_log (by norm_num), Real.exp_log (by norm_num)]
      norm_num
    simp only [profit, cons_val_zero, cons_val_one]
    rw [← h1, hz0, hz1]
    linarith
  refine C104_profit_total (by norm_num) (by norm_num) hv (zs := ![Real.log 64, Real.log 76]) (fun y hy => ?_)
    (C24_ell_init_diag le_rfl (fun _ => by norm_num) hinit).1 hmax htol le_rfl (by linarith)
  have := hopt y hy
  norm_num at this hYhi
  linarith

set_option exponentiation.threshold 1100 in
/-- **C104** `test_profit_rb` raises nothing, except after an exactly tangent cut. -/
theorem C104_test_profit_rb_total {E₀ : Ell 2} (hinit : Ell.init (.diag fun _ => 100) 0 = .ok E₀) {o : Options ℝ} (hmax : 1 ≤ o.maxIt)
    (htol : 0 < o.tol) :
    (∃ r, cuttingPlaneDc (fun y t => liftOracle (rbOmega y t)) (Ell.space ProfitRb 2) 0 o
      (ProfitRb.init 20 40 30.5 ![0.1, 0.4] ![10, 35] 0.003 0.007 1 1 1, E₀) = .ok r) ∨
    cuttingPlaneDc (fun y t => liftOracle (rbOmega y t)) (Ell.space ProfitRb 2) 0 o
      (ProfitRb.init 20 40 30.5 ![0.1, 0.4] ![10, 35] 0.003 0.007 1 1 1, E₀) = .error .zeroDivision := by
  have hv : ∀ i, 0 < (![10, 35] : Fin 2 → ℝ) i := by intro i; fin_cases i <;> norm_num
  obtain ⟨ly, -, hYhi, hopt, -⟩ := profit_rb_test_opt
  have hz0 : qty ![Real.log 44, Real.log 60] 0 = 44 := by rw [qty, cons_val_zero, Real.exp_log (by norm_num)]
  have hz1 : qty ![Real.log 44, Real.log 60] 1 = 60 := Real.exp_log (by norm_num)
  have hbig : 2820 ≤ profit 19 40 ![0.097, 0.393] ![11, 36] (qty ![Real.log 44, Real.log 60]) := by
    have h1 := cobb_eq (p := 19) (A := 40) (by norm_num) ![0.097, 0.393] ![Real.log 44, Real.log 60]
    rw [dot2] at h1
    simp only [cons_val_zero, cons_val_one] at h1
    have h2 : 5464 < Real.exp (Real.log (19 * 40) + (0.097 * Real.log 44 + 0.393 * Real.log 60)) := by
      refine lt_of_pow_lt_pow_left₀ 1000 (Real.exp_pos _).le ?_
      rw [← Real.exp_nat_mul, show ((1000 : ℕ) : ℝ) * (Real.log (19 * 40) + (0.097 * Real.log 44 + 0.393 * Real.log 60)) =
        ((1000 : ℕ) : ℝ) * Real.log (19 * 40) + ((97 : ℕ) : ℝ) * Real.log 44 + ((393 : ℕ) : ℝ) * Real.log 60 by push_cast; ring,
        Real.exp_add, Real.exp_add, Real.exp_nat_mul, Real.exp_nat_mul, Real.exp_nat_mul, Real.exp_log (by norm_num),
        Real.exp_log (by norm_num), Real.exp_log (by norm_num)]
      norm_num
    simp only [profit, cons_val_zero, cons_val_one]
    rw [← h1, hz0, hz1]
    linarith
  have hguar : Guaranteed uncTest 20 40 ![0.1, 0.4] ![10, 35] (qty ![Real.log 44, Real.log 60]) 2820 := by
    refine (guaranteed_iff (e := uncTest) (p := 20) (A := 40) (a := ![0.1, 0.4]) (v := ![10, 35])
      (o := ProfitRb.init 20 40 30.5 ![0.1, 0.4] ![10, 35] 0.003 0.007 1 1 1) (by norm_num) (by norm_num [uncTest])
      (by norm_num [uncTest]) (by norm_num [uncTest]) (by norm_num [uncTest]) (by norm_num [uncTest]) rfl rfl _ _).2 ?_
    have e1 : (ProfitRb.init 20 40 30.5 ![0.1, 0.4] ![10, 35] 0.003 0.007 1 1 1).aRb ![Real.log 44, Real.log 60] = ![0.097, 0.393] := by
      funext i
      fin_cases i
      · have : 0 < Real.log 44 := Real.log_pos (by norm_num)
        change (0.1 : ℝ) + (if 0 < Real.log 44 then -0.003 else 0.003) = 0.097
        rw [if_pos this]; norm_num
      · have : 0 < Real.log 60 := Real.log_pos (by norm_num)
        change (0.4 : ℝ) + (if 0 < Real.log 60 then -0.007 else 0.007) = 0.393
        rw [if_pos this]; norm_num
    have e2 : (fun i => (![10, 35] : Fin 2 → ℝ) i + uncTest.e5) = ![11, 36] := by
      funext i; fin_cases i <;> norm_num [uncTest]
    have e3 : (20 : ℝ) - uncTest.e3 = 19 := by norm_num [uncTest]
    rw [e1, e2, e3]
    exact hbig
  refine C104_rb_total (e := uncTest) (p := 20) (A := 40) (k := 30.5) (a := ![0.1, 0.4]) (v := ![10, 35])
    (by norm_num) (by norm_num [uncTest]) (by norm_num [uncTest]) (by norm_num [uncTest]) (by norm_num [uncTest])
    (by norm_num [uncTest]) (by norm_num [uncTest]) (by norm_num [uncTest]) hv hguar (fun y hy s hs => ?_)
    (C24_ell_init_diag le_rfl (fun _ => by norm_num) hinit).1 hmax htol le_rfl (by norm_num)
  have := hopt y hy s hs
  norm_num at this hYhi
  linarith

end Verif
