import Verif.Proofs.EllVolume
import Verif.Proofs.EllOptimal
import Verif.Props.Ell

/-! # C21: the volume decreases -/
namespace Verif
open Matrix MeasureTheory Ell
variable {n : ℕ} {E E' : Ell n} {g : Fin n → ℝ} {st : CUTStatus} {tsq : ℝ}

/-- A well-formed ellipsoid that is not proper is flat. -/
theorem Ell.flat_of_not_proper (hE : E.WF) (h : ¬ E.Proper) :
    ∃ y : Fin n → ℝ, y ≠ 0 ∧ E.pts ⊆ {x | y ⬝ᵥ (x - E.xc) = 0} := by
  have key : ∃ y : Fin n → ℝ, y ≠ 0 ∧ E.kappa * (y ⬝ᵥ E.Q *ᵥ y) = 0 := by
    by_contra hc
    push Not at hc
    apply h
    obtain ⟨hs, hp⟩ := psd_iff.1 hE.psd
    have hn := hE.dim
    have hk : E.kappa ≠ 0 := by
      intro h0
      refine hc (fun _ => 1) (fun h1 => ?_) (by rw [h0, zero_mul])
      have := congrFun h1 ⟨0, by omega⟩
      simp at this
    refine ⟨hE.dim, pd_iff.2 ⟨hs, fun x hx => ?_⟩, lt_of_le_of_ne hE.kappa (Ne.symm hk)⟩
    refine lt_of_le_of_ne (hp x) fun h0 => hc x hx ?_
    rw [← h0, mul_zero]
  obtain ⟨y, hy, h0⟩ := key
  refine ⟨y, hy, fun x hx => ?_⟩
  have := hx y
  rw [h0] at this
  exact pow_eq_zero_iff (two_ne_zero) |>.1 (le_antisymm this (sq_nonneg _))

theorem volume_hyperplane {y c : Fin n → ℝ} (hy : y ≠ 0) :
    volume {x : Fin n → ℝ | y ⬝ᵥ (x - c) = 0} = 0 := by
  let f : (Fin n → ℝ) →ₗ[ℝ] ℝ :=
    { toFun := fun x => y ⬝ᵥ x
      map_add' := fun a b => dotProduct_add _ _ _
      map_smul' := fun a b => by simp [dotProduct_smul] }
  have hne : LinearMap.ker f ≠ ⊤ := by
    intro h
    have : y ∈ LinearMap.ker f := by rw [h]; trivial
    exact hy (dotProduct_self_eq_zero.1 this)
  have h0 := Measure.addHaar_submodule (volume : Measure (Fin n → ℝ)) (LinearMap.ker f) hne
  have : {x : Fin n → ℝ | y ⬝ᵥ (x - c) = 0} =
      (fun x => -c + x) ⁻¹' (LinearMap.ker f : Set (Fin n → ℝ)) := by
    ext x
    simp only [Set.mem_ofPred_eq, Set.mem_preimage, SetLike.mem_coe, LinearMap.mem_ker]
    change _ ↔ y ⬝ᵥ (-c + x) = 0
    rw [neg_add_eq_sub]
  rw [this, measure_preimage_add, h0]

theorem Ell.vsq_eq_zero (hE : E.WF) (h : ¬ E.Proper) : E.vsq = 0 := by
  unfold Ell.vsq
  by_cases hk : E.kappa = 0
  · rw [hk, zero_pow (by have := hE.dim; omega), zero_mul]
  · have hk' : 0 < E.kappa := lt_of_le_of_ne hE.kappa (Ne.symm hk)
    have : ¬ E.Q.PosDef := fun hp => h ⟨hE.dim, hp, hk'⟩
    rw [hE.psd.posDef_iff_det_ne_zero, not_not] at this
    rw [this, mul_zero]

/-- Volume of the denoted set, for every well-formed object (zero for flat ones). -/
theorem Ell.volume_pts' (hE : E.WF) :
    volume E.pts = ENNReal.ofReal (√E.vsq) * volume (euclBall (0 : Fin n → ℝ) 1) := by
  by_cases h : E.Proper
  · exact Ell.volume_pts h
  · rw [Ell.vsq_eq_zero hE h]
    obtain ⟨y, hy, hsub⟩ := Ell.flat_of_not_proper hE h
    have := measure_mono (μ := volume) hsub
    rw [volume_hyperplane hy] at this
    have h0 : volume E.pts = 0 := by simpa using this
    simp [h0]

theorem euclBall_volume_pos : 0 < volume (euclBall (0 : Fin n → ℝ) 1) := by
  have hop : IsOpen {x : Fin n → ℝ | ∑ i, (x i - (0 : Fin n → ℝ) i) ^ 2 < 1} := by
    apply isOpen_lt <;> fun_prop
  have hpos := hop.measure_pos volume ⟨0, by simp⟩
  refine lt_of_lt_of_le hpos (measure_mono fun x hx => ?_)
  have : ∑ i, (x i - (0 : Fin n → ℝ) i) ^ 2 < 1 := hx
  change _ ≤ (1 : ℝ) ^ 2
  linarith

theorem euclBall_volume_lt_top : volume (euclBall (0 : Fin n → ℝ) 1) < ⊤ := by
  have hsub : euclBall (0 : Fin n → ℝ) 1 ⊆ Metric.closedBall 0 1 := by
    intro x hx
    have hx : ∑ i, (x i - (0 : Fin n → ℝ) i) ^ 2 ≤ 1 ^ 2 := hx
    rw [mem_closedBall_zero_iff, pi_norm_le_iff_of_nonneg zero_le_one]
    intro i
    have h1 : (x i) ^ 2 ≤ 1 := by
      have := Finset.single_le_sum (f := fun i => (x i - (0 : Fin n → ℝ) i) ^ 2)
        (fun i _ => sq_nonneg _) (Finset.mem_univ i)
      simp only [Pi.zero_apply, sub_zero] at this hx
      linarith
    rw [Real.norm_eq_abs, abs_le]
    exact abs_le.1 ((sq_le_one_iff_abs_le_one _).1 h1)
  exact lt_of_le_of_lt (measure_mono hsub) (isCompact_closedBall _ _).measure_lt_top

/-- Effective normalised bounds `(b0/τ, b1/τ)` of a cut; a single-sided cut is the slab with `b1 = τ`. -/
noncomputable def Ell.bounds (up : Bool) (tsq : ℝ) : Beta → ℝ × ℝ
  | .scalar b => (b / √tsq, 1)
  | .seq [] => (0, 0)
  | .seq [b] => (b / √tsq, 1)
  | .seq (b0 :: b1 :: _) => if tsq < b1 ^ 2 ∨ up = false then (b0 / √tsq, 1) else (b0 / √tsq, b1 / √tsq)

/-- What `par_optimal` gives. -/
structure Ell.Optimal (n : ℕ) (x y σ δ : ℝ) : Prop where
  s0 : 0 ≤ σ
  s1 : σ < 1
  d : (1 - σ) * δ = pencil x y σ
  zero : σ = 0 ↔ (n : ℝ) * (x * y) = -1
  min : ∀ s, 0 ≤ s → s < 1 → s ≠ σ → logVol n x y σ < logVol n x y s
  stat : pencil x y σ = n * ((σ * (x + y) / 2 - x) * (y - σ * (x + y) / 2))

private theorem DcCase.optimal (hn : 2 ≤ n) {τ b ρ σ δ : ℝ} (hτ : 0 < τ) (hb : b < τ)
    (h : DcCase n (τ ^ 2) b (.accept ρ σ δ)) :
    -1 < (n : ℝ) * (b / τ * 1) ∧ Optimal n (b / τ) 1 σ δ := by
  have hn' : (2 : ℝ) ≤ n := by exact_mod_cast hn
  have h1 : (n : ℝ) * n - 1 ≠ 0 := by nlinarith
  have key : 0 < τ + n * b → σ = 2 * ((τ + n * b) / (n + 1)) / (τ + b) →
      δ = c1 n * (1 - b * (b / τ ^ 2)) → -1 < (n : ℝ) * (b / τ * 1) ∧ Optimal n (b / τ) 1 σ δ := by
    intro hg hσ hδ
    have hp := (range_deep hn hτ hb.le hg).1
    obtain ⟨x, rfl⟩ : ∃ x, b = τ * x := ⟨b / τ, by field_simp⟩
    have hx1 : x < 1 := by nlinarith
    have hx2 : 0 < 1 + x := by
      by_contra hc; nlinarith
    have hxn : -1 < (n : ℝ) * (x * 1) := by
      by_contra hc; nlinarith
    have e : τ * x / τ = x := by field_simp
    rw [e]
    refine ⟨hxn, ?_⟩
    have hξ0 : 0 ≤ (n : ℝ) * (1 - x ^ 2) / 2 := by
      have : 0 ≤ 1 - x ^ 2 := by nlinarith
      positivity
    obtain ⟨o1, o2, o3, o4, o5, o6⟩ := par_optimal (n := n) (x := x) (y := 1) (σ := σ) (δ := δ) hn
      (ξ := (n : ℝ) * (1 - x ^ 2) / 2) (by norm_num) (by norm_num) hx1 hx1 hxn.le (by linarith) hξ0
      (by ring) (by
        have hx2' : x + 1 ≠ 0 := by linarith
        have e5 : τ + τ * x = τ * (x + 1) := by ring
        rw [hσ, e5]; field_simp; ring)
      (by rw [hδ]; congr 1; field_simp; ring)
    exact ⟨o1, o2, o3, o4, o5, o6⟩
  generalize hr : Calc.accept ρ σ δ = r at h
  cases h with
  | nosoln => simp at hr
  | noeffect => simp at hr
  | central hb0 =>
    subst hb0
    simp only [calcCc, Calc.accept.injEq] at hr
    obtain ⟨rfl, rfl, rfl⟩ := hr
    refine key (by linarith) ?_ ?_
    · unfold c2; field_simp; ring
    · simp
  | deep h1 h2 h3 h4 h5 =>
    simp only [Calc.accept.injEq] at hr
    obtain ⟨rfl, rfl, rfl⟩ := hr
    rw [Real.sqrt_sq hτ.le] at *
    exact key h3 rfl rfl

/-- The cut leaves at most half of the ellipsoid: right-hand side `β ≥ 0` (deep or central), for a
parallel cut `b0 ≥ 0`. -/
def Ell.deepBeta : Beta → Prop
  | .scalar b => 0 ≤ b
  | .seq [] => False
  | .seq (b :: _) => 0 ≤ b

/-- The cut is exactly at the boundary where an update has no effect. -/
def Ell.neutralBeta (n : ℕ) (tsq : ℝ) : Beta → Prop
  | .seq (b0 :: b1 :: _) => n * (b0 * b1) = -tsq
  | _ => False

private theorem DcCase.lt {τ b ρ σ δ : ℝ} (hτ : 0 < τ) (hδ : 0 < δ)
    (h : DcCase n (τ ^ 2) b (.accept ρ σ δ)) : b < τ := by
  generalize hr : Calc.accept ρ σ δ = r at h
  cases h with
  | nosoln => simp at hr
  | noeffect => simp at hr
  | central hb => rw [hb]; exact hτ
  | deep h1 h2 h3 h4 h5 =>
    rw [Real.sqrt_sq hτ.le] at h1
    refine lt_of_le_of_ne h1 ?_
    rintro rfl
    simp only [Calc.accept.injEq] at hr
    have hd : δ = 0 := by
      rw [hr.2.2]
      have : b * (b / b ^ 2) = 1 := by field_simp
      rw [this]; ring
    linarith

theorem CalcCase.optimal (hn : 2 ≤ n) {up b ρ σ δ} {tsq : ℝ} (ht : 0 < tsq)
    (hσ1 : σ < 1) (hδ0 : 0 < δ) (h : CalcCase n up tsq b (.accept ρ σ δ)) :
    (bounds up tsq b).1 < 1 ∧ (bounds up tsq b).1 < (bounds up tsq b).2 ∧
    -1 < (bounds up tsq b).2 ∧ (bounds up tsq b).2 ≤ 1 ∧
    Optimal n (bounds up tsq b).1 (bounds up tsq b).2 σ δ ∧
    (¬ neutralBeta n tsq b → (n : ℝ) * ((bounds up tsq b).1 * (bounds up tsq b).2) ≠ -1) ∧
    (deepBeta b → 0 ≤ (bounds up tsq b).1) := by
  obtain ⟨τ, hτ, rfl⟩ : ∃ τ : ℝ, 0 < τ ∧ tsq = τ ^ 2 :=
    ⟨√tsq, Real.sqrt_pos.2 ht, (Real.sq_sqrt ht.le).symm⟩
  have hs : √(τ ^ 2) = τ := Real.sqrt_sq hτ.le
  have dc : ∀ {b}, DcCase n (τ ^ 2) b (.accept ρ σ δ) → b / τ < 1 ∧ b / τ < 1 ∧
      (-1 : ℝ) < 1 ∧ (1 : ℝ) ≤ 1 ∧ Optimal n (b / τ) 1 σ δ ∧ (n : ℝ) * (b / τ * 1) ≠ -1 := by
    intro b h
    have hb := DcCase.lt hτ hδ0 h
    have : b / τ < 1 := by rwa [div_lt_one hτ]
    obtain ⟨h1, h2⟩ := DcCase.optimal hn hτ hb h
    exact ⟨this, this, by norm_num, le_rfl, h2, h1.ne'⟩
  cases h with
  | scalar h =>
    simp only [bounds, hs] at *
    obtain ⟨h1, h2, h3, h4, h5, h6⟩ := dc h
    exact ⟨h1, h2, h3, h4, h5, fun _ => h6, fun h => div_nonneg h hτ.le⟩
  | single h =>
    simp only [bounds, hs] at *
    obtain ⟨h1, h2, h3, h4, h5, h6⟩ := dc h
    exact ⟨h1, h2, h3, h4, h5, fun _ => h6, fun h => div_nonneg h hτ.le⟩
  | @par b0 b1 l _ h0 h =>
    have e1 : 1 - b1 * (b1 / τ ^ 2) < 0 ↔ τ ^ 2 < b1 ^ 2 := by
      rw [sub_neg, ← mul_div_assoc, one_lt_div (by positivity), sq b1]
    generalize hr : Calc.accept ρ σ δ = r at h
    cases h with
    | fallback hf hd =>
      subst hr
      have : bounds up (τ ^ 2) (.seq (b0 :: b1 :: l)) = (b0 / τ, 1) := by
        simp only [bounds, hs]; rw [if_pos (by rwa [e1] at hf)]
      rw [this]
      obtain ⟨h1, h2, h3, h4, h5, h6⟩ := dc hd
      exact ⟨h1, h2, h3, h4, h5, fun _ => h6, fun h => div_nonneg h hτ.le⟩
    | nosoln => simp at hr
    | noeffect => simp at hr
    | parallel h1 h2 h3 h4 h5 =>
      simp only [Calc.accept.injEq] at hr
      obtain ⟨rfl, rfl, rfl⟩ := hr
      have hle : ¬ τ ^ 2 < b1 ^ 2 := by rw [← e1]; exact not_lt.2 h2
      have : bounds up (τ ^ 2) (.seq (b0 :: b1 :: l)) = (b0 / τ, b1 / τ) := by
        simp only [bounds, hs]; rw [if_neg (by simp [h1, not_lt.1 hle])]
      rw [this]
      have hb01 : b0 ≠ b1 := (par_facts hn hτ h2 h3 h4 h5).2.1.1 hσ1
      obtain ⟨x, rfl⟩ : ∃ x, b0 = τ * x := ⟨b0 / τ, by field_simp⟩
      obtain ⟨y, rfl⟩ : ∃ y, b1 = τ * y := ⟨b1 / τ, by field_simp⟩
      have ex : τ * x / τ = x := by field_simp
      have ey : τ * y / τ = y := by field_simp
      have e1 : τ * y * (τ * y / τ ^ 2) = y ^ 2 := by field_simp
      have e2 : τ * x * (τ * y / τ ^ 2) = x * y := by field_simp
      have e3 : τ * x * (τ * x / τ ^ 2) = x ^ 2 := by field_simp
      simp only [ex, ey]
      rw [e1] at h2
      rw [e2] at h4
      have hxy : x < y := lt_of_mul_lt_mul_left (lt_of_le_of_ne h3 hb01) hτ.le
      have hy2 : y ^ 2 ≤ 1 := by linarith
      have hy3 := abs_le.1 ((sq_le_one_iff_abs_le_one y).1 hy2)
      have hx1 : x < 1 := by linarith [hy3.2]
      have hξ := parXi_sq n hτ x y
      have hy1 : -1 < y := by
        refine lt_of_le_of_ne hy3.1 ?_
        rintro rfl
        have hx2 : 0 ≤ x ^ 2 - 1 := by nlinarith
        have hz : parXi n (τ ^ 2) (τ * x) (τ * -1) = n / 2 * (x ^ 2 - 1) := by
          rw [hξ]
          have : (1 - x ^ 2) * (1 - (-1) ^ 2) + ((n : ℝ) / 2 * (x + -1) * (-1 - x)) ^ 2 =
            (n / 2 * (x ^ 2 - 1)) ^ 2 := by ring
          rw [this, Real.sqrt_sq (by positivity)]
        have hn' : (n : ℝ) ≠ 0 := by positivity
        have : parDelta n (τ ^ 2) (τ * x) (τ * -1) = 0 := by
          unfold parDelta; rw [hz, e1, e3]
          have : (1 - x ^ 2 + (1 - (-1 : ℝ) ^ 2)) / 2 + (n : ℝ) / 2 * (x ^ 2 - 1) / n = 0 := by
            field_simp; ring
          rw [this, mul_zero]
        linarith
      have hsum : x + y ≠ 0 := by intro h; apply h5; rw [← mul_add, h, mul_zero]
      obtain ⟨o1, o2, o3, o4, o5, o6⟩ := par_optimal (n := n) (x := x) (y := y)
        (ξ := parXi n (τ ^ 2) (τ * x) (τ * y))
        (σ := parSigma n (τ ^ 2) (τ * x) (τ * y)) (δ := parDelta n (τ ^ 2) (τ * x) (τ * y)) hn
        (by linarith) hy1 hx1 hxy h4 hsum (by rw [hξ]; positivity)
        (by rw [hξ, Real.sq_sqrt (par_arg_nonneg hn x y)])
        (by unfold parSigma; rw [e2]; congr 2; field_simp) (by unfold parDelta; rw [e1, e3])
      refine ⟨hx1, hxy, hy1, hy3.2, ⟨o1, o2, o3, o4, o5, o6⟩, fun hne h => hne ?_, fun h => ?_⟩
      · change (n : ℝ) * (τ * x * (τ * y)) = -τ ^ 2
        linear_combination τ ^ 2 * h
      · change 0 ≤ τ * x at h
        exact nonneg_of_mul_nonneg_right h hτ

/-- The bound of the central cut: `logVol` at `σ = 2/(n+1)` for the half ball. -/
theorem logVol_rate (hn : 2 ≤ n) {x y : ℝ} (hx : 0 ≤ x) (hxy : x < y) (hx1 : x < 1) (hy : y ≤ 1) :
    logVol n x y (2 / (n + 1)) ≤ -(1 / (n + 1)) := by
  have hn' : (2 : ℝ) ≤ n := by exact_mod_cast hn
  have h0 : (0 : ℝ) ≤ 2 / (n + 1) := by positivity
  have h1 : (2 : ℝ) / (n + 1) < 1 := by rw [div_lt_one (by linarith)]; linarith
  have hP := pencil_pos hxy hx1 (by linarith) h0 h1
  set s := (2 : ℝ) / (n + 1) with hs
  -- compare with the half ball
  have hcmp : pencil x y s ≤ (1 - s / 2) ^ 2 := by
    unfold pencil
    have hs1 : s ≤ 1 := h1.le
    have : s * (x + y) ^ 2 / 4 - x * y ≤ s / 4 := by
      have a1 : 0 ≤ x * (y - x) := mul_nonneg hx (by linarith)
      nlinarith [mul_nonneg hx (show 0 ≤ y by linarith), sq_nonneg (y - x), sq_nonneg x,
        mul_nonneg h0 (mul_nonneg hx (show 0 ≤ y by linarith)), mul_nonneg hx hx,
        mul_nonneg (sub_nonneg.2 hs1) (mul_nonneg hx (show 0 ≤ y by linarith)),
        mul_nonneg h0 (show 0 ≤ 1 - y ^ 2 by nlinarith)]
    nlinarith [mul_le_mul_of_nonneg_left this h0]
  have hA : 0 < 1 - s / 2 := by linarith
  have hle : logVol n x y s ≤ n * (2 * Real.log (1 - s / 2)) - (n - 1) * Real.log (1 - s) := by
    unfold logVol
    have := Real.log_le_log hP hcmp
    rw [Real.log_pow] at this
    push_cast at this
    have := mul_le_mul_of_nonneg_left this (show (0 : ℝ) ≤ n by linarith)
    linarith
  refine hle.trans ?_
  have e1 : 1 - s / 2 = n / (n + 1) := by rw [hs]; field_simp; ring
  have e2 : 1 - s = (n - 1) / (n + 1) := by rw [hs]; field_simp; ring
  have hn0 : (0 : ℝ) < n := by linarith
  have hn1 : (0 : ℝ) < n - 1 := by linarith
  have hn2 : (0 : ℝ) < n + 1 := by linarith
  rw [e1, e2]
  -- n·2·log(n/(n+1)) - (n-1)·log((n-1)/(n+1)) = 2 log(n/(n+1)) + (n-1) log(n²/(n²-1))
  have e3 : n * (2 * Real.log (n / (n + 1))) - (n - 1) * Real.log (((n : ℝ) - 1) / (n + 1)) =
      2 * Real.log (n / (n + 1)) + (n - 1) * Real.log ((n : ℝ) ^ 2 / ((n - 1) * (n + 1))) := by
    rw [Real.log_div hn0.ne' hn2.ne', Real.log_div hn1.ne' hn2.ne',
      Real.log_div (by positivity) (by positivity), Real.log_mul hn1.ne' hn2.ne', Real.log_pow]
    push_cast; ring
  rw [e3]
  have l1 : Real.log ((n : ℝ) / (n + 1)) ≤ -(1 / (n + 1)) := by
    have := Real.log_le_sub_one_of_pos (show 0 < (n : ℝ) / (n + 1) by positivity)
    have e : (n : ℝ) / (n + 1) - 1 = -(1 / (n + 1)) := by field_simp; ring
    linarith
  have l2 : Real.log ((n : ℝ) ^ 2 / ((n - 1) * (n + 1))) ≤ 1 / ((n - 1) * (n + 1)) := by
    have := Real.log_le_sub_one_of_pos (show 0 < (n : ℝ) ^ 2 / ((n - 1) * (n + 1)) by positivity)
    have e : (n : ℝ) ^ 2 / ((n - 1) * (n + 1)) - 1 = 1 / ((n - 1) * (n + 1)) := by field_simp; ring
    linarith
  have l3 : ((n : ℝ) - 1) * (1 / ((n - 1) * (n + 1))) = 1 / (n + 1) := by field_simp
  have := mul_le_mul_of_nonneg_left l2 hn1.le
  linarith

theorem Ell.vsq_step (hE : E.WF) {b : Beta}
    (h : update (g, b) E = .ok (E', .success, tsq)) :
    E'.vsq ≤ E.vsq ∧
    (E.Proper → ¬ neutralBeta n tsq b → E'.vsq < E.vsq) ∧
    (deepBeta b → E'.vsq ≤ Real.exp (-(1 / ((n : ℝ) + 1))) * E.vsq) := by
  have hn' : (2 : ℝ) ≤ n := by exact_mod_cast hE.dim
  have hwf' := update_wf hE h
  have hexp : 0 < Real.exp (-(1 / ((n : ℝ) + 1))) := Real.exp_pos _
  by_cases hP' : E'.Proper
  swap
  · rw [Ell.vsq_eq_zero hwf' hP']
    exact ⟨vsq_nonneg hE, fun h _ => vsq_pos h, fun _ => mul_nonneg hexp.le (vsq_nonneg hE)⟩
  obtain ⟨rfl, ⟨hc, -⟩ | ⟨-, h0, ρ, σ, δ, hc, rfl⟩⟩ := update_ok hE h
  · rcases hc.reject with h | h <;> simp at h
  have hω : 0 < g ⬝ᵥ E.Q *ᵥ g := lt_of_le_of_ne ((psd_iff.1 hE.psd).2 g) (Ne.symm h0)
  have hvp : 0 < (after E g ρ σ δ).vsq := vsq_pos hP'
  rw [vsq_after h0] at hvp
  obtain ⟨hr, hk⟩ := hc.keeps hE.dim (tsq_nonneg hE g)
  have hEv : 0 < E.vsq := by
    rcases eq_or_lt_of_le (vsq_nonneg hE) with h | h
    · rw [← h, mul_zero] at hvp; exact absurd hvp (lt_irrefl _)
    · exact h
  have hE' : E.Proper := by
    by_contra hc; rw [Ell.vsq_eq_zero hE hc] at hEv; exact lt_irrefl _ hEv
  have ht := mul_pos hE'.kappa hω
  set t := E.kappa * (g ⬝ᵥ E.Q *ᵥ g) with htd
  have hd1 : 0 < δ ^ n * (1 - σ) := by
    by_contra hc
    have := mul_nonpos_of_nonpos_of_nonneg (not_lt.1 hc) hEv.le
    linarith
  have hσ1 : σ < 1 := by
    rcases eq_or_lt_of_le hr.s1 with h | h
    · rw [h] at hd1; simp at hd1
    · exact h
  have hδ0 : 0 < δ := by
    rcases eq_or_lt_of_le hr.d0 with h | h
    · rw [← h, zero_pow (by have := hE.dim; omega)] at hd1; simp at hd1
    · exact h
  obtain ⟨o1, o2, o3, o4, opt, o6, o7⟩ := CalcCase.optimal hE.dim ht hσ1 hδ0 hc
  rw [vsq_after h0]
  set x := (bounds E.usePar t b).1
  set y := (bounds E.usePar t b).2
  have hlog : δ ^ n * (1 - σ) = Real.exp (logVol n x y σ) :=
    ratio_eq_exp o2 o1 o3 opt.s0 opt.s1 opt.d
  have hz : logVol n x y 0 = 0 := by simp [logVol, pencil]
  rw [hlog]
  have hlt : σ ≠ 0 → Real.exp (logVol n x y σ) < 1 := by
    intro hne
    have := opt.min 0 le_rfl one_pos (Ne.symm hne)
    rw [hz] at this
    rwa [Real.exp_lt_one_iff]
  refine ⟨?_, fun _ hne => ?_, fun hd => ?_⟩
  · by_cases hs : σ = 0
    · rw [hs, hz, Real.exp_zero, one_mul]
    · nlinarith [hlt hs]
  · have := hlt (fun h => o6 hne (opt.zero.1 h))
    nlinarith
  · refine mul_le_mul_of_nonneg_right (Real.exp_le_exp.2 ?_) hEv.le
    refine le_trans ?_ (logVol_rate hE.dim (o7 hd) o2 o1 o4)
    by_cases hs : (2 : ℝ) / (n + 1) = σ
    · rw [hs]
    · refine (opt.min _ (by positivity) ?_ hs).le
      rw [div_lt_one (by linarith)]; linarith

/-- **C21 (monotone).** No successful update increases the volume of the ellipsoid. -/
theorem C21_ell_volume_le (hE : E.WF) {b : Beta} (h : update (g, b) E = .ok (E', .success, tsq)) :
    volume E'.pts ≤ volume E.pts := by
  rw [volume_pts' hE, volume_pts' (update_wf hE h)]
  gcongr
  exact (Ell.vsq_step hE h).1

/-- **C21 (strict).** Every successful update of a proper ellipsoid strictly decreases the volume;
the only exception is a parallel cut with `n·b0·b1 = -tsq` exactly. -/
theorem C21_ell_volume_lt (hE : E.Proper) {b : Beta}
    (h : update (g, b) E = .ok (E', .success, tsq)) (hb : ¬ neutralBeta n tsq b) :
    volume E'.pts < volume E.pts := by
  rw [volume_pts' hE.wf, volume_pts' (update_wf hE.wf h)]
  refine ENNReal.mul_lt_mul_left (euclBall_volume_pos).ne' euclBall_volume_lt_top.ne ?_
  rw [ENNReal.ofReal_lt_ofReal_iff (Real.sqrt_pos.2 (vsq_pos hE))]
  exact Real.sqrt_lt_sqrt (vsq_nonneg (update_wf hE.wf h)) ((Ell.vsq_step hE.wf h).2.1 hE hb)

/-- **C21 (rate).** A central or deep cut (`β ≥ 0`; for a parallel cut `b0 ≥ 0`) multiplies the
volume by at most `exp (-1/(2(n+1)))`. -/
theorem C21_ell_volume_rate (hE : E.WF) {b : Beta} (hb : deepBeta b)
    (h : update (g, b) E = .ok (E', .success, tsq)) :
    volume E'.pts ≤ ENNReal.ofReal (Real.exp (-(1 / (2 * ((n : ℝ) + 1))))) * volume E.pts := by
  rw [volume_pts' hE, volume_pts' (update_wf hE h), ← mul_assoc,
    ← ENNReal.ofReal_mul (Real.exp_pos _).le]
  gcongr
  refine (Real.sqrt_le_sqrt ((Ell.vsq_step hE h).2.2 hb)).trans (le_of_eq ?_)
  rw [Real.sqrt_mul (Real.exp_pos _).le, ← Real.exp_half]
  congr 2; field_simp

end Verif
