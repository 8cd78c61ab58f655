import Verif.Props.Convex
import Verif.Props.Mle

/-!
# C95: maximum likelihood estimation end to end

`cutting_plane_dc(mle_oracle(Sig, Y), ell(R², x₀), t0)`, the core of `mle_corr_poly` and `mle_corr_bspline`
(`corr_oracle.py`, `corr_bspline_oracle.py`).
-/
namespace Verif
open Matrix Ell
variable {n m : ℕ}

/-- `mle_oracle` as the `Omega` of `cutting_plane_dc`. -/
noncomputable def mleOmega (Sig : Fin n → Matrix (Fin m) (Fin m) ℝ) (Y : Matrix (Fin m) (Fin m) ℝ) (x : Fin n → ℝ) (t : WithTop ℝ)
    (o : MleOracle) : Except PyErr (MleOracle × ((Fin n → ℝ) × Beta) × Option (WithTop ℝ)) :=
  (mleCall (fun q => arr (Sig q)) (arr Y) m x t o).map fun r => (r.1, (r.2.1.1, .scalar r.2.1.2), r.2.2)

theorem mle_roomOracle {Sig : Fin n → Matrix (Fin m) (Fin m) ℝ} {Y : Matrix (Fin m) (Fin m) ℝ}
    (hSig : ∀ q, (Sig q).IsHermitian) (hY : Y.IsHermitian) :
    RoomOracle id (MleRoom Sig Y) (mleObj Sig Y) (fun o => Ready m o.lmi0 ∧ Ready m o.lmi) (mleOmega Sig Y) := by
  rintro x t o ⟨h0, h1⟩
  obtain ⟨o', g, b, t1, e1, e2, e3, e4, -, e6, e7⟩ := C40_mle Sig Y hSig hY x t h0 h1
  refine ⟨o', g, b, t1, by simp [mleOmega, e1, Except.map], ⟨e2, e3⟩, e6, fun s hs => ?_, e7⟩
  obtain ⟨a1, a2, a3, a4⟩ := (e4 s).1 hs
  exact ⟨⟨a2, by simpa using a2.posSemidef, by simpa using a1.posSemidef⟩, a3, a4.le⟩

theorem omegaOf_combo (Sig : Fin n → Matrix (Fin m) (Fin m) ℝ) (u v : Fin n → ℝ) (a b : ℝ) :
    omegaOf Sig (a • u + b • v) = a • omegaOf Sig u + b • omegaOf Sig v := by
  simp only [omegaOf, Pi.add_apply, Pi.smul_apply, smul_eq_mul, add_smul, mul_smul, Finset.sum_add_distrib, Finset.smul_sum]

theorem posDef_root {A : Matrix (Fin m) (Fin m) ℝ} (hA : A.PosDef) : ∃ R : Matrix (Fin m) (Fin m) ℝ, IsUnit R.det ∧ A = Rᵀ * R := by
  obtain ⟨P, b, -, hb, -, h⟩ := simul_diag (A := 1) (R := 1) (by simp) (by simp) hA
  have hR : A = (diagonal (fun i => √(b i)) * Pᵀ)ᵀ * (diagonal (fun i => √(b i)) * Pᵀ) := by
    rw [transpose_mul, transpose_transpose, diagonal_transpose, Matrix.mul_assoc, ← Matrix.mul_assoc (diagonal _) (diagonal _),
      diagonal_mul_diagonal, ← Matrix.mul_assoc]
    simp only [fun i => Real.mul_self_sqrt (hb i).le]
    exact h
  refine ⟨_, ?_, hR⟩
  have := hA.det_pos.ne'
  rw [hR, det_mul, det_transpose] at this
  exact (left_ne_zero_of_mul this).isUnit

/-- The likelihood is convex on `0 ≺ Ω ⪯ 2Y`. -/
theorem mle_roomConvex (Sig : Fin n → Matrix (Fin m) (Fin m) ℝ) (Y : Matrix (Fin m) (Fin m) ℝ) : RoomConvex (MleRoom Sig Y) (mleObj Sig Y) := by
  intro u v δ θ hδ h0 h1 hu hv
  have h1' : 0 ≤ 1 - θ := sub_nonneg.2 h1
  set z := (1 - θ) • u + θ • v with hz
  have hO : omegaOf Sig z = (1 - θ) • omegaOf Sig u + θ • omegaOf Sig v := omegaOf_combo Sig u v _ _
  have hpd : (omegaOf Sig z).PosDef := by
    rw [hO]
    rcases eq_or_lt_of_le h0 with rfl | h0
    · simpa using hu.1
    · exact PosDef.posSemidef_add (hu.1.posSemidef.smul h1') (hv.1.smul h0)
  have hroom : MleRoom Sig Y z (θ * δ) := by
    refine ⟨hpd, ?_, ?_⟩
    · have := (hu.2.1.smul h1').add (hv.2.1.smul h0)
      convert this using 1
      rw [hO]; module
    · have := (hu.2.2.smul h1').add (hv.2.2.smul h0)
      convert this using 1
      rw [hO]; module
  refine ⟨hroom, ?_⟩
  have hroom0 : ∀ y d, 0 ≤ d → MleRoom Sig Y y d → ((2 : ℝ) • Y - omegaOf Sig y).PosSemidef := fun y d hd hy => by
    have := hy.2.2.add ((PosSemidef.one (n := Fin m) (R := ℝ)).smul hd)
    rwa [sub_add_cancel] at this
  -- subgradient at `z`
  have hu2 := hroom0 u 0 le_rfl hu
  have hv2 := hroom0 v δ hδ hv
  have hz2 := hroom0 z (θ * δ) (mul_nonneg h0 hδ) hroom
  obtain ⟨R, hRu, hR⟩ := posDef_root hpd
  have su := mle_subgrad hRu hR hu.1 hz2 hu2
  have sv := mle_subgrad hRu hR hv.1 hz2 hv2
  have e : (1 - θ) • (omegaOf Sig u - omegaOf Sig z) + θ • (omegaOf Sig v - omegaOf Sig z) = 0 := by
    rw [hO]; module
  have key : (1 - θ) * (((omegaOf Sig z)⁻¹ * (omegaOf Sig u - omegaOf Sig z)).trace -
        ((omegaOf Sig z)⁻¹ * (omegaOf Sig u - omegaOf Sig z) * ((omegaOf Sig z)⁻¹ * Y)).trace) +
      θ * (((omegaOf Sig z)⁻¹ * (omegaOf Sig v - omegaOf Sig z)).trace -
        ((omegaOf Sig z)⁻¹ * (omegaOf Sig v - omegaOf Sig z) * ((omegaOf Sig z)⁻¹ * Y)).trace) = 0 := by
    have t1 := congrArg (fun M => ((omegaOf Sig z)⁻¹ * M).trace) e
    have t2 := congrArg (fun M => ((omegaOf Sig z)⁻¹ * M * ((omegaOf Sig z)⁻¹ * Y)).trace) e
    simp only [Matrix.mul_add, Matrix.add_mul, Matrix.mul_smul, Matrix.smul_mul, trace_add, trace_smul, smul_eq_mul, Matrix.mul_zero,
      Matrix.zero_mul, trace_zero] at t1 t2
    linarith
  have k1 := mul_le_mul_of_nonneg_left su h1'
  have k2 := mul_le_mul_of_nonneg_left sv h0
  unfold mleObj
  linarith

/-- **C95** (convexity).  For all matrices `Σ_q`, `Y` the negative log likelihood `log det Ω + tr(Ω⁻¹ Y)` is a convex function of the
coefficients on the set `0 ≺ Ω ⪯ 2Y`, and that set is convex. -/
theorem C95_mle_convex (Sig : Fin n → Matrix (Fin m) (Fin m) ℝ) (Y : Matrix (Fin m) (Fin m) ℝ) :
    ConvexOn ℝ {x | (omegaOf Sig x).PosDef ∧ ((2 : ℝ) • Y - omegaOf Sig x).PosSemidef} (mleObj Sig Y) := by
  have room : ∀ {x}, (omegaOf Sig x).PosDef → ((2 : ℝ) • Y - omegaOf Sig x).PosSemidef → MleRoom Sig Y x 0 :=
    fun h1 h2 => ⟨h1, by simpa using h1.posSemidef, by simpa using h2⟩
  have key : ∀ x y : Fin n → ℝ, ∀ a b : ℝ, 0 ≤ a → 0 ≤ b → a + b = 1 → MleRoom Sig Y x 0 → MleRoom Sig Y y 0 →
      MleRoom Sig Y (a • x + b • y) 0 ∧ mleObj Sig Y (a • x + b • y) ≤ a * mleObj Sig Y x + b * mleObj Sig Y y := by
    intro x y a b ha hb hab hx hy
    have := mle_roomConvex Sig Y x y 0 b le_rfl hb (by linarith) hx hy
    rwa [mul_zero, ← hab, add_sub_cancel_right] at this
  refine ⟨fun x hx y hy a b ha hb hab => ?_, fun x hx y hy a b ha hb hab =>
    (key x y a b ha hb hab (room hx.1 hx.2) (room hy.1 hy.2)).2⟩
  have := (key x y a b ha hb hab (room hx.1 hx.2) (room hy.1 hy.2)).1
  exact ⟨this.1, by simpa using this.2.2⟩

/-- **C95** (verdict).  For symmetric `Σ_q`, `Y` and an oracle object in any state of earlier use, any start level (`inf` in `mle_corr_core`): the returned level is the
initial one or the likelihood at the returned point, which satisfies `0 ≺ Ω ⪯ 2Y`; if the run stopped by itself, every
point `z` of the initial ellipsoid with `δI ⪯ Ω(z) ⪯ 2Y - δI`, `Ω(z) ≻ 0`, `tol ≤ δ²`, has likelihood above `t - δ`. -/
theorem C95_mle_verdict {Sig : Fin n → Matrix (Fin m) (Fin m) ℝ} {Y : Matrix (Fin m) (Fin m) ℝ}
    (hSig : ∀ q, (Sig q).IsHermitian) (hY : Y.IsHermitian) {E₀ E : Ell n} (hE : E₀.WF) {opt : Options ℝ} {t0 t : WithTop ℝ}
    {xb : Option (Fin n → ℝ)} {info : CInfo} {o₀ o : MleOracle} (h0 : Ready m o₀.lmi0) (h1 : Ready m o₀.lmi)
    (hr : cuttingPlaneDc (fun x t => liftOracle (mleOmega Sig Y x t)) (Ell.space MleOracle n) t0 opt (o₀, E₀) =
      .ok ((o, E), xb, t, info)) :
    ((xb = none ∧ t = t0) ∨ ∃ x, xb = some x ∧ (omegaOf Sig x).PosDef ∧ ((2 : ℝ) • Y - omegaOf Sig x).PosSemidef ∧
      t = ((mleObj Sig Y x : ℝ) : WithTop ℝ) ∧ t ≤ t0) ∧
    (info.status ≠ .success → ∀ z ∈ E₀.pts, ∀ δ, 0 ≤ δ → opt.tol ≤ δ ^ 2 → MleRoom Sig Y z δ →
      t < ((mleObj Sig Y z + δ : ℝ) : WithTop ℝ)) := by
  obtain ⟨k1, k2⟩ := C92_room_verdict (mle_roomOracle hSig hY) hE ⟨h0, h1⟩ hr
  refine ⟨k1.imp_right ?_, k2⟩
  rintro ⟨x, a1, a2, a3, a4⟩
  exact ⟨x, a1, a2.1, by simpa using a2.2.2, a3, a4⟩

/-- **C95** (accuracy).  A ball of radius `ρ` around `a` inside the initial ball on which `ηI ⪯ Ω ⪯ 2Y - ηI`, `Ω ≻ 0` and the
likelihood is at most `M`; `p` any point of the initial ball with `0 ≺ Ω(p) ⪯ 2Y`.  For `ε > 0`, `θ ∈ (0,1]` with
`θ·(M - L(p)) ≤ ε/2`, `tol ≤ (ε/2)²`, `tol ≤ (θη)²`, `max_it > 2n(n+1)·ln(R/(θρ))`: every run that returns has a level
below `L(p) + ε`. -/
theorem C95_mle_accuracy (hn : 2 ≤ n) {Sig : Fin n → Matrix (Fin m) (Fin m) ℝ} {Y : Matrix (Fin m) (Fin m) ℝ}
    (hSig : ∀ q, (Sig q).IsHermitian) (hY : Y.IsHermitian) {E₀ : Ell n} {x₀ a p : Fin n → ℝ} {R ρ η M ε θ : ℝ} (hρ : 0 < ρ)
    (hη : 0 < η) (hinit : Ell.init (.scalar (R ^ 2)) x₀ = .ok E₀) (hball : euclBall a ρ ⊆ euclBall x₀ R)
    (hslater : ∀ z ∈ euclBall a ρ, MleRoom Sig Y z η ∧ mleObj Sig Y z ≤ M) (hpR : p ∈ euclBall x₀ R)
    (hp : (omegaOf Sig p).PosDef) (hp' : ((2 : ℝ) • Y - omegaOf Sig p).PosSemidef) (hε : 0 < ε) (hθ : 0 < θ) (hθ1 : θ ≤ 1)
    (hθM : θ * (M - mleObj Sig Y p) ≤ ε / 2) {opt : Options ℝ} (htol : opt.tol ≤ (ε / 2) ^ 2) (htol' : opt.tol ≤ (θ * η) ^ 2)
    (hmax : 2 * (n : ℝ) * ((n : ℝ) + 1) * Real.log (R / (θ * ρ)) < opt.maxIt) {o₀ : MleOracle} (h0 : Ready m o₀.lmi0)
    (h1 : Ready m o₀.lmi) (t0 : WithTop ℝ) :
    (∀ o E xb t info, cuttingPlaneDc (fun x t => liftOracle (mleOmega Sig Y x t)) (Ell.space MleOracle n) t0 opt (o₀, E₀) =
      .ok ((o, E), xb, t, info) → t < ((mleObj Sig Y p + ε : ℝ) : WithTop ℝ)) ∧
    ∃ (j : ℕ) (l : _) (u : _) (u' : _) (cut : _) (t1 : _), (j : ℝ) ≤ 2 * (n : ℝ) * ((n : ℝ) + 1) * Real.log (R / (θ * ρ)) ∧
      DcRounds (fun x t => liftOracle (mleOmega Sig Y x t)) (Ell.space MleOracle n) opt.tol t0 (o₀, E₀) j l u ∧
      mleOmega Sig Y u.2.xc (bestT t0 l) u.1 = .ok (u', cut, t1) ∧ 
      t1.getD (bestT t0 l) < ((mleObj Sig Y p + ε : ℝ) : WithTop ℝ) :=
  C92_room_complexity hn (mle_roomConvex Sig Y) (mle_roomOracle hSig hY)
    (fun z d d' hd hz => by
      have hs := (PosSemidef.one (n := Fin m) (R := ℝ)).smul (sub_nonneg.2 hd)
      refine ⟨hz.1, ?_, ?_⟩
      · convert hz.2.1.add hs using 1; module
      · convert hz.2.2.add hs using 1; module)
    hρ hη hinit hball hslater hpR ⟨hp, by simpa using hp.posSemidef, by simpa using hp'⟩ hε hθ hθ1 hθM htol htol' hmax
    ⟨h0, h1⟩ t0

/-- `Ω(x) = diag(x₀ + x₁, x₀ - x₁)`, `Y = I`, start `(1, 0)`, `R = 1`, any start level, the default options: every run that returns has a
level below `L(I) + 1 = 3`. -/
example (t0 : WithTop ℝ) (E₀ : Ell 2) (hinit : Ell.init (.scalar ((1 : ℝ) ^ 2)) ![1, 0] = .ok E₀) :
    ∀ o E xb t info, cuttingPlaneDc (fun x t => liftOracle (mleOmega ![(1 : Matrix (Fin 2) (Fin 2) ℝ), diagonal ![1, -1]] 1 x t))
      (Ell.space MleOracle 2) t0 ⟨2000, 1 / 10 ^ 8⟩ (⟨CholExt.init 2, CholExt.init 2⟩, E₀) = .ok ((o, E), xb, t, info) → t < ((3 : ℝ) : WithTop ℝ) := by
  have hO : ∀ z : Fin 2 → ℝ, omegaOf ![(1 : Matrix (Fin 2) (Fin 2) ℝ), diagonal ![1, -1]] z = diagonal ![z 0 + z 1, z 0 - z 1] := by
    intro z
    ext i j
    fin_cases i <;> fin_cases j <;> (simp [omegaOf, Fin.sum_univ_two]; try ring)
  have hobj : ∀ z : Fin 2 → ℝ, 0 < z 0 + z 1 → 0 < z 0 - z 1 → mleObj ![(1 : Matrix (Fin 2) (Fin 2) ℝ), diagonal ![1, -1]] 1 z =
      Real.log (z 0 + z 1) + Real.log (z 0 - z 1) + (z 0 + z 1)⁻¹ + (z 0 - z 1)⁻¹ := by
    intro z h0 h1
    have hi : (diagonal ![z 0 + z 1, z 0 - z 1])⁻¹ = diagonal ![(z 0 + z 1)⁻¹, (z 0 - z 1)⁻¹] := by
      refine inv_eq_left_inv ?_
      rw [diagonal_mul_diagonal, ← diagonal_one]
      congr 1
      funext i
      fin_cases i
      · exact inv_mul_cancel₀ h0.ne'
      · exact inv_mul_cancel₀ h1.ne'
    rw [mleObj, hO, hi, Matrix.mul_one, det_diagonal, trace_diagonal, Fin.prod_univ_two, Fin.sum_univ_two]
    show Real.log ((z 0 + z 1) * (z 0 - z 1)) + ((z 0 + z 1)⁻¹ + (z 0 - z 1)⁻¹) = _
    rw [Real.log_mul h0.ne' h1.ne']
    ring
  have hroom : ∀ (z : Fin 2 → ℝ) η, 0 < z 0 + z 1 → 0 < z 0 - z 1 → η ≤ z 0 + z 1 → η ≤ z 0 - z 1 → z 0 + z 1 ≤ 2 - η →
      z 0 - z 1 ≤ 2 - η → MleRoom ![(1 : Matrix (Fin 2) (Fin 2) ℝ), diagonal ![1, -1]] 1 z η := by
    intro z η h0 h1 h2 h3 h4 h5
    refine ⟨?_, ?_, ?_⟩ <;> rw [hO]
    · rw [posDef_diagonal_iff]
      intro i; fin_cases i
      · exact h0
      · exact h1
    · rw [smul_one_eq_diagonal, diagonal_sub, posSemidef_diagonal_iff]
      intro i; fin_cases i
      · exact sub_nonneg.2 h2
      · exact sub_nonneg.2 h3
    · rw [smul_one_eq_diagonal, smul_one_eq_diagonal, diagonal_sub, diagonal_sub, posSemidef_diagonal_iff]
      intro i; fin_cases i
      · show 0 ≤ 2 - (z 0 + z 1) - η; linarith
      · show 0 ≤ 2 - (z 0 - z 1) - η; linarith
  have hp : mleObj ![(1 : Matrix (Fin 2) (Fin 2) ℝ), diagonal ![1, -1]] 1 ![1, 0] = 2 := by
    rw [hobj] <;> norm_num
  have hpr := hroom ![1, 0] 0 (by norm_num) (by norm_num) (by norm_num) (by norm_num) (by norm_num) (by norm_num)
  have key := C95_mle_accuracy (n := 2) (m := 2) le_rfl (Sig := ![(1 : Matrix (Fin 2) (Fin 2) ℝ), diagonal ![1, -1]]) (Y := 1)
    (by intro q; fin_cases q
        · exact isHermitian_one
        · exact isHermitian_diagonal _) isHermitian_one (x₀ := ![1, 0]) (a := ![1, 0]) (p := ![1, 0]) (R := 1) (ρ := 1 / 2) (η := 1 / 4)
    (M := 19 / 2) (ε := 1) (θ := 1 / 15) (by norm_num) (by norm_num) hinit
    (fun z hz => ?_) (fun z hz => ?_) ?_ hpr.1 (by simpa using hpr.2.2) one_pos (by norm_num) (by norm_num) (by rw [hp]; norm_num)
    (opt := ⟨2000, 1 / 10 ^ 8⟩) (by norm_num) (by norm_num) ?_ (o₀ := ⟨CholExt.init 2, CholExt.init 2⟩) (ready_init 2) (ready_init 2) t0
  · intro o E xb t info h
    have := key.1 o E xb t info h
    rw [hp] at this
    convert this using 2
    norm_num
  · simp only [euclBall, Set.mem_ofPred_eq, Fin.sum_univ_two] at hz ⊢
    linarith
  · simp only [euclBall, Set.mem_ofPred_eq, Fin.sum_univ_two, cons_val_zero, cons_val_one] at hz
    have b1 : |z 0 - 1 + z 1| ≤ 3 / 4 := abs_le_of_sq_le_sq (by nlinarith [sq_nonneg (z 0 - 1 - z 1)]) (by norm_num)
    have b2 : |z 0 - 1 - z 1| ≤ 3 / 4 := abs_le_of_sq_le_sq (by nlinarith [sq_nonneg (z 0 - 1 + z 1)]) (by norm_num)
    rw [abs_le] at b1 b2
    have c1 : 0 < z 0 + z 1 := by linarith
    have c2 : 0 < z 0 - z 1 := by linarith
    refine ⟨hroom z _ c1 c2 (by linarith) (by linarith) (by linarith) (by linarith), ?_⟩
    rw [hobj z c1 c2]
    have l1 := Real.log_le_sub_one_of_pos c1
    have l2 := Real.log_le_sub_one_of_pos c2
    have l3 : (z 0 + z 1)⁻¹ ≤ 4 := inv_le_of_inv_le₀ (by norm_num) (by linarith)
    have l4 : (z 0 - z 1)⁻¹ ≤ 4 := inv_le_of_inv_le₀ (by norm_num) (by linarith)
    linarith
  · simp [euclBall]
  · have := Real.log_le_sub_one_of_pos (show (0:ℝ) < 1 / (1 / 15 * (1 / 2)) by norm_num)
    norm_num at this ⊢
    linarith

end Verif
