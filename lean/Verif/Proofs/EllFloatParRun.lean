import Verif.Proofs.EllFloatPar
import Verif.Proofs.EllFloatRun
import Verif.Proofs.EllWide

/-! # Rounded updates with cuts of any kind: forms and volumes -/
namespace Verif
open Matrix MeasureTheory Ell
variable {n : ℕ} {E E' : Ell n} {g : Fin n → ℝ} {C ε u η t θ τ b0 b1 tsq : ℝ} {fl : ℝ → ℝ} {dot : (Fin n → ℝ) → (Fin n → ℝ) → ℝ}

/-! ### The exact parameters -/

theorem ParF.Ctx.delta_le {x y : ℝ} (h : ParF.Ctx n t θ x y) : ParF.deltaP n x y ≤ 8 / 3 := by
  have hn' := h.hn'
  have hθ := h.hθ
  have hc1 : 0 < c1 n ∧ c1 n ≤ 4 / 3 := by
    unfold c1
    refine ⟨div_pos (by positivity) (by nlinarith), ?_⟩
    rw [div_le_iff₀ (by nlinarith)]; nlinarith
  unfold ParF.deltaP
  have := mul_le_mul hc1.2 h.zeta_le (by linarith [h.zeta_ge]) (by norm_num)
  linarith

/-- A parallel cut shrinks the volume at least as much as a central cut. -/
theorem ParF.Ctx.rate {x y : ℝ} (h : ParF.Ctx n t θ x y) :
    ParF.deltaP n x y ^ n * (1 - ParF.sigmaP n x y) ≤ Real.exp (-(1 / ((n : ℝ) + 1))) := by
  have hn' := h.hn'
  have hx := h.hx; have hxy := h.hxy; have hy := h.hy; have hθ := h.hθ
  obtain ⟨a, b, c, d⟩ := h.x2
  obtain ⟨o1, o2, o3, -, o5, -⟩ := par_optimal (x := x) (y := y) (σ := ParF.sigmaP n x y) (δ := ParF.deltaP n x y) h.hn d (by linarith) (by linarith)
    (by linarith) (by have : 0 ≤ (n : ℝ) * (x * y) := mul_nonneg (by linarith) (mul_nonneg hx (by linarith)); linarith) (by linarith)
    h.xi_pos.le h.xi_sq rfl rfl
  rw [ratio_eq_exp (by linarith) (by linarith) (by linarith) o1 o2 o3]
  refine Real.exp_le_exp.2 (le_trans ?_ (logVol_rate h.hn hx (by linarith) (by linarith) hy))
  by_cases hs : (2 : ℝ) / (n + 1) = ParF.sigmaP n x y
  · rw [hs]
  · refine (o5 _ (by positivity) ?_ hs).le
    rw [div_lt_one (by linarith)]; linarith

/-! ### The rounded parameters, wherever the second bound is -/

set_option maxHeartbeats 1000000 in
theorem par_params (hn : 2 ≤ n) (hfl : RelErr u fl) (hu0 : 0 ≤ u) (hu : u ≤ t) (hτ : 0 < τ) (htsq : Rel (41 / 10 * t) tsq (τ ^ 2)) (hθ : 0 < θ)
    (hb0 : 0 ≤ b0) (hd : b0 ≤ (1 - θ) * τ) (hw : b0 + θ * τ ≤ b1) (ht : 100000 * t ≤ θ ^ 2) :
    calcLlCoreF fl n true tsq b0 b1 = calcDcF fl n tsq b0 ∨
    ∃ ρ σ δ ρ' σ' δ', calcLlCoreF fl n true tsq b0 b1 = .ok (.accept ρ' σ' δ', tsq) ∧ |ρ' - ρ| ≤ 2500 * (t / θ ^ 2) * τ ∧
      |σ' - σ| ≤ 2500 * (t / θ ^ 2) ∧ Rel (2500 * (t / θ ^ 2)) δ' δ ∧ |ρ| ≤ τ ∧ 0 ≤ σ ∧ θ ^ 2 / 16 ≤ 1 - σ ∧ 0 < δ ∧ θ ^ 2 / 16 ≤ δ * (1 - σ) ∧
      δ ≤ 3 ∧ δ ^ n * (1 - σ) ≤ (1 + 8 * t) ^ n * Real.exp (-(1 / ((n : ℝ) + 1))) ∧
      ∀ v, v + b0 ≤ 0 → 0 ≤ v + b1 → KeepsAt (τ ^ 2) ρ σ δ v := by
  have ht0 : 0 ≤ t := hu0.trans hu
  have hθ1 : θ ≤ 1 := by
    by_contra hc
    have : (1 - θ) * τ < 0 := mul_neg_of_neg_of_pos (by linarith) hτ
    linarith
  have hθ2 : 0 < θ ^ 2 := by positivity
  have hθ21 : θ ^ 2 ≤ 1 := pow_le_one₀ hθ.le hθ1
  have hθτ : 0 < θ * τ := by positivity
  have ht1 : t ≤ 1 / 100000 := by linarith
  have htd : t ≤ t / θ ^ 2 := by
    rw [le_div_iff₀ hθ2]
    have := mul_le_mul_of_nonneg_left hθ21 ht0
    linarith
  have htd0 : 0 ≤ t / θ ^ 2 := by positivity
  rcases le_or_gt b1 τ with hb1 | hb1
  · have hctx : ParF.Ctx n t θ (b0 / τ) (b1 / τ) :=
      ⟨hn, by positivity, hθ, by rw [div_add' _ _ _ hτ.ne', div_le_div_iff_of_pos_right hτ]; exact hw,
        by rw [div_le_one hτ]; exact hb1, ht0, by linarith⟩
    have hcore := ParF.core_err hctx hfl hu0 hu hτ htsq
    rw [mul_div_cancel₀ _ hτ.ne', mul_div_cancel₀ _ hτ.ne'] at hcore
    rcases hcore with h | ⟨ρ', σ', δ', hc, hρ', hσ', hδ'⟩
    · exact .inl h
    obtain ⟨s0, s1, d0, d1, hk⟩ := hctx.exact
    have hr := hctx.rate
    have hdl := hctx.delta_le
    have hx0 := hctx.hx
    have hxy := hctx.hxy
    have hy1 := hctx.hy
    set x := b0 / τ with hx
    set y := b1 / τ with hy
    refine .inr ⟨_, _, _, ρ', σ', δ', hc, hρ'.trans (mul_le_mul_of_nonneg_right (by linarith) hτ.le), hσ'.trans (by linarith),
      hδ'.mono (by linarith), ?_, s0, by linarith, d0, by linarith, by linarith, ?_, fun v h1 h2 => ?_⟩
    · rw [abs_mul, abs_of_pos hτ]
      refine mul_le_of_le_one_right hτ.le ?_
      have e0 : 0 ≤ (x + y) / 2 := by linarith
      have e1 : (x + y) / 2 ≤ 1 := by linarith
      rw [abs_of_nonneg (mul_nonneg s0 e0)]
      exact mul_le_one₀ (by linarith) e0 e1
    · refine hr.trans ?_
      have : (1 : ℝ) ≤ (1 + 8 * t) ^ n := one_le_pow₀ (by linarith)
      have := mul_le_mul_of_nonneg_right this (Real.exp_pos (-(1 / ((n : ℝ) + 1)))).le
      linarith
    · have := (hk (v / τ) (by rw [hx, ← add_div]; exact div_nonpos_of_nonpos_of_nonneg h1 hτ.le)
        (by rw [hy, ← add_div]; exact div_nonneg h2 hτ.le)).scale (τ := τ)
      rwa [mul_div_cancel₀ _ hτ.ne'] at this
  · -- the second bound is beyond the ellipsoid
    have htsq0 : 0 < tsq := htsq.pos (by positivity) (by linarith)
    have hb1p : 0 < b1 := hτ.trans hb1
    have hdt : divF fl b1 tsq = .ok (fl (b1 / tsq)) := by unfold divF pyDiv; rw [if_neg htsq0.ne']; rfl
    by_cases hneg : fl (1 - fl (b1 * fl (b1 / tsq))) < 0
    · left
      simp only [calcLlCoreF, hdt, bind, Except.bind]
      rw [if_pos (Or.inl hneg)]
    have habs := abs_le.1 (htsq.absn (sq_nonneg τ))
    have hτ2 : 0 < τ ^ 2 := by positivity
    have hsq : b1 ^ 2 ≤ (1 + 8 * t) * τ ^ 2 := by
      by_contra hc
      apply hneg
      have h1 : (1 - t) * (b1 / tsq) ≤ fl (b1 / tsq) :=
        (mul_le_mul_of_nonneg_right (by linarith) (by positivity)).trans ((Rel.of_fl hfl (b1 / tsq)).lower (by positivity))
      have h2 : (1 - t) * (b1 * fl (b1 / tsq)) ≤ fl (b1 * fl (b1 / tsq)) := by
        have h0 : 0 ≤ b1 * fl (b1 / tsq) := mul_nonneg hb1p.le (fl_nonneg hfl (by linarith) (by positivity))
        exact (mul_le_mul_of_nonneg_right (by linarith) h0).trans ((Rel.of_fl hfl (b1 * fl (b1 / tsq))).lower h0)
      have h3 : (1 - t) * (b1 * ((1 - t) * (b1 / tsq))) ≤ (1 - t) * (b1 * fl (b1 / tsq)) :=
        mul_le_mul_of_nonneg_left (mul_le_mul_of_nonneg_left h1 hb1p.le) (by linarith)
      have h4 : 1 < (1 - t) * (b1 * ((1 - t) * (b1 / tsq))) := by
        have e : (1 - t) * (b1 * ((1 - t) * (b1 / tsq))) = (1 - t) ^ 2 * b1 ^ 2 / tsq := by field_simp
        rw [e, one_lt_div htsq0]
        have e1 : (1 - t) ^ 2 * ((1 + 8 * t) * τ ^ 2) < (1 - t) ^ 2 * b1 ^ 2 :=
          mul_lt_mul_of_pos_left (not_le.1 hc) (by have : 0 < 1 - t := by linarith
                                                   positivity)
        have e2 : (1 + 41 / 10 * t) * τ ^ 2 ≤ (1 - t) ^ 2 * ((1 + 8 * t) * τ ^ 2) := by
          rw [← mul_assoc]
          refine mul_le_mul_of_nonneg_right ?_ hτ2.le
          nlinarith [mul_nonneg ht0 ht0, mul_nonneg ht0 (mul_nonneg ht0 ht0)]
        linarith
      have h5 : 1 - fl (b1 * fl (b1 / tsq)) < 0 := by linarith
      have h6 := hfl (1 - fl (b1 * fl (b1 / tsq)))
      rw [abs_of_neg h5] at h6
      have h7 := (abs_le.1 h6).2
      have h8 : u * -(1 - fl (b1 * fl (b1 / tsq))) < 1 * -(1 - fl (b1 * fl (b1 / tsq))) := mul_lt_mul_of_pos_right (by linarith) (by linarith)
      linarith
    have hτ1 : b1 ≤ (1 + 5 * t) * τ := by
      refine le_of_sq_le_sq ?_ (by positivity) 
      rw [mul_pow]
      refine hsq.trans (mul_le_mul_of_nonneg_right ?_ hτ2.le)
      nlinarith
    have hrel : Rel (41 / 10 * (3 * t)) tsq (b1 ^ 2) := by
      unfold Rel
      have e0 : τ ^ 2 ≤ b1 ^ 2 := pow_le_pow_left₀ hτ.le hb1.le 2
      rw [abs_of_pos (show 0 < b1 ^ 2 by positivity), abs_le]
      have e1 : t * τ ^ 2 ≤ t * b1 ^ 2 := mul_le_mul_of_nonneg_left e0 ht0
      constructor <;> linarith
    have hctx : ParF.Ctx n (3 * t) (9 / 10 * θ) (b0 / b1) 1 := by
      refine ⟨hn, by positivity, by positivity, ?_, le_rfl, by positivity, by nlinarith⟩
      rw [div_add' _ _ _ hb1p.ne', div_le_one hb1p]
      have : 9 / 10 * θ * b1 ≤ θ * τ := by nlinarith
      linarith
    have hcore := ParF.core_err hctx hfl hu0 (by linarith) hb1p hrel
    rw [mul_div_cancel₀ _ hb1p.ne', mul_one] at hcore
    rcases hcore with h | ⟨ρ', σ', δ', hc, hρ', hσ', hδ'⟩
    · exact .inl h
    obtain ⟨s0, s1, d0, d1, hk⟩ := hctx.exact
    have hr := hctx.rate
    have hdl := hctx.delta_le
    have hx0 := hctx.hx
    have hxy := hctx.hxy
    set x := b0 / b1 with hx
    set σ := ParF.sigmaP n x 1
    set δ := ParF.deltaP n x 1
    set r := b1 ^ 2 / τ ^ 2 with hrd
    have hr1 : 1 ≤ r := by rw [hrd, one_le_div hτ2]; exact pow_le_pow_left₀ hτ.le hb1.le 2
    have hr2 : r ≤ 1 + 8 * t := by rw [hrd, div_le_iff₀ hτ2]; exact hsq
    have he : 650 * (3 * t / (9 / 10 * θ) ^ 2) = 65000 / 27 * (t / θ ^ 2) := by
      rw [show (9 / 10 * θ) ^ 2 = 81 / 100 * θ ^ 2 by ring, mul_div_mul_comm]; ring
    rw [he] at hρ' hσ' hδ'
    have hdr : δ ≤ δ * r := le_mul_of_one_le_right d0.le hr1
    refine .inr ⟨b1 * (σ * ((x + 1) / 2)), σ, δ * r, ρ', σ', δ', hc, hρ'.trans ?_, hσ'.trans (by linarith), ?_, ?_, s0, by linarith, by positivity, ?_, ?_, ?_,
      fun v h1 h2 => ?_⟩
    · have e1 : 65000 / 27 * (t / θ ^ 2) * b1 ≤ 65000 / 27 * (t / θ ^ 2) * ((1 + 5 * t) * τ) := mul_le_mul_of_nonneg_left hτ1 (by positivity)
      refine e1.trans ?_
      have e2 : 65000 / 27 * (1 + 5 * t) ≤ 2500 := by linarith
      have e3 := mul_le_mul_of_nonneg_right e2 (show 0 ≤ t / θ ^ 2 * τ by positivity)
      linarith
    · unfold Rel at hδ' ⊢
      rw [abs_of_pos d0] at hδ'
      rw [abs_of_pos (show 0 < δ * r by positivity)]
      have e1 : δ * r - δ ≤ 8 * t * δ := by nlinarith
      have e2 : |δ' - δ * r| ≤ |δ' - δ| + |δ - δ * r| := by
        have := abs_add_le (δ' - δ) (δ - δ * r)
        rwa [sub_add_sub_cancel] at this
      rw [abs_sub_comm δ, abs_of_nonneg (by linarith : 0 ≤ δ * r - δ)] at e2
      have e3 : t * δ ≤ t / θ ^ 2 * δ := mul_le_mul_of_nonneg_right htd d0.le
      have e4 : t / θ ^ 2 * δ ≤ t / θ ^ 2 * (δ * r) := mul_le_mul_of_nonneg_left hdr htd0
      have e5 : 0 ≤ t / θ ^ 2 * δ := by positivity
      linarith
    · have e0 : 0 ≤ (x + 1) / 2 := by linarith
      have e1 : (x + 1) / 2 ≤ 1 := by linarith
      have e2 : σ * ((x + 1) / 2) ≤ 1 - θ ^ 2 / 16 := (mul_le_of_le_one_right s0 e1).trans (by nlinarith)
      rw [abs_of_nonneg (mul_nonneg hb1p.le (mul_nonneg s0 e0))]
      have e3 := mul_le_mul hτ1 e2 (mul_nonneg s0 e0) (by positivity)
      refine e3.trans ?_
      have e4 : (1 + 5 * t) * (1 - θ ^ 2 / 16) ≤ 1 := by nlinarith
      have := mul_le_mul_of_nonneg_right e4 hτ.le
      linarith
    · have e1 : δ * (1 - σ) ≤ δ * r * (1 - σ) := mul_le_mul_of_nonneg_right hdr (by nlinarith)
      nlinarith
    · have e1 : δ * r ≤ 8 / 3 * (1 + 8 * t) := mul_le_mul hdl hr2 (by linarith) (by norm_num)
      linarith
    · rw [mul_pow, mul_right_comm]
      have e1 := mul_le_mul hr (pow_le_pow_left₀ (by linarith) hr2 n) (by positivity) (Real.exp_pos _).le
      linarith
    · have hk' := (hk (v / b1) (by rw [hx, ← add_div]; exact div_nonpos_of_nonpos_of_nonneg h1 hb1p.le)
        (by rw [show (1 : ℝ) = b1 / b1 by field_simp, ← add_div]; exact div_nonneg h2 hb1p.le)).scale (τ := b1)
      rw [mul_div_cancel₀ _ hb1p.ne'] at hk'
      obtain ⟨k1, k2⟩ := hk'
      have e : τ ^ 2 * (δ * r) = b1 ^ 2 * δ := by rw [hrd]; field_simp
      have e0 : τ ^ 2 ≤ b1 ^ 2 := pow_le_pow_left₀ hτ.le hb1.le 2
      refine ⟨k1.trans ?_, ?_⟩
      · rw [e]
        exact mul_le_mul_of_nonneg_left (by linarith) (by nlinarith)
      · rw [e]; linarith

/-! ### One update -/

/-- An ellipsoid whose form is at most `c` times that of a scaled shape. -/
theorem form_vol (hE : E.Proper) (hg : g ≠ 0) {σ δ c r : ℝ} (hσ : σ < 1) (hδ : 0 < δ) (hc : 0 < c) (hr : c ^ n * (δ ^ n * (1 - σ)) ≤ r)
    (h : ∀ y, E'.kappa * (y ⬝ᵥ E'.Q *ᵥ y) ≤ c * (E.kappa * δ * (y ⬝ᵥ (shape E.Q g σ) *ᵥ y))) :
    volume.real E'.pts ≤ √r * volume.real E.pts := by
  have hω : 0 < g ⬝ᵥ E.Q *ᵥ g := (pd_iff.1 hE.pd).2 g hg
  set F : Ell n := ⟨true, false, E'.xc, shape E.Q g σ, c * (E.kappa * δ)⟩ with hF
  have hFp : F.Proper := ⟨hE.dim, shape_pd hE.pd hω.ne' hσ, mul_pos hc (mul_pos hE.kappa hδ)⟩
  have hsub : E'.pts ⊆ F.pts := fun x hx y => by
    refine (hx y).trans ((h y).trans (le_of_eq ?_))
    change _ = c * (E.kappa * δ) * (y ⬝ᵥ (shape E.Q g σ) *ᵥ y)
    ring
  refine (measureReal_mono hsub (volume_pts_ne_top hFp)).trans ?_
  have hr0 : 0 ≤ r := le_trans (mul_nonneg (by positivity) (mul_nonneg (by positivity) (by linarith))) hr
  rw [vol_pts hFp, vol_pts hE, ← mul_assoc, ← Real.sqrt_mul hr0]
  refine mul_le_mul_of_nonneg_right (Real.sqrt_le_sqrt ?_) euclBall_real_pos.le
  have e : F.vsq = c ^ n * (δ ^ n * (1 - σ)) * E.vsq := by
    rw [hF]; unfold Ell.vsq; dsimp only; rw [det_shape hω.ne']; ring
  rw [e]
  exact mul_le_mul_of_nonneg_right hr (vsq_pos hE).le

/-- The cut is not too deep, and the slab of a parallel cut is not too thin, against `τ`. -/
def Reach (θ τ : ℝ) : Beta → Prop
  | .scalar b => 0 ≤ b ∧ b ≤ (1 - θ) * τ
  | .seq [] => False
  | .seq [b] => 0 ≤ b ∧ b ≤ (1 - θ) * τ
  | .seq (b0 :: b1 :: _) => 0 ≤ b0 ∧ b0 ≤ (1 - θ) * τ ∧ b0 + θ * τ ≤ b1

/-- What one rounded update does to the form and the volume. -/
structure UpdateOK (C ε u θ : ℝ) (E : Ell n) (g : Fin n → ℝ) (S : Set (Fin n → ℝ)) (E' : Ell n) (tsq : ℝ) : Prop where
  proper : E'.Proper
  tau : |tsq - E.kappa * (g ⬝ᵥ E.Q *ᵥ g)| ≤ 5 * (C ^ 2 * ε) * (E.kappa * (g ⬝ᵥ E.Q *ᵥ g))
  keep : ∀ x ∈ S, ∀ y, |y ⬝ᵥ (x - E'.xc)| ≤ (1 + 3000000 * (C ^ 4 * ε / θ ^ 4)) * √(E'.kappa * (y ⬝ᵥ E'.Q *ᵥ y)) + u * ∑ i, |y i| * |E.xc i|
  low : ∀ y, θ ^ 2 / 36 * (E.kappa * (y ⬝ᵥ E.Q *ᵥ y)) ≤ E'.kappa * (y ⬝ᵥ E'.Q *ᵥ y)
  up : ∀ y, E'.kappa * (y ⬝ᵥ E'.Q *ᵥ y) ≤ 4 * (E.kappa * (y ⬝ᵥ E.Q *ᵥ y))
  vol : volume.real E'.pts ≤ √((1 + 3000000 * (C ^ 4 * ε / θ ^ 4)) ^ n) * Real.exp (-(1 / (2 * ((n : ℝ) + 1)))) * volume.real E.pts

section
variable (hE : E.Proper) (hfl : RelErr u fl) (hu0 : 0 ≤ u) (hu : u ≤ ε) (hdot : VecDotErr ε dot) (hC1 : 1 ≤ C) (hC : CondBound C E.Q) (hg : g ≠ 0)
  (hθ : 0 < θ) (hε : 100000000 * (C ^ 4 * ε) ≤ θ ^ 4)
include hE hfl hu0 hu hdot hC1 hC hg hθ hε

theorem deep_ok {β : ℝ} (hβ0 : 0 ≤ β) (hβ : β ≤ (1 - θ) * √(E.kappa * (g ⬝ᵥ E.Q *ᵥ g))) :
    ∃ E' tsq, updateF fl dot (g, .scalar β) E = .ok (E', .success, tsq) ∧ UpdateOK C ε u θ E g (E.pts ∩ cutSet E.xc (g, .scalar β)) E' tsq := by
  have hε0 : 0 ≤ ε := hu0.trans hu
  have hω : 0 < g ⬝ᵥ E.Q *ᵥ g := (pd_iff.1 hE.pd).2 g hg
  have ht : 0 < E.kappa * (g ⬝ᵥ E.Q *ᵥ g) := mul_pos hE.kappa hω
  have hτ0 : 0 < √(E.kappa * (g ⬝ᵥ E.Q *ᵥ g)) := Real.sqrt_pos.2 ht
  have hθ1 : θ ≤ 1 := by
    by_contra hc
    have := mul_neg_of_neg_of_pos (show 1 - θ < 0 by linarith) hτ0
    linarith
  have hθ42 : θ ^ 4 ≤ θ ^ 2 := pow_le_pow_of_le_one hθ.le hθ1 (by norm_num)
  have hw0 : 0 ≤ C ^ 4 * ε := by positivity
  have hw : C ^ 4 * ε / θ ^ 2 ≤ C ^ 4 * ε / θ ^ 4 := div_le_div_of_nonneg_left hw0 (by positivity) hθ42
  have hw4 : 0 ≤ C ^ 4 * ε / θ ^ 2 := by positivity
  have hw5 : C ^ 4 * ε / θ ^ 4 ≤ 1 / 100000000 := by rw [div_le_iff₀ (by positivity)]; linarith
  obtain ⟨E', tsq, h1, h2, h3, h4, h5, h6⟩ := update_sandwich hE hfl hu0 hu hdot hC1 hC hg hθ hβ0 hβ (by linarith)
  have hβ' : β < √(E.kappa * (g ⬝ᵥ E.Q *ᵥ g)) := by
    have := mul_pos hθ hτ0
    linarith
  refine ⟨E', tsq, h1, h2, h3, fun x hx y => (h4 x hx y).trans ?_, fun y => ?_, fun y => ?_, ?_⟩
  · gcongr ?_ * _ + _
    linarith
  · have hq : 0 ≤ E.kappa * (y ⬝ᵥ E.Q *ᵥ y) := mul_nonneg hE.kappa.le ((psd_iff.1 hE.pd.posSemidef).2 y)
    have := mul_le_mul_of_nonneg_right (show θ ^ 2 / 36 ≤ θ ^ 2 / 4 by have := sq_nonneg θ; linarith) hq
    exact this.trans (h5 y)
  · refine (h6 y).trans ?_
    have hq : 0 ≤ E.kappa * (y ⬝ᵥ E.Q *ᵥ y) := mul_nonneg hE.kappa.le ((psd_iff.1 hE.pd.posSemidef).2 y)
    set τ := √(E.kappa * (g ⬝ᵥ E.Q *ᵥ g)) with hτ
    obtain ⟨-, -, hσ, -, hδ, -⟩ := deep_bounds hE.dim hτ0 hβ0 hθ hβ
    have hn' : (2 : ℝ) ≤ n := by exact_mod_cast hE.dim
    have hc0 : 0 < c1 n := by unfold c1; exact div_pos (by positivity) (by nlinarith)
    have hc1 : c1 n ≤ 4 / 3 := by unfold c1; rw [div_le_iff₀ (by nlinarith)]; nlinarith
    have hδ1 : deltaD n τ β ≤ c1 n := by
      unfold deltaD
      have : 0 ≤ β * (β / τ ^ 2) := by positivity
      nlinarith
    have k1 := mul_le_mul_of_nonneg_left (shape_lower hE.pd.posSemidef hω hσ.le y).2 (show 0 ≤ E.kappa * deltaD n τ β from mul_nonneg hE.kappa.le hδ.le)
    have k2 := mul_le_mul_of_nonneg_right (hδ1.trans hc1) hq
    have k3 : E.kappa * deltaD n τ β * (y ⬝ᵥ (shape E.Q g (sigmaD n τ β)) *ᵥ y) ≤ 4 / 3 * (E.kappa * (y ⬝ᵥ E.Q *ᵥ y)) := by linarith
    have k4 := mul_le_mul_of_nonneg_left k3 (show 0 ≤ 1 + 400 * (C ^ 4 * ε / θ ^ 2) by linarith)
    have k5 := mul_le_mul_of_nonneg_right (show (1 + 400 * (C ^ 4 * ε / θ ^ 2)) * (4 / 3) ≤ 4 by linarith) hq
    linarith
  · refine (shrink_vol hE hg hβ0 hβ' (by linarith) h6).trans (mul_le_mul_of_nonneg_right (mul_le_mul_of_nonneg_right ?_ (Real.exp_pos _).le) measureReal_nonneg)
    exact Real.sqrt_le_sqrt (pow_le_pow_left₀ (by linarith) (by linarith) n)

/-- One update with a parallel cut, every operation rounded. -/
theorem par_ok {bs : List ℝ} (hb0 : 0 ≤ b0) (hd : b0 ≤ (1 - θ) * √(E.kappa * (g ⬝ᵥ E.Q *ᵥ g))) (hw : b0 + θ * √(E.kappa * (g ⬝ᵥ E.Q *ᵥ g)) ≤ b1) :
    ∃ E' tsq, updateF fl dot (g, .seq (b0 :: b1 :: bs)) E = .ok (E', .success, tsq) ∧
      UpdateOK C ε u θ E g (E.pts ∩ cutSet E.xc (g, .seq (b0 :: b1 :: bs))) E' tsq := by
  obtain ⟨hn, hpd, hκ⟩ := id hE
  have hQ := hpd.posSemidef
  have hε0 : 0 ≤ ε := hu0.trans hu
  have hω : 0 < g ⬝ᵥ E.Q *ᵥ g := (pd_iff.1 hpd).2 g hg
  have hκω : 0 < E.kappa * (g ⬝ᵥ E.Q *ᵥ g) := mul_pos hκ hω
  have hτ0 : 0 < √(E.kappa * (g ⬝ᵥ E.Q *ᵥ g)) := Real.sqrt_pos.2 hκω
  have hτ2 : √(E.kappa * (g ⬝ᵥ E.Q *ᵥ g)) ^ 2 = E.kappa * (g ⬝ᵥ E.Q *ᵥ g) := Real.sq_sqrt hκω.le
  have hθ1 : θ ≤ 1 := by
    by_contra hc
    have := mul_neg_of_neg_of_pos (show 1 - θ < 0 by linarith) hτ0
    linarith
  have hθ2 : 0 < θ ^ 2 := by positivity
  have hθ42 : θ ^ 4 ≤ θ ^ 2 := pow_le_pow_of_le_one hθ.le hθ1 (by norm_num)
  have ht4 : C ^ 2 * ε ≤ C ^ 4 * ε := mul_le_mul_of_nonneg_right (pow_le_pow_right₀ hC1 (by norm_num)) hε0
  have hC2 : 1 ≤ C ^ 2 := one_le_pow₀ hC1
  -- when the code falls back to the first bound
  have fallback : calcLlF fl n E.usePar (fl (E.kappa * dot g fun i => dot (E.Q i) g)) (.seq (b0 :: b1 :: bs)) =
      calcDcF fl n (fl (E.kappa * dot g fun i => dot (E.Q i) g)) b0 → ∃ E' tsq, updateF fl dot (g, .seq (b0 :: b1 :: bs)) E = .ok (E', .success, tsq) ∧
      UpdateOK C ε u θ E g (E.pts ∩ cutSet E.xc (g, .seq (b0 :: b1 :: bs))) E' tsq := by
    intro hf
    have he : updateF fl dot (g, .seq (b0 :: b1 :: bs)) E = updateF fl dot (g, .scalar b0) E := by
      simp only [updateF]
      rw [hf]
      rfl
    obtain ⟨E', tsq, h1, h2⟩ := deep_ok hE hfl hu0 hu hdot hC1 hC hg hθ hε hb0 hd
    exact ⟨E', tsq, he.trans h1, { h2 with keep := fun x hx => h2.keep x ⟨hx.1, hx.2.1⟩ }⟩
  set τ := √(E.kappa * (g ⬝ᵥ E.Q *ᵥ g)) with hτ
  set t := C ^ 2 * ε with ht
  have ht0 : 0 ≤ t := by positivity
  have hεt : ε ≤ t := by rw [ht]; nlinarith
  have ht1 : t ≤ 1 / 100000000 := by
    have : θ ^ 4 ≤ 1 := pow_le_one₀ hθ.le hθ1
    linarith
  obtain ⟨-, hω'⟩ := qg_err (g := g) hQ hdot hε0 (by linarith) hC1 hC
  rw [← ht] at hω'
  have htsq := ((hω'.mul_left E.kappa).round hfl hu0 (by linarith)).mono (by linarith : _ ≤ 41 / 10 * t)
  rw [← hτ2] at htsq
  have hcore := par_params hn hfl hu0 (hu.trans hεt) hτ0 htsq hθ hb0 hd hw (by linarith)
  set tsq := fl (E.kappa * dot g fun i => dot (E.Q i) g) with htsqd
  have htq : |tsq - E.kappa * (g ⬝ᵥ E.Q *ᵥ g)| ≤ 5 * t * (E.kappa * (g ⬝ᵥ E.Q *ᵥ g)) := by
    have := htsq.absn (by positivity)
    rw [hτ2] at this
    exact this.trans (mul_le_mul_of_nonneg_right (by linarith) hκω.le)
  have htsq0 : 0 < tsq := htsq.pos (by positivity) (by linarith)
  by_cases hp : E.usePar = false
  · refine fallback ?_
    simp only [calcLlF, calcLlCoreF, hp, divF, pyDiv, if_neg htsq0.ne', Except.map, bind, Except.bind]
    rw [if_pos (Or.inr trivial)]
  replace hp : E.usePar = true := by simpa using hp
  rcases hcore with h | ⟨ρ, σ, δ, ρ', σ', δ', hc, hρ', hσ', hδ', hρ, s0, s1, d0, d1, d3, hrate, hk⟩
  · exact fallback (by simp only [calcLlF, hp]; exact h)
  set e := 2500 * (t / θ ^ 2) with he
  have htd : t ≤ t / θ ^ 2 := by
    rw [le_div_iff₀ hθ2]
    have := mul_le_mul_of_nonneg_left (pow_le_one₀ hθ.le hθ1 : θ ^ 2 ≤ 1) ht0
    linarith
  have hxe : C ^ 2 * e / (θ ^ 2 / 16) = 40000 * (C ^ 4 * ε / θ ^ 4) := by
    rw [he, ht]; field_simp; ring
  set w := C ^ 4 * ε / θ ^ 4 with hwd
  have hw0 : 0 ≤ w := by positivity
  have hw1 : w ≤ 1 / 100000000 := by rw [hwd, div_le_iff₀ (by positivity)]; linarith
  have htw : t ≤ w := by
    rw [hwd, le_div_iff₀ (by positivity)]
    have := mul_le_mul_of_nonneg_left (pow_le_one₀ hθ.le hθ1 : θ ^ 4 ≤ 1) ht0
    linarith
  obtain ⟨E', h1, h2, h3, h4, h5⟩ := updateF_err hE hfl hu0 hu hdot hC1 hC hg (be := .seq (b0 :: b1 :: bs)) (e := e) (a := θ ^ 2 / 16)
    (ρ := ρ) (σ := σ) (δ := δ) (ρ' := ρ') (σ' := σ') (δ' := δ')
    (tsq := tsq) (by simp only [calcLlF, hp]; exact hc) (by rw [← ht, he]; linarith) (by positivity) (by linarith)
    (by rw [hxe]; linarith) hρ s0 s1 d0 d1 hρ' hσ' hδ'
  rw [hxe] at h3 h4 h5
  have hσ1 : σ < 1 := by linarith
  refine ⟨E', tsq, h1, h2, htq, fun z hz v => ?_, fun y => ?_, fun y => ?_, ?_⟩
  · have hz2 : g ⬝ᵥ (z - E.xc) + b0 ≤ 0 ∧ 0 ≤ g ⬝ᵥ (z - E.xc) + b1 := hz.2
    have hkeep := hk _ hz2.1 hz2.2
    rw [hτ2] at hkeep
    refine (h3 z (fun w => mem_step hQ hκ.le hω.ne' hz.1 ⟨s0, hσ1.le, d0.le⟩ hkeep w) v).trans ?_
    gcongr ?_ * _ + _
    linarith
  · have hq : 0 ≤ y ⬝ᵥ E.Q *ᵥ y := (psd_iff.1 hQ).2 y
    have k1 := mul_le_mul_of_nonneg_left (shape_lower hQ hω s0 y).1 (show 0 ≤ E.kappa * δ by positivity)
    have k2 := mul_le_mul_of_nonneg_right d1 (show 0 ≤ E.kappa * (y ⬝ᵥ E.Q *ᵥ y) by positivity)
    have k3 : θ ^ 2 / 16 * (E.kappa * (y ⬝ᵥ E.Q *ᵥ y)) ≤ E.kappa * δ * (y ⬝ᵥ (shape E.Q g σ) *ᵥ y) := by linarith
    have k4 := mul_le_mul_of_nonneg_left k3 (show 0 ≤ 1 - 60 * (40000 * w) by linarith)
    refine le_trans ?_ (h4 y)
    refine le_trans ?_ k4
    have k5 : 0 ≤ θ ^ 2 * (E.kappa * (y ⬝ᵥ E.Q *ᵥ y)) := by positivity
    have k6 := mul_le_mul_of_nonneg_right (show (1 / 36 : ℝ) ≤ (1 - 60 * (40000 * w)) * (1 / 16) by linarith) k5
    linarith
  · refine (h5 y).trans ?_
    have hq : 0 ≤ E.kappa * (y ⬝ᵥ E.Q *ᵥ y) := mul_nonneg hκ.le ((psd_iff.1 hQ).2 y)
    have k1 := mul_le_mul_of_nonneg_left (shape_lower hQ hω s0 y).2 (show 0 ≤ E.kappa * δ by positivity)
    have k2 := mul_le_mul_of_nonneg_right d3 hq
    have k3 : E.kappa * δ * (y ⬝ᵥ (shape E.Q g σ) *ᵥ y) ≤ 3 * (E.kappa * (y ⬝ᵥ E.Q *ᵥ y)) := by linarith
    have k4 := mul_le_mul_of_nonneg_left k3 (show 0 ≤ 1 + 60 * (40000 * w) by linarith)
    have k5 := mul_le_mul_of_nonneg_right (show (1 + 60 * (40000 * w)) * 3 ≤ 4 by linarith) hq
    linarith
  · refine (form_vol hE hg hσ1 d0 (show 0 < 1 + 60 * (40000 * w) by linarith) (r := (1 + 3000000 * w) ^ n * Real.exp (-(1 / ((n : ℝ) + 1)))) ?_ h5).trans (le_of_eq ?_)
    · have k1 := mul_le_mul_of_nonneg_left hrate (show 0 ≤ (1 + 60 * (40000 * w)) ^ n by positivity)
      refine k1.trans ?_
      rw [← mul_assoc, ← mul_pow]
      refine mul_le_mul_of_nonneg_right (pow_le_pow_left₀ (by positivity) ?_ n) (Real.exp_pos _).le
      nlinarith
    · rw [Real.sqrt_mul (by positivity), ← Real.exp_half]
      congr 3; field_simp

/-- One update with a cut of any kind, every operation rounded. -/
theorem cut_ok {be : Beta} (hb : Reach θ √(E.kappa * (g ⬝ᵥ E.Q *ᵥ g)) be) :
    ∃ E' tsq, updateF fl dot (g, be) E = .ok (E', .success, tsq) ∧ UpdateOK C ε u θ E g (E.pts ∩ cutSet E.xc (g, be)) E' tsq := by
  match be, hb with
  | .scalar b, hb => exact deep_ok hE hfl hu0 hu hdot hC1 hC hg hθ hε hb.1 hb.2
  | .seq [b], hb => exact deep_ok hE hfl hu0 hu hdot hC1 hC hg hθ hε hb.1 hb.2
  | .seq (b0 :: b1 :: bs), hb => exact par_ok hE hfl hu0 hu hdot hC1 hC hg hθ hε hb.1 hb.2.1 hb.2.2

end

/-! ### Thin slabs -/

/-- A slab contains little of an ellipsoid that is much wider. -/
theorem slab_pts (hE : E.Proper) (hg : g ≠ 0) {m H : ℝ} (hH : 0 < H) :
    volume.real (E.pts ∩ {x | (g ⬝ᵥ (x - E.xc) - m) ^ 2 ≤ H}) ≤ √(3 * n * H / (E.kappa * (g ⬝ᵥ E.Q *ᵥ g))) * volume.real E.pts := by
  have hn' : (2 : ℝ) ≤ n := by exact_mod_cast hE.dim
  have hκ := hE.kappa
  obtain ⟨hsym, -⟩ := psd_iff.1 hE.pd.posSemidef
  have hω : 0 < g ⬝ᵥ E.Q *ᵥ g := (pd_iff.1 hE.pd).2 g hg
  set om := g ⬝ᵥ E.Q *ᵥ g with hom
  set σ : ℝ := 1 - (n - 1) * H / (E.kappa * om) with hσ
  have hσ1 : 0 < 1 - σ := by
    rw [hσ, sub_sub_cancel]; exact div_pos (mul_pos (by linarith) hH) (by positivity)
  set F : Ell n := ⟨true, false, E.xc + (m / om) • E.Q *ᵥ g, shape E.Q g σ, E.kappa * (n / (n - 1))⟩ with hF
  have hk : 0 < (n : ℝ) / (n - 1) := div_pos (by linarith) (by linarith)
  have hFp : F.Proper := ⟨hE.dim, shape_pd hE.pd hω.ne' (by linarith), by positivity⟩
  have hsub : E.pts ∩ {x | (g ⬝ᵥ (x - E.xc) - m) ^ 2 ≤ H} ⊆ F.pts := by
    rintro x ⟨hx, hxg⟩ y
    have hxg : (g ⬝ᵥ (x - E.xc) - m) ^ 2 ≤ H := hxg
    set α := (y ⬝ᵥ E.Q *ᵥ g) / om with hα
    have hαg : y ⬝ᵥ E.Q *ᵥ g = α * om := by rw [hα]; field_simp
    have hαg' : g ⬝ᵥ E.Q *ᵥ y = α * om := by
      rw [← hαg, dotProduct_mulVec, ← mulVec_transpose, hsym, dotProduct_comm]
    have h1 := hx (y - α • g)
    have e1 : (y - α • g) ⬝ᵥ E.Q *ᵥ (y - α • g) = y ⬝ᵥ E.Q *ᵥ y - α ^ 2 * om := by
      simp only [mulVec_sub, mulVec_smul, sub_dotProduct, dotProduct_sub, smul_dotProduct, dotProduct_smul, smul_eq_mul, hαg, hαg', ← hom]
      ring
    have e2 : y ⬝ᵥ (x - F.xc) = α * (g ⬝ᵥ (x - E.xc) - m) + (y - α • g) ⬝ᵥ (x - E.xc) := by
      simp only [hF, sub_dotProduct, dotProduct_sub, dotProduct_add, smul_dotProduct, dotProduct_smul, smul_eq_mul, hαg]
      field_simp; ring
    rw [e1] at h1
    rw [e2]
    simp only [hF, shape_quad, hαg, ← hom]
    set p := g ⬝ᵥ (x - E.xc) - m
    set q := (y - α • g) ⬝ᵥ (x - E.xc)
    set Y := y ⬝ᵥ E.Q *ᵥ y
    have e3 : E.kappa * ((n : ℝ) / (n - 1)) * (Y - σ / om * (α * om) ^ 2) = n * (α ^ 2 * H) + n / (n - 1) * (E.kappa * (Y - α ^ 2 * om)) := by
      have : (n : ℝ) - 1 ≠ 0 := by linarith
      rw [hσ]; field_simp; ring
    rw [e3]
    have h2 : α ^ 2 * p ^ 2 ≤ α ^ 2 * H := mul_le_mul_of_nonneg_left hxg (sq_nonneg _)
    have h3 : (α * p + q) ^ 2 ≤ n * (α * p) ^ 2 + n / (n - 1) * q ^ 2 := by
      have h4 : 0 ≤ ((n - 1) * (α * p) - q) ^ 2 / (n - 1) := div_nonneg (sq_nonneg _) (by linarith)
      have h5 : n * (α * p) ^ 2 + n / (n - 1) * q ^ 2 - (α * p + q) ^ 2 = ((n - 1) * (α * p) - q) ^ 2 / (n - 1) := by
        have : (n : ℝ) - 1 ≠ 0 := by linarith
        field_simp; ring
      linarith
    have h6 := mul_le_mul_of_nonneg_left h1 hk.le
    have h7 : (n : ℝ) * (α * p) ^ 2 ≤ n * (α ^ 2 * H) := by
      rw [mul_pow]; exact mul_le_mul_of_nonneg_left h2 (by linarith)
    linarith
  refine (measureReal_mono hsub (volume_pts_ne_top hFp)).trans ?_
  rw [vol_pts hFp, vol_pts hE, ← mul_assoc, ← Real.sqrt_mul (by positivity)]
  refine mul_le_mul_of_nonneg_right (Real.sqrt_le_sqrt ?_) euclBall_real_pos.le
  have e : F.vsq = (n / (n - 1)) ^ n * (n - 1) * (H / (E.kappa * om)) * E.vsq := by
    rw [hF]
    unfold Ell.vsq
    dsimp only
    rw [det_shape hω.ne', mul_pow, hσ]
    ring
  rw [e]
  have := mul_le_mul_of_nonneg_right (pow_bound hE.dim) (show 0 ≤ H / (E.kappa * om) by positivity)
  refine mul_le_mul_of_nonneg_right (this.trans (le_of_eq (by ring))) (vsq_pos hE).le

/-- A thin slab contains little of the ellipsoid. -/
theorem thin_vol (hE : E.Proper) (hg : g ≠ 0) (hθ : 0 < θ) {b0 b1 : ℝ} {bs : List ℝ} (hc : b1 ≤ b0 + θ * √(E.kappa * (g ⬝ᵥ E.Q *ᵥ g))) :
    volume.real (E.pts ∩ cutSet E.xc (g, .seq (b0 :: b1 :: bs))) ≤ √(3 * n / 4) * θ * volume.real E.pts := by
  have hκω : 0 < E.kappa * (g ⬝ᵥ E.Q *ᵥ g) := mul_pos hE.kappa ((pd_iff.1 hE.pd).2 g hg)
  set τ := √(E.kappa * (g ⬝ᵥ E.Q *ᵥ g)) with hτ
  have hτ0 : 0 < τ := Real.sqrt_pos.2 hκω
  have hτ2 : τ ^ 2 = E.kappa * (g ⬝ᵥ E.Q *ᵥ g) := Real.sq_sqrt hκω.le
  have hsub : E.pts ∩ cutSet E.xc (g, .seq (b0 :: b1 :: bs)) ⊆ E.pts ∩ {x | (g ⬝ᵥ (x - E.xc) - -(b0 + b1) / 2) ^ 2 ≤ (θ * τ / 2) ^ 2} := fun z hz => by
    refine ⟨hz.1, ?_⟩
    have hz : g ⬝ᵥ (z - E.xc) + b0 ≤ 0 ∧ 0 ≤ g ⬝ᵥ (z - E.xc) + b1 := hz.2
    show (g ⬝ᵥ (z - E.xc) - -(b0 + b1) / 2) ^ 2 ≤ (θ * τ / 2) ^ 2
    exact sq_le_sq' (by linarith [hz.1, hz.2]) (by linarith [hz.1, hz.2])
  refine (measureReal_mono hsub (measure_ne_top_of_subset Set.inter_subset_left (volume_pts_ne_top hE))).trans ?_
  refine (slab_pts hE hg (m := -(b0 + b1) / 2) (H := (θ * τ / 2) ^ 2) (by positivity)).trans (le_of_eq ?_)
  congr 1
  rw [← hτ2, show 3 * (n : ℝ) * (θ * τ / 2) ^ 2 / τ ^ 2 = 3 * n / 4 * θ ^ 2 by field_simp; norm_num, Real.sqrt_mul (by positivity), Real.sqrt_sq hθ.le]

/-! ### Accumulated losses -/

variable {K : Set (Fin n → ℝ)} {V a l q : ℝ} {j : ℕ} {be : Beta}

theorem CutBounds.facts (hb : CutBounds n C ε η θ l q) (hε0 : 0 ≤ ε) : 1 ≤ l ∧ 0 ≤ q := by
  have h0 := hb.t0
  have h1 := hb.C1
  have h2 := hb.eta
  refine ⟨?_, le_trans (by positivity) hb.ratio⟩
  have : 0 ≤ 3000000 * (C ^ 4 * ε / θ ^ 4) + 6 * η * C / θ := by positivity
  linarith [hb.infl]

/-- A cut that keeps `K` is neither too deep nor too thin while most of `K` is there. -/
theorem LossInv.reach (h : LossInv K V a l q j E) (hV : 0 ≤ V) (hq : q < 1) (hε0 : 0 ≤ ε) (hb : CutBounds n C ε η θ l q) (hg : g ≠ 0) (hd : deepBeta be)
    (hK : K ⊆ cutSet E.xc (g, be)) (hfat : ((l ^ n - 1) * (q / (1 - q)) + thinF n θ) * V < a) : Reach θ √(E.kappa * (g ⬝ᵥ E.Q *ᵥ g)) be := by
  obtain ⟨hl, hq0⟩ := hb.facts hε0
  have hEt := volume_pts_ne_top h.proper
  have hω : 0 < g ⬝ᵥ E.Q *ᵥ g := (pd_iff.1 h.proper.pd).2 g hg
  have hκω : 0 < E.kappa * (g ⬝ᵥ E.Q *ᵥ g) := mul_pos h.proper.kappa hω
  have hθ := hb.t0
  have h3 := h.total hV hl hq0 hq
  have h4 : volume.real E.pts ≤ 1 * V := h.vol.trans (mul_le_mul_of_nonneg_right (pow_le_one₀ hq0 hq.le) hV)
  -- a part of the ellipsoid that contains what is left of `K` is not small
  have small : ∀ {S : Set (Fin n → ℝ)} {r : ℝ}, K ⊆ S → 0 ≤ r → r ≤ thinF n θ → ¬ volume.real (E.pts ∩ S) ≤ r * volume.real E.pts := by
    intro S r hS hr0 hr hc
    have h2 : volume.real (K ∩ E.pts) ≤ volume.real (E.pts ∩ S) :=
      measureReal_mono (fun x hx => ⟨hx.2, hS hx.1⟩) (measure_ne_top_of_subset Set.inter_subset_left hEt)
    have h5 := mul_le_mul_of_nonneg_left h4 hr0
    have h6 := mul_le_mul_of_nonneg_right hr hV
    linarith
  have hd1 : √((8 / 3 * θ) ^ n * θ) ≤ thinF n θ := by unfold thinF; have : 0 ≤ √(3 * n / 4) * θ := by positivity
                                                      linarith
  have hd2 : √(3 * n / 4) * θ ≤ thinF n θ := by unfold thinF; have := Real.sqrt_nonneg ((8 / 3 * θ) ^ n * θ); linarith
  have depth : ∀ {β : ℝ}, K ⊆ cutSet E.xc (g, .scalar β) → β ≤ (1 - θ) * √(E.kappa * (g ⬝ᵥ E.Q *ᵥ g)) := fun {β} hS => by
    by_contra hc
    exact small hS (Real.sqrt_nonneg _) hd1 (cap_vol h.proper hg hθ hb.t1 (not_le.1 hc).le)
  match be, hd with
  | .scalar b, hd => exact ⟨hd, depth hK⟩
  | .seq [b], hd => exact ⟨hd, depth hK⟩
  | .seq (b0 :: b1 :: bs), hd =>
    refine ⟨hd, depth fun z hz => (hK hz).1, ?_⟩
    by_contra hc
    exact small hK (by positivity) hd2 (thin_vol h.proper hg hθ (not_le.1 hc).le)

/-- What an update loses. -/
theorem UpdateOK.lost {S : Set (Fin n → ℝ)} {E' : Ell n} {tsq : ℝ} (k2 : UpdateOK C ε u θ E g S E' tsq) (hE : E.Proper) (hε0 : 0 ≤ ε) (hb : CutBounds n C ε η θ l q) (hC : Resolved C η u E) :
    volume.real (S \ E'.pts) ≤ (l ^ n - 1) * volume.real E'.pts := by
  obtain ⟨hl, -⟩ := hb.facts hε0
  have hθ := hb.t0
  have hC1 := hb.C1
  have hη := hb.eta
  refine lost_vol k2.proper hl fun x hx y => (k2.keep x hx y).trans ?_
  set A' := E'.kappa * (y ⬝ᵥ E'.Q *ᵥ y) with hA'
  set A := E.kappa * (y ⬝ᵥ E.Q *ᵥ y) with hA
  have hq0 : 0 ≤ y ⬝ᵥ E.Q *ᵥ y := (psd_iff.1 hE.pd.posSemidef).2 y
  have hA0 : 0 ≤ A := mul_nonneg hE.kappa.le hq0
  have e1 : u * ∑ i, |y i| * |E.xc i| ≤ η * (C * √A) := by
    rw [Finset.mul_sum]
    have e2 : ∀ i ∈ Finset.univ, u * (|y i| * |E.xc i|) ≤ η * √E.kappa * (√(E.Q i i) * |y i|) := fun i _ => by
      have := mul_le_mul_of_nonneg_left (hC.2 i) (abs_nonneg (y i))
      rw [Real.sqrt_mul hE.kappa.le] at this
      linarith
    refine (Finset.sum_le_sum e2).trans ?_
    rw [← Finset.mul_sum]
    have e3 := mul_le_mul_of_nonneg_left (cond_sum (by linarith) hC.1 y) (show 0 ≤ η * √E.kappa by positivity)
    refine e3.trans (le_of_eq ?_)
    rw [hA, Real.sqrt_mul hE.kappa.le]; ring
  have e4 : √A ≤ 6 / θ * √A' := by
    rw [mul_sqrt' (by positivity)]
    refine Real.sqrt_le_sqrt ?_
    have := mul_le_mul_of_nonneg_left (k2.low y) (show 0 ≤ (6 / θ) ^ 2 by positivity)
    refine le_trans (le_of_eq ?_) this
    field_simp
    ring
  have e5 := mul_le_mul_of_nonneg_left e4 (show 0 ≤ η * C by positivity)
  have e6 := mul_le_mul_of_nonneg_right hb.infl (Real.sqrt_nonneg A')
  have e7 : η * C * (6 / θ * √A') = 6 * η * C / θ * √A' := by ring
  linarith

/-- The update succeeds, loses little of `K`, and does not make the ellipsoid much wider. -/
theorem LossInv.cut (h : LossInv K V a l q j E) (hV : 0 ≤ V) (hq : q < 1) (hfl : RelErr u fl) (hu0 : 0 ≤ u) (hu : u ≤ ε) (hdot : VecDotErr ε dot)
    (hb : CutBounds n C ε η θ l q) (hC : Resolved C η u E) (hg : g ≠ 0) (hd : deepBeta be) (hK : K ⊆ cutSet E.xc (g, be))
    (hfat : ((l ^ n - 1) * (q / (1 - q)) + thinF n θ) * V < a) :
    ∃ E' tsq, updateF fl dot (g, be) E = .ok (E', .success, tsq) ∧ |tsq - E.kappa * (g ⬝ᵥ E.Q *ᵥ g)| ≤ E.kappa * (g ⬝ᵥ E.Q *ᵥ g) / 200 ∧
      LossInv K V a l q (j + 1) E' ∧ ∀ L, E.Within L → E'.Within (L * 4) := by
  have hε0 : 0 ≤ ε := hu0.trans hu
  have hE := h.proper
  have hθ := hb.t0
  have hC1 := hb.C1
  have hη := hb.eta
  obtain ⟨hl, hq0⟩ := hb.facts hε0
  have hω : 0 < g ⬝ᵥ E.Q *ᵥ g := (pd_iff.1 hE.pd).2 g hg
  have ht : 0 < E.kappa * (g ⬝ᵥ E.Q *ᵥ g) := mul_pos hE.kappa hω
  obtain ⟨E', tsq, k1, k2⟩ := cut_ok hE hfl hu0 hu hdot hC1 hC.1 hg hθ hb.eps (h.reach hV hq hε0 hb hg hd hK hfat)
  refine ⟨E', tsq, k1, k2.tau.trans ?_, h.next hq hl hq0 hK k2.proper ?_ ?_, fun L hL y => ?_⟩
  · have e1 : C ^ 2 * ε ≤ 1 / 1000 := by
      have e2 : C ^ 2 * ε ≤ C ^ 4 * ε := mul_le_mul_of_nonneg_right (pow_le_pow_right₀ hC1 (by norm_num)) hε0
      have e3 : θ ^ 4 ≤ 1 := pow_le_one₀ hθ.le hb.t1
      linarith [hb.eps]
    have := mul_le_mul_of_nonneg_right e1 ht.le
    linarith
  · exact k2.lost hE hε0 hb hC
  · exact k2.vol.trans (mul_le_mul_of_nonneg_right hb.ratio measureReal_nonneg)
  · have := k2.up y
    have := hL y
    linarith

end Verif
