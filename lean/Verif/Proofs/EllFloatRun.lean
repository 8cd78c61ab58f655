import Verif.Props.EllFloatMore
import Verif.Props.EllComplexity
import Verif.Spec.EllRunSpec
import Mathlib.MeasureTheory.Measure.Real
import Mathlib.Analysis.Complex.ExponentialBounds

/-! # Volumes lost and left by a rounded update of an ellipsoid -/
namespace Verif
open Matrix MeasureTheory Ell
variable {n : ℕ} {E E' : Ell n} {g : Fin n → ℝ} {β b C ε u η : ℝ} {fl : ℝ → ℝ} {dot : (Fin n → ℝ) → (Fin n → ℝ) → ℝ}

/-! ### Volumes as real numbers -/

theorem euclBall_real_pos : 0 < volume.real (euclBall (0 : Fin n → ℝ) 1) :=
  ENNReal.toReal_pos euclBall_volume_pos.ne' euclBall_volume_lt_top.ne

theorem volume_pts_ne_top (hE : E.Proper) : volume E.pts ≠ ⊤ := by
  rw [volume_pts hE]
  exact ENNReal.mul_ne_top ENNReal.ofReal_ne_top euclBall_volume_lt_top.ne

theorem vol_pts (hE : E.Proper) : volume.real E.pts = √E.vsq * volume.real (euclBall (0 : Fin n → ℝ) 1) := by
  rw [measureReal_def, volume_pts hE, ENNReal.toReal_mul, ENNReal.toReal_ofReal (Real.sqrt_nonneg _)]
  rfl

theorem vol_pts_pos (hE : E.Proper) : 0 < volume.real E.pts := by
  rw [vol_pts hE]
  exact mul_pos (Real.sqrt_pos.2 (vsq_pos hE)) euclBall_real_pos

theorem isClosed_pts (E : Ell n) : IsClosed E.pts := by
  have : E.pts = ⋂ y : Fin n → ℝ, {x | (y ⬝ᵥ (x - E.xc)) ^ 2 ≤ E.kappa * (y ⬝ᵥ E.Q *ᵥ y)} := by
    ext x; simp [Ell.pts]
  rw [this]
  refine isClosed_iInter fun y => isClosed_le ?_ continuous_const
  simp only [dotProduct]
  fun_prop

/-- The ellipsoid inflated by `l` about its centre. -/
def Ell.inflated (l : ℝ) (E : Ell n) : Ell n := { E with kappa := l ^ 2 * E.kappa }

theorem inflated_proper (hE : E.Proper) {l : ℝ} (hl : 0 < l) : (E.inflated l).Proper :=
  ⟨hE.dim, hE.pd, mul_pos (by positivity) hE.kappa⟩

theorem inflated_vol (hE : E.Proper) {l : ℝ} (hl : 0 < l) : volume.real (E.inflated l).pts = l ^ n * volume.real E.pts := by
  rw [vol_pts hE, vol_pts (inflated_proper hE hl), ← mul_assoc]
  congr 1
  have : (E.inflated l).vsq = (l ^ n) ^ 2 * E.vsq := by
    unfold Ell.vsq Ell.inflated; ring
  rw [this, Real.sqrt_mul (by positivity), Real.sqrt_sq (by positivity)]

/-- What lies in the inflated ellipsoid but not in the ellipsoid itself. -/
theorem lost_vol (hE : E.Proper) {l : ℝ} (hl : 1 ≤ l) {S : Set (Fin n → ℝ)}
    (hS : ∀ x ∈ S, ∀ y, |y ⬝ᵥ (x - E.xc)| ≤ l * √(E.kappa * (y ⬝ᵥ E.Q *ᵥ y))) :
    volume.real (S \ E.pts) ≤ (l ^ n - 1) * volume.real E.pts := by
  have hl0 : 0 < l := by linarith
  have hq : ∀ y, 0 ≤ E.kappa * (y ⬝ᵥ E.Q *ᵥ y) := fun y => mul_nonneg hE.kappa.le ((psd_iff.1 hE.pd.posSemidef).2 y)
  have hsub : E.pts ⊆ (E.inflated l).pts := fun x hx y => by
    have h1 : (1 : ℝ) ≤ l ^ 2 := one_le_pow₀ hl
    have h2 := hx y
    have h3 := hq y
    change (y ⬝ᵥ (x - E.xc)) ^ 2 ≤ l ^ 2 * E.kappa * (y ⬝ᵥ E.Q *ᵥ y)
    nlinarith
  have hsub' : S ⊆ (E.inflated l).pts := fun x hx y => by
    change (y ⬝ᵥ (x - E.xc)) ^ 2 ≤ l ^ 2 * E.kappa * (y ⬝ᵥ E.Q *ᵥ y)
    have h1 := pow_le_pow_left₀ (abs_nonneg _) (hS x hx y) 2
    rw [sq_abs, mul_pow, Real.sq_sqrt (hq y)] at h1
    linarith
  have hfin := volume_pts_ne_top (inflated_proper hE hl0)
  have h1 : volume.real (S \ E.pts) ≤ volume.real ((E.inflated l).pts \ E.pts) :=
    measureReal_mono (Set.sdiff_subset_sdiff_left hsub') (measure_ne_top_of_subset Set.sdiff_subset hfin)
  rw [measureReal_sdiff hsub (isClosed_pts E).measurableSet hfin, inflated_vol hE hl0] at h1
  linarith

/-! ### The exact update with a central or deep cut -/

theorem exact_deep (hE : E.Proper) (hg : g ≠ 0) (hβ0 : 0 ≤ β) (hβ : β < √(E.kappa * (g ⬝ᵥ E.Q *ᵥ g))) :
    update (g, .scalar β) E = .ok (after E g (rhoD n √(E.kappa * (g ⬝ᵥ E.Q *ᵥ g)) β) (sigmaD n √(E.kappa * (g ⬝ᵥ E.Q *ᵥ g)) β)
      (deltaD n √(E.kappa * (g ⬝ᵥ E.Q *ᵥ g)) β), .success, E.kappa * (g ⬝ᵥ E.Q *ᵥ g)) := by
  have hω : 0 < g ⬝ᵥ E.Q *ᵥ g := (pd_iff.1 hE.pd).2 g hg
  have ht : 0 < E.kappa * (g ⬝ᵥ E.Q *ᵥ g) := mul_pos hE.kappa hω
  have hτ0 : 0 < √(E.kappa * (g ⬝ᵥ E.Q *ᵥ g)) := Real.sqrt_pos.2 ht
  have hsq : √(E.kappa * (g ⬝ᵥ E.Q *ᵥ g)) ^ 2 = E.kappa * (g ⬝ᵥ E.Q *ᵥ g) := Real.sq_sqrt ht.le
  have hn : (0 : ℝ) ≤ n := Nat.cast_nonneg _
  cases h : update (g, .scalar β) E with
  | error e =>
    have := ((C20_ell_deep_fails_iff hE hg).1 h).1
    have := mul_nonneg hn hβ0
    linarith
  | ok r =>
    obtain ⟨E1, st, tsq⟩ := r
    obtain ⟨rfl, ⟨hc, rfl⟩ | ⟨rfl, h0, ρ, σ, δ, hc, rfl⟩⟩ := update_ok hE.wf h
    · cases hc with
      | scalar hc =>
        rcases hc.reject with h1 | h1
        · linarith [h1.2]
        · have := mul_nonneg hn hβ0
          linarith [h1.2.2.2]
    · cases hc with
      | scalar hc =>
        have key : ρ = rhoD n √(E.kappa * (g ⬝ᵥ E.Q *ᵥ g)) β ∧ σ = sigmaD n √(E.kappa * (g ⬝ᵥ E.Q *ᵥ g)) β ∧
            δ = deltaD n √(E.kappa * (g ⬝ᵥ E.Q *ᵥ g)) β := by
          generalize hr : Calc.accept ρ σ δ = r at hc
          cases hc with
          | nosoln => simp at hr
          | noeffect => simp at hr
          | central hb =>
            simp only [calcCc, Calc.accept.injEq] at hr
            obtain ⟨rfl, rfl, rfl⟩ := hr
            subst hb
            refine ⟨by simp [rhoD], ?_, by simp [deltaD]⟩
            simp only [sigmaD, c2, mul_zero, add_zero]
            field_simp
          | deep =>
            simp only [Calc.accept.injEq] at hr
            obtain ⟨rfl, rfl, rfl⟩ := hr
            exact ⟨rfl, rfl, by simp only [deltaD, hsq]⟩
        obtain ⟨rfl, rfl, rfl⟩ := key
        rfl

theorem after_deep_proper (hE : E.Proper) (hg : g ≠ 0) (hβ0 : 0 ≤ β) (hβ : β < √(E.kappa * (g ⬝ᵥ E.Q *ᵥ g))) :
    (after E g (rhoD n √(E.kappa * (g ⬝ᵥ E.Q *ᵥ g)) β) (sigmaD n √(E.kappa * (g ⬝ᵥ E.Q *ᵥ g)) β)
      (deltaD n √(E.kappa * (g ⬝ᵥ E.Q *ᵥ g)) β)).Proper :=
  C20_ell_proper hE hg (b := .scalar β) hβ (exact_deep hE hg hβ0 hβ)

/-- The part of the ellipsoid beyond a cut at depth `(1 - b)τ`. -/
theorem cap_vol (hE : E.Proper) (hg : g ≠ 0) (hb0 : 0 < b) (hb1 : b ≤ 1) (hβ : (1 - b) * √(E.kappa * (g ⬝ᵥ E.Q *ᵥ g)) ≤ β) :
    volume.real (E.pts ∩ cutSet E.xc (g, .scalar β)) ≤ √((8 / 3 * b) ^ n * b) * volume.real E.pts := by
  have hω : 0 < g ⬝ᵥ E.Q *ᵥ g := (pd_iff.1 hE.pd).2 g hg
  have ht : 0 < E.kappa * (g ⬝ᵥ E.Q *ᵥ g) := mul_pos hE.kappa hω
  have hτ0 : 0 < √(E.kappa * (g ⬝ᵥ E.Q *ᵥ g)) := Real.sqrt_pos.2 ht
  set τ := √(E.kappa * (g ⬝ᵥ E.Q *ᵥ g)) with hτ
  have hn' : (2 : ℝ) ≤ n := by exact_mod_cast hE.dim
  have hβ0 : 0 ≤ (1 - b) * τ := mul_nonneg (by linarith) hτ0.le
  have hβ1 : (1 - b) * τ < τ := by
    have := mul_pos hb0 hτ0
    linarith
  have hup := exact_deep hE hg hβ0 hβ1
  have hpr := after_deep_proper hE hg hβ0 hβ1
  rw [← hτ] at hup hpr
  have hsub : E.pts ∩ cutSet E.xc (g, .scalar β) ⊆
      (after E g (rhoD n τ ((1 - b) * τ)) (sigmaD n τ ((1 - b) * τ)) (deltaD n τ ((1 - b) * τ))).pts := fun x hx => by
    refine update_keep hE.wf hup hx.1 ?_
    have := mem_cutSet.1 hx.2
    simp only [betaSat] at this ⊢
    linarith
  have h1 := measureReal_mono hsub (volume_pts_ne_top hpr)
  refine h1.trans ?_
  rw [vol_pts hpr, vol_pts hE, ← mul_assoc, ← Real.sqrt_mul (by positivity)]
  refine mul_le_mul_of_nonneg_right (Real.sqrt_le_sqrt ?_) euclBall_real_pos.le
  rw [vsq_after hω.ne']
  refine mul_le_mul_of_nonneg_right ?_ (vsq_pos hE).le
  have hσ : 1 - sigmaD n τ ((1 - b) * τ) = (n - 1) * b / ((n + 1) * (2 - b)) := by
    have h := deep_one_sub_sigma (n := n) hE.dim (τ := τ) (β := (1 - b) * τ) (by linarith)
    unfold sigmaD
    rw [h]
    have e1 : τ - (1 - b) * τ = τ * b := by ring
    have e2 : τ + (1 - b) * τ = τ * (2 - b) := by ring
    have e3 : 2 - b ≠ 0 := by linarith
    rw [e1, e2]; field_simp
  have hσ0 : 0 ≤ 1 - sigmaD n τ ((1 - b) * τ) := by
    rw [hσ]; exact div_nonneg (mul_nonneg (by linarith) hb0.le) (mul_nonneg (by linarith) (by linarith))
  have hσ1 : 1 - sigmaD n τ ((1 - b) * τ) ≤ b := by
    rw [hσ, div_le_iff₀ (mul_pos (by linarith) (by linarith))]
    have : (n : ℝ) - 1 ≤ (n + 1) * (2 - b) := by nlinarith
    nlinarith
  have hδ : deltaD n τ ((1 - b) * τ) = c1 n * (b * (2 - b)) := by
    unfold deltaD
    congr 1
    field_simp; ring
  have hc0 : 0 < c1 n := by unfold c1; exact div_pos (by positivity) (by nlinarith)
  have hc1 : c1 n ≤ 4 / 3 := by
    unfold c1; rw [div_le_iff₀ (by nlinarith)]; nlinarith
  have hδ0 : 0 ≤ deltaD n τ ((1 - b) * τ) := by
    rw [hδ]; exact mul_nonneg hc0.le (mul_nonneg hb0.le (by linarith))
  have hδ1 : deltaD n τ ((1 - b) * τ) ≤ 8 / 3 * b := by
    rw [hδ]
    have : b * (2 - b) ≤ 2 * b := by nlinarith
    calc c1 n * (b * (2 - b)) ≤ 4 / 3 * (2 * b) := mul_le_mul hc1 this (mul_nonneg hb0.le (by linarith)) (by norm_num)
      _ = _ := by ring
  exact mul_le_mul (pow_le_pow_left₀ hδ0 hδ1 n) hσ1 hσ0 (by positivity)

/-- An ellipsoid whose form is at most `c` times that of the exact update. -/
theorem shrink_vol (hE : E.Proper) (hg : g ≠ 0) (hβ0 : 0 ≤ β) (hβ : β < √(E.kappa * (g ⬝ᵥ E.Q *ᵥ g))) {c : ℝ} (hc : 0 < c)
    (h : ∀ y, E'.kappa * (y ⬝ᵥ E'.Q *ᵥ y) ≤ c * (E.kappa * deltaD n √(E.kappa * (g ⬝ᵥ E.Q *ᵥ g)) β *
        (y ⬝ᵥ (shape E.Q g (sigmaD n √(E.kappa * (g ⬝ᵥ E.Q *ᵥ g)) β)) *ᵥ y))) :
    volume.real E'.pts ≤ √(c ^ n) * Real.exp (-(1 / (2 * ((n : ℝ) + 1)))) * volume.real E.pts := by
  have hω : 0 < g ⬝ᵥ E.Q *ᵥ g := (pd_iff.1 hE.pd).2 g hg
  have hup := exact_deep hE hg hβ0 hβ
  have hpr := after_deep_proper hE hg hβ0 hβ
  have hv := (Ell.vsq_step hE.wf hup).2.2 (show deepBeta (.scalar β) from hβ0)
  set τ := √(E.kappa * (g ⬝ᵥ E.Q *ᵥ g)) with hτ
  set A := after E g (rhoD n τ β) (sigmaD n τ β) (deltaD n τ β) with hA
  -- the exact update, moved and inflated
  set F : Ell n := { A with xc := E'.xc, kappa := c * A.kappa } with hF
  have hFp : F.Proper := ⟨hpr.dim, hpr.pd, mul_pos hc hpr.kappa⟩
  have hAf : ∀ y, A.kappa * (y ⬝ᵥ A.Q *ᵥ y) = E.kappa * deltaD n τ β * (y ⬝ᵥ (shape E.Q g (sigmaD n τ β)) *ᵥ y) := fun y => by
    rw [hA]
    unfold after
    by_cases hd : E.noDefer
    · simp only [hd, if_true, smul_mulVec, dotProduct_smul, smul_eq_mul, mul_assoc]
    · simp only [hd, Bool.false_eq_true, if_false]
  have hsub : E'.pts ⊆ F.pts := fun x hx y => by
    refine (hx y).trans ((h y).trans (le_of_eq ?_))
    rw [← hAf]
    change _ = c * A.kappa * (y ⬝ᵥ A.Q *ᵥ y)
    ring
  refine (measureReal_mono hsub (volume_pts_ne_top hFp)).trans ?_
  rw [vol_pts hFp, vol_pts hE, ← mul_assoc]
  refine mul_le_mul_of_nonneg_right ?_ euclBall_real_pos.le
  have e1 : F.vsq = c ^ n * A.vsq := by
    rw [hF]; unfold Ell.vsq; dsimp only; ring
  rw [e1, Real.sqrt_mul (by positivity), mul_assoc]
  refine mul_le_mul_of_nonneg_left ?_ (Real.sqrt_nonneg _)
  refine (Real.sqrt_le_sqrt hv).trans (le_of_eq ?_)
  rw [Real.sqrt_mul (Real.exp_pos _).le, ← Real.exp_half]
  congr 2; field_simp

/-! ### A slab of a ball -/

theorem pow_bound (hn : 2 ≤ n) : ((n : ℝ) / (n - 1)) ^ n * (n - 1) ≤ 3 * n := by
  have hn' : (2 : ℝ) ≤ n := by exact_mod_cast hn
  obtain ⟨m, rfl⟩ : ∃ m, n = m + 1 := ⟨n - 1, by omega⟩
  push_cast at hn' ⊢
  have hm : (1 : ℝ) ≤ m := by linarith
  have e1 : (m : ℝ) + 1 - 1 = m := by ring
  rw [e1, pow_succ]
  have h1 : ((m : ℝ) + 1) / m ≤ Real.exp (1 / m) := by
    have := Real.add_one_le_exp (1 / (m : ℝ))
    refine le_trans (le_of_eq ?_) this
    field_simp; ring
  have h2 : (((m : ℝ) + 1) / m) ^ m ≤ 3 := by
    refine (pow_le_pow_left₀ (by positivity) h1 m).trans ?_
    rw [← Real.exp_nat_mul, mul_one_div_cancel (by linarith)]
    linarith [Real.exp_one_lt_d9]
  have e2 : (((m : ℝ) + 1) / m) ^ m * (((m : ℝ) + 1) / m) * m = (((m : ℝ) + 1) / m) ^ m * ((m : ℝ) + 1) := by field_simp
  rw [e2]
  exact mul_le_mul_of_nonneg_right h2 (by linarith)

/-- A slab of half-width `√(H / g'g)` contains little of a ball. -/
theorem slab_vol (hn : 2 ≤ n) {a c : Fin n → ℝ} {r H : ℝ} (hr : 0 < r) (hg : g ≠ 0) (hH : 0 < H) :
    volume.real (euclBall a r ∩ {x | (g ⬝ᵥ (x - c)) ^ 2 ≤ H}) ≤ √(3 * n * H / (r ^ 2 * (g ⬝ᵥ g))) * volume.real (euclBall a r) := by
  have hn' : (2 : ℝ) ≤ n := by exact_mod_cast hn
  have hgg : 0 < g ⬝ᵥ g := by
    have := (pd_iff.1 (PosDef.one (n := Fin n) (R := ℝ))).2 g hg
    rwa [one_mulVec] at this
  set σ : ℝ := 1 - (n - 1) * H / (r ^ 2 * (g ⬝ᵥ g)) with hσ
  have hσ1 : 0 < 1 - σ := by
    rw [hσ, sub_sub_cancel]; exact div_pos (mul_pos (by linarith) hH) (by positivity)
  set A : Ell n := ⟨true, false, a, 1, r ^ 2⟩ with hA
  have hAp : A.Proper := ⟨hn, PosDef.one, by positivity⟩
  set F : Ell n := ⟨true, false, a + (g ⬝ᵥ (c - a) / (g ⬝ᵥ g)) • g, shape 1 g σ, r ^ 2 * (n / (n - 1))⟩ with hF
  have hk : 0 < (n : ℝ) / (n - 1) := div_pos (by linarith) (by linarith)
  have hg1 : g ⬝ᵥ (1 : Matrix (Fin n) (Fin n) ℝ) *ᵥ g ≠ 0 := by rw [one_mulVec]; exact hgg.ne'
  have hFp : F.Proper := ⟨hn, shape_pd PosDef.one hg1 (by linarith), by positivity⟩
  have hAF : A.pts = euclBall a r := euclBall_eq_pts hn a r true false
  have hsub : euclBall a r ∩ {x | (g ⬝ᵥ (x - c)) ^ 2 ≤ H} ⊆ F.pts := by
    rintro x ⟨hx, hxg⟩ y
    rw [← hAF] at hx
    have hxg : (g ⬝ᵥ (x - c)) ^ 2 ≤ H := hxg
    set α := (y ⬝ᵥ g) / (g ⬝ᵥ g) with hα
    have hαg : y ⬝ᵥ g = α * (g ⬝ᵥ g) := by rw [hα]; field_simp
    have h1 := hx (y - α • g)
    simp only [hA, one_mulVec] at h1
    -- the two components of `y`
    have e1 : (y - α • g) ⬝ᵥ (y - α • g) = y ⬝ᵥ y - α ^ 2 * (g ⬝ᵥ g) := by
      simp only [sub_dotProduct, dotProduct_sub, smul_dotProduct, dotProduct_smul, smul_eq_mul, dotProduct_comm g y, hαg]
      ring
    have e2 : y ⬝ᵥ (x - F.xc) = α * (g ⬝ᵥ (x - c)) + (y - α • g) ⬝ᵥ (x - a) := by
      simp only [hF, sub_dotProduct, dotProduct_sub, dotProduct_add, smul_dotProduct, dotProduct_smul, smul_eq_mul, hαg]
      field_simp; ring
    rw [e1] at h1
    rw [e2]
    simp only [hF, shape_quad, one_mulVec, hαg]
    set p := g ⬝ᵥ (x - c)
    set q := (y - α • g) ⬝ᵥ (x - a)
    set Y := y ⬝ᵥ y
    set G := g ⬝ᵥ g
    have e3 : r ^ 2 * ((n : ℝ) / (n - 1)) * (Y - σ / G * (α * G) ^ 2) = n * (α ^ 2 * H) + n / (n - 1) * (r ^ 2 * (Y - α ^ 2 * G)) := by
      have : (n : ℝ) - 1 ≠ 0 := by linarith
      rw [hσ]; field_simp; ring
    rw [e3]
    have h2 : α ^ 2 * p ^ 2 ≤ α ^ 2 * H := mul_le_mul_of_nonneg_left hxg (sq_nonneg _)
    have h3 : (α * p + q) ^ 2 ≤ n * (α * p) ^ 2 + n / (n - 1) * q ^ 2 := by
      have h4 : 0 ≤ ((n - 1) * (α * p) - q) ^ 2 / (n - 1) := div_nonneg (sq_nonneg _) (by linarith)
      have h5 : n * (α * p) ^ 2 + n / (n - 1) * q ^ 2 - (α * p + q) ^ 2 = ((n - 1) * (α * p) - q) ^ 2 / (n - 1) := by
        have : (n : ℝ) - 1 ≠ 0 := by linarith
        field_simp; ring
      linarith
    have h6 := mul_le_mul_of_nonneg_left h1 hk.le
    have h7 : (n : ℝ) * (α * p) ^ 2 ≤ n * (α ^ 2 * H) := by
      rw [mul_pow]; exact mul_le_mul_of_nonneg_left h2 (by linarith)
    linarith
  refine (measureReal_mono hsub (volume_pts_ne_top hFp)).trans ?_
  rw [← hAF, vol_pts hFp, vol_pts hAp, ← mul_assoc, ← Real.sqrt_mul (by positivity)]
  refine mul_le_mul_of_nonneg_right (Real.sqrt_le_sqrt ?_) euclBall_real_pos.le
  have e : F.vsq = (n / (n - 1)) ^ n * (n - 1) * (H / (r ^ 2 * (g ⬝ᵥ g))) * A.vsq := by
    rw [hF, hA]
    unfold Ell.vsq
    dsimp only
    rw [det_shape hg1, mul_pow, hσ]
    ring
  rw [e]
  have := mul_le_mul_of_nonneg_right (pow_bound hn) (show 0 ≤ H / (r ^ 2 * (g ⬝ᵥ g)) by positivity)
  refine mul_le_mul_of_nonneg_right (this.trans (le_of_eq (by ring))) (vsq_pos hAp).le

/-! ### One rounded update -/

theorem step_vol {l q : ℝ} (hE : E.Proper) (hfl : RelErr u fl) (hu0 : 0 ≤ u) (hu : u ≤ ε) (hdot : VecDotErr ε dot) (hb : StepBounds n C ε η b l q)
    (hC : Resolved C η u E) (hg : g ≠ 0) (hβ0 : 0 ≤ β) (hβ : β ≤ (1 - b) * √(E.kappa * (g ⬝ᵥ E.Q *ᵥ g))) :
    ∃ E' tsq, updateF fl dot (g, .scalar β) E = .ok (E', .success, tsq) ∧ E'.Proper ∧
      |tsq - E.kappa * (g ⬝ᵥ E.Q *ᵥ g)| ≤ E.kappa * (g ⬝ᵥ E.Q *ᵥ g) / 200 ∧
      volume.real ((E.pts ∩ cutSet E.xc (g, .scalar β)) \ E'.pts) ≤ (l ^ n - 1) * volume.real E'.pts ∧
      volume.real E'.pts ≤ q * volume.real E.pts := by
  have hε0 : 0 ≤ ε := hu0.trans hu
  have hb0 := hb.b0
  have hC1 := hb.C1
  have hω : 0 < g ⬝ᵥ E.Q *ᵥ g := (pd_iff.1 hE.pd).2 g hg
  have ht : 0 < E.kappa * (g ⬝ᵥ E.Q *ᵥ g) := mul_pos hE.kappa hω
  have hτ0 : 0 < √(E.kappa * (g ⬝ᵥ E.Q *ᵥ g)) := Real.sqrt_pos.2 ht
  have hs0 : 0 ≤ C ^ 4 * ε / b ^ 2 := by positivity
  have hη := hb.eta
  obtain ⟨E', tsq, h1, h2, h3, h4, h5, h6⟩ := update_sandwich hE hfl hu0 hu hdot hC1 hC.1 hg hb0 hβ0 hβ hb.eps
  refine ⟨E', tsq, h1, h2, h3.trans ?_, ?_, ?_⟩
  · have e1 : C ^ 2 * ε ≤ 1 / 1000 := by
      have e2 : C ^ 2 * ε ≤ C ^ 4 * ε := mul_le_mul_of_nonneg_right (pow_le_pow_right₀ hC1 (by norm_num)) hε0
      have e3 : b ^ 2 ≤ 1 := pow_le_one₀ hb0.le hb.b1
      linarith [hb.eps]
    have := mul_le_mul_of_nonneg_right e1 ht.le
    linarith
  · have hl1 : 1 ≤ l := by
      have : 0 ≤ 2 * η * C / b := by positivity
      linarith [hb.infl]
    refine lost_vol h2 hl1 fun x hx y => (h4 x hx y).trans ?_
    set A' := E'.kappa * (y ⬝ᵥ E'.Q *ᵥ y) with hA'
    set A := E.kappa * (y ⬝ᵥ E.Q *ᵥ y) with hA
    have hq0 : 0 ≤ y ⬝ᵥ E.Q *ᵥ y := (psd_iff.1 hE.pd.posSemidef).2 y
    have hA0 : 0 ≤ A := mul_nonneg hE.kappa.le hq0
    have e1 : u * ∑ i, |y i| * |E.xc i| ≤ η * (C * √A) := by
      rw [Finset.mul_sum]
      have e2 : ∀ i ∈ Finset.univ, u * (|y i| * |E.xc i|) ≤ η * √E.kappa * (√(E.Q i i) * |y i|) := fun i _ => by
        have := mul_le_mul_of_nonneg_left (hC.2 i) (abs_nonneg (y i))
        rw [Real.sqrt_mul hE.kappa.le] at this
        linarith
      refine (Finset.sum_le_sum e2).trans ?_
      rw [← Finset.mul_sum]
      have e3 := mul_le_mul_of_nonneg_left (cond_sum (by linarith) hC.1 y) (show 0 ≤ η * √E.kappa by positivity)
      refine e3.trans (le_of_eq ?_)
      rw [hA, Real.sqrt_mul hE.kappa.le]; ring
    have e4 : √A ≤ 2 / b * √A' := by
      rw [mul_sqrt' (by positivity)]
      refine Real.sqrt_le_sqrt ?_
      have := mul_le_mul_of_nonneg_left (h5 y) (show 0 ≤ (2 / b) ^ 2 by positivity)
      refine le_trans (le_of_eq ?_) this
      field_simp
      ring
    have e5 := mul_le_mul_of_nonneg_left e4 (show 0 ≤ η * C by positivity)
    have e6 := mul_le_mul_of_nonneg_right hb.infl (Real.sqrt_nonneg A')
    have e7 : η * C * (2 / b * √A') = 2 * η * C / b * √A' := by ring
    linarith
  · have hβ' : β < √(E.kappa * (g ⬝ᵥ E.Q *ᵥ g)) := by
      have := mul_pos hb0 hτ0
      linarith
    exact (shrink_vol hE hg hβ0 hβ' (by linarith) h6).trans (mul_le_mul_of_nonneg_right hb.ratio measureReal_nonneg)

/-! ### Accumulated losses -/

/-- What is left of `K` after `j` steps: the volumes shrink by `q`, and little of `K` was lost. -/
structure LossInv (K : Set (Fin n → ℝ)) (V a l q : ℝ) (j : ℕ) (E : Ell n) : Prop where
  proper : E.Proper
  vol : volume.real E.pts ≤ q ^ j * V
  kept : a ≤ volume.real (K ∩ E.pts) + (l ^ n - 1) * (q / (1 - q)) * (1 - q ^ j) * V

theorem LossInv.init {K : Set (Fin n → ℝ)} {l q : ℝ} (hE : E.Proper) : LossInv K (volume.real E.pts) (volume.real (K ∩ E.pts)) l q 0 E :=
  ⟨hE, by simp, by simp⟩

variable {K : Set (Fin n → ℝ)} {V a l q : ℝ} {j : ℕ}

theorem LossInv.total (h : LossInv K V a l q j E) (hV : 0 ≤ V) (hl : 1 ≤ l) (hq0 : 0 ≤ q) (hq : q < 1) :
    a ≤ volume.real (K ∩ E.pts) + (l ^ n - 1) * (q / (1 - q)) * V := by
  have h1 : (1 : ℝ) ≤ l ^ n := one_le_pow₀ hl
  have h2 : 0 ≤ (l ^ n - 1) * (q / (1 - q)) := mul_nonneg (by linarith) (div_nonneg hq0 (by linarith))
  have h3 : (1 - q ^ j) * V ≤ 1 * V := mul_le_mul_of_nonneg_right (by linarith [pow_nonneg hq0 j]) hV
  have := mul_le_mul_of_nonneg_left h3 h2
  linarith [h.kept]

theorem LossInv.bound (h : LossInv K V a l q j E) (hV : 0 ≤ V) (hl : 1 ≤ l) (hq0 : 0 ≤ q) (hq : q < 1) :
    a ≤ ((l ^ n - 1) * (q / (1 - q)) + q ^ j) * V := by
  have h1 := h.total hV hl hq0 hq
  have h2 : volume.real (K ∩ E.pts) ≤ volume.real E.pts := measureReal_mono Set.inter_subset_right (volume_pts_ne_top h.proper)
  linarith [h.vol]

theorem StepBounds.facts (hb : StepBounds n C ε η b l q) (hε0 : 0 ≤ ε) : 1 ≤ l ∧ 0 ≤ q := by
  have h0 := hb.b0
  have h1 := hb.C1
  have h2 := hb.eta
  refine ⟨?_, le_trans (by positivity) hb.ratio⟩
  have : 0 ≤ 350 * (C ^ 4 * ε / b ^ 2) + 2 * η * C / b := by positivity
  linarith [hb.infl]

/-- A cut that keeps `K` cannot be too deep while most of `K` is there. -/
theorem LossInv.shallow (h : LossInv K V a l q j E) (hV : 0 ≤ V) (hq : q < 1) (hε0 : 0 ≤ ε) (hb : StepBounds n C ε η b l q) (hg : g ≠ 0)
    (hK : K ⊆ cutSet E.xc (g, .scalar β)) (hfat : ((l ^ n - 1) * (q / (1 - q)) + √((8 / 3 * b) ^ n * b)) * V < a) :
    β ≤ (1 - b) * √(E.kappa * (g ⬝ᵥ E.Q *ᵥ g)) := by
  obtain ⟨hl, hq0⟩ := hb.facts hε0
  have hEt := volume_pts_ne_top h.proper
  by_contra hc
  have h1 := cap_vol h.proper hg hb.b0 hb.b1 (not_le.1 hc).le
  have h2 : volume.real (K ∩ E.pts) ≤ volume.real (E.pts ∩ cutSet E.xc (g, .scalar β)) :=
    measureReal_mono (fun x hx => ⟨hx.2, hK hx.1⟩) (measure_ne_top_of_subset Set.inter_subset_left hEt)
  have h3 := h.total hV hl hq0 hq
  have h4 : volume.real E.pts ≤ 1 * V := h.vol.trans (mul_le_mul_of_nonneg_right (pow_le_one₀ hq0 hq.le) hV)
  have h5 := mul_le_mul_of_nonneg_left h4 (Real.sqrt_nonneg ((8 / 3 * b) ^ n * b))
  linarith

/-- An update that shrinks the volume and loses little. -/
theorem LossInv.next (h : LossInv K V a l q j E) (hq : q < 1) (hl : 1 ≤ l) (hq0 : 0 ≤ q) {S : Set (Fin n → ℝ)} (hK : K ⊆ S) (k2 : E'.Proper)
    (k4 : volume.real ((E.pts ∩ S) \ E'.pts) ≤ (l ^ n - 1) * volume.real E'.pts) (k5 : volume.real E'.pts ≤ q * volume.real E.pts) :
    LossInv K V a l q (j + 1) E' := by
  have hL : (1 : ℝ) ≤ l ^ n := one_le_pow₀ hl
  have hEt := volume_pts_ne_top h.proper
  have hv : volume.real E'.pts ≤ q ^ (j + 1) * V := by
    have := mul_le_mul_of_nonneg_left h.vol hq0
    rw [pow_succ]; linarith
  refine ⟨k2, hv, ?_⟩
  have hE't := volume_pts_ne_top k2
  have h1 : volume.real (K ∩ E.pts) ≤ volume.real (K ∩ E'.pts) + volume.real ((E.pts ∩ S) \ E'.pts) := by
    have hsub : K ∩ E.pts ⊆ (K ∩ E'.pts) ∪ ((E.pts ∩ S) \ E'.pts) := fun x hx => by
      by_cases hx' : x ∈ E'.pts
      · exact .inl ⟨hx.1, hx'⟩
      · exact .inr ⟨⟨hx.2, hK hx.1⟩, hx'⟩
    have hfin : volume ((K ∩ E'.pts) ∪ ((E.pts ∩ S) \ E'.pts)) ≠ ⊤ := by
      refine measure_union_ne_top (measure_ne_top_of_subset Set.inter_subset_right hE't) ?_
      exact measure_ne_top_of_subset (Set.sdiff_subset.trans Set.inter_subset_left) hEt
    exact (measureReal_mono hsub hfin).trans (measureReal_union_le _ _)
  have h2 := mul_le_mul_of_nonneg_left hv (show 0 ≤ l ^ n - 1 by linarith)
  have h3 := h.kept
  have h4 : q / (1 - q) * (1 - q ^ (j + 1)) = q / (1 - q) * (1 - q ^ j) + q ^ (j + 1) := by
    have : 1 - q ≠ 0 := by linarith
    field_simp; ring
  have h5 : (l ^ n - 1) * (q / (1 - q)) * (1 - q ^ (j + 1)) * V =
      (l ^ n - 1) * (q / (1 - q)) * (1 - q ^ j) * V + (l ^ n - 1) * (q ^ (j + 1) * V) := by
    rw [mul_assoc (l ^ n - 1), h4]; ring
  rw [h5]
  linarith

/-- The update succeeds and loses little of `K`. -/
theorem LossInv.step (h : LossInv K V a l q j E) (hV : 0 ≤ V) (hq : q < 1)
    (hfl : RelErr u fl) (hu0 : 0 ≤ u) (hu : u ≤ ε) (hdot : VecDotErr ε dot) (hb : StepBounds n C ε η b l q) (hC : Resolved C η u E) (hg : g ≠ 0)
    (hβ0 : 0 ≤ β) (hK : K ⊆ cutSet E.xc (g, .scalar β)) (hfat : ((l ^ n - 1) * (q / (1 - q)) + √((8 / 3 * b) ^ n * b)) * V < a) :
    ∃ E' tsq, updateF fl dot (g, .scalar β) E = .ok (E', .success, tsq) ∧ |tsq - E.kappa * (g ⬝ᵥ E.Q *ᵥ g)| ≤ E.kappa * (g ⬝ᵥ E.Q *ᵥ g) / 200 ∧
      LossInv K V a l q (j + 1) E' := by
  obtain ⟨hl, hq0⟩ := hb.facts (hu0.trans hu)
  have hβ := h.shallow hV hq (hu0.trans hu) hb hg hK hfat
  obtain ⟨E', tsq, k1, k2, k3, k4, k5⟩ := step_vol h.proper hfl hu0 hu hdot hb hC hg hβ0 hβ
  exact ⟨E', tsq, k1, k3, h.next hq hl hq0 hK k2 k4 k5⟩

end Verif
