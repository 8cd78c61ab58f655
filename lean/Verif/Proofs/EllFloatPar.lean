import Verif.Proofs.EllFloatCore
import Verif.Proofs.EllParallel

/-! # Rounding errors of the parameters of a parallel cut

Everything is relative to `τ`: the bounds are `b0 = τ x`, `b1 = τ y` with `0 ≤ x`, `x + θ ≤ y ≤ 1`. -/
namespace Verif
open Matrix Ell

/-- A relative error as an absolute one. -/
theorem Rel.absn {a x x' : ℝ} (h : Rel a x' x) (hx : 0 ≤ x) : |x' - x| ≤ a * x := by
  unfold Rel at h; rwa [abs_of_nonneg hx] at h

namespace ParF
variable {n : ℕ} {u t θ x y τ : ℝ} {fl : ℝ → ℝ}

/-- The exact parameters. -/
noncomputable def xiP (n : ℕ) (x y : ℝ) : ℝ := √((1 - x ^ 2) * (1 - y ^ 2) + (n / 2 * (x + y) * (y - x)) ^ 2)
noncomputable def sigmaP (n : ℕ) (x y : ℝ) : ℝ := n / (n + 1) + (1 + x * y - xiP n x y) / ((x + y) ^ 2 / 2 * (n + 1))
noncomputable def zetaP (n : ℕ) (x y : ℝ) : ℝ := ((1 - x ^ 2) + (1 - y ^ 2)) / 2 + xiP n x y / n
noncomputable def deltaP (n : ℕ) (x y : ℝ) : ℝ := c1 n * zetaP n x y
/-- The scale of the errors. -/
noncomputable def scaleP (n : ℕ) (x y : ℝ) : ℝ := 1 + 1 / xiP n x y + xiP n x y

/-- The situation: a slab of relative width at least `θ`, errors of size `t`. -/
structure Ctx (n : ℕ) (t θ x y : ℝ) : Prop where
  hn : 2 ≤ n
  hx : 0 ≤ x
  hθ : 0 < θ
  hxy : x + θ ≤ y
  hy : y ≤ 1
  ht0 : 0 ≤ t
  ht : 10000 * t ≤ θ ^ 2

namespace Ctx
variable (h : Ctx n t θ x y)
include h

theorem hn' : (2 : ℝ) ≤ n := by exact_mod_cast h.hn

theorem theta_le : θ ≤ 1 := by linarith [h.hx, h.hxy, h.hy]

theorem t_le : t ≤ 1 / 10000 := by
  have h1 := h.ht
  have h2 : θ ^ 2 ≤ 1 := pow_le_one₀ h.hθ.le h.theta_le
  linarith

/-- `t` is at most `t / θ²`. -/
theorem t_le_div : t ≤ t / θ ^ 2 := by
  have h2 : θ ^ 2 ≤ 1 := pow_le_one₀ h.hθ.le h.theta_le
  rw [le_div_iff₀ (by have := h.hθ; positivity)]
  have := mul_le_mul_of_nonneg_left h2 h.ht0
  linarith

theorem t_div_le : t / θ ^ 2 ≤ 1 / 10000 := by
  rw [div_le_iff₀ (by have := h.hθ; positivity)]
  linarith [h.ht]

theorem arg_nonneg : 0 ≤ (1 - x ^ 2) * (1 - y ^ 2) + (n / 2 * (x + y) * (y - x)) ^ 2 := par_arg_nonneg h.hn x y

theorem xi_sq : xiP n x y ^ 2 = (1 - x ^ 2) * (1 - y ^ 2) + (n / 2 * (x + y) * (y - x)) ^ 2 := Real.sq_sqrt h.arg_nonneg

theorem x2 : 0 ≤ x ^ 2 ∧ x ^ 2 ≤ 1 ∧ 0 ≤ y ^ 2 ∧ y ^ 2 ≤ 1 := by
  have := h.hx; have := h.hxy; have := h.hy; have := h.hθ
  exact ⟨sq_nonneg _, pow_le_one₀ (by linarith) (by linarith), sq_nonneg _, pow_le_one₀ (by linarith) (by linarith)⟩

theorem tt : 0 ≤ (1 - x ^ 2) * (1 - y ^ 2) ∧ (1 - x ^ 2) * (1 - y ^ 2) ≤ 1 := by
  obtain ⟨a, b, c, d⟩ := h.x2
  exact ⟨mul_nonneg (by linarith) (by linarith), mul_le_one₀ (by linarith) (by linarith) (by linarith)⟩

/-- The two regimes. -/
theorem xi_cases : (1 / 2 ≤ x + y ∧ (x + y) * θ ≤ xiP n x y) ∨ (1 / 2 ≤ xiP n x y) := by
  have hn' := h.hn'
  have := h.hx; have := h.hxy; have := h.hy; have := h.hθ
  rcases le_or_gt (1 / 2) (x + y) with hs | hs
  · left
    refine ⟨hs, ?_⟩
    unfold xiP
    refine Real.le_sqrt_of_sq_le ?_
    have e1 : (x + y) * θ ≤ n / 2 * (x + y) * (y - x) := by
      have a1 : (x + y) * θ ≤ (x + y) * (y - x) := mul_le_mul_of_nonneg_left (by linarith) (by linarith)
      have a2 : 1 * ((x + y) * (y - x)) ≤ n / 2 * ((x + y) * (y - x)) :=
        mul_le_mul_of_nonneg_right (by linarith) (mul_nonneg (by linarith) (by linarith))
      linarith
    have e2 : ((x + y) * θ) ^ 2 ≤ (n / 2 * (x + y) * (y - x)) ^ 2 := pow_le_pow_left₀ (by nlinarith) e1 2
    linarith [h.tt.1]
  · right
    unfold xiP
    refine Real.le_sqrt_of_sq_le ?_
    have e1 : (1 / 2 : ℝ) ^ 2 ≤ (1 - x ^ 2) * (1 - y ^ 2) := by
      have a1 : x ^ 2 + y ^ 2 ≤ (x + y) ^ 2 := by nlinarith
      have a2 : (x + y) ^ 2 ≤ (1 / 2) ^ 2 := pow_le_pow_left₀ (by linarith) hs.le 2
      have a3 : 0 ≤ x ^ 2 * y ^ 2 := by positivity
      nlinarith
    linarith [sq_nonneg (n / 2 * (x + y) * (y - x))]

theorem xi_ge : θ / 2 ≤ xiP n x y := by
  have := h.theta_le; have := h.hθ
  rcases h.xi_cases with ⟨h1, h2⟩ | h1
  · nlinarith
  · linarith

theorem xi_pos : 0 < xiP n x y := by have := h.xi_ge; have := h.hθ; linarith

theorem sum_ge : θ ≤ x + y := by linarith [h.hx, h.hxy]

theorem sum_sq : θ ^ 2 ≤ (x + y) ^ 2 := pow_le_pow_left₀ h.hθ.le h.sum_ge 2

theorem xi_sum : θ ^ 2 / 8 ≤ xiP n x y * (x + y) ^ 2 := by
  have h0 := h.theta_le; have h1 := h.hθ; have h2 := h.sum_sq; have h5 := h.sum_ge
  rcases h.xi_cases with ⟨h3, h4⟩ | h3
  · have e1 : (1 / 2 : ℝ) ^ 3 ≤ (x + y) ^ 3 := pow_le_pow_left₀ (by norm_num) h3 3
    have e2 := mul_le_mul_of_nonneg_right h4 (sq_nonneg (x + y))
    have e3 := mul_le_mul_of_nonneg_right e1 h1.le
    have e4 : θ ^ 2 ≤ θ := by nlinarith
    have e5 : (x + y) * θ * (x + y) ^ 2 = (x + y) ^ 3 * θ := by ring
    linarith
  · have e1 := mul_le_mul h3 h2 (by positivity) h.xi_pos.le
    nlinarith

theorem xi_le : xiP n x y ≤ 1 + n / 2 := by
  have hn' := h.hn'
  have := h.hx; have := h.hxy; have := h.hy; have := h.hθ
  unfold xiP
  rw [Real.sqrt_le_left (by linarith)]
  have e1 : (x + y) * (y - x) ≤ 1 := by nlinarith
  have e2 : 0 ≤ (x + y) * (y - x) := mul_nonneg (by linarith) (by linarith)
  have e3 : (n / 2 * (x + y) * (y - x)) ^ 2 ≤ (n / 2 : ℝ) ^ 2 := by
    refine pow_le_pow_left₀ (by rw [mul_assoc]; positivity) ?_ 2
    rw [mul_assoc]
    have := mul_le_mul_of_nonneg_left e1 (show (0 : ℝ) ≤ n / 2 by positivity)
    linarith
  nlinarith [h.tt.2]

theorem scale_ge : 1 ≤ scaleP n x y := by
  unfold scaleP
  have := h.xi_pos
  have : 0 < 1 / xiP n x y := by positivity
  linarith

/-- The scale against the denominator of `sigma`. -/
theorem scale_le : scaleP n x y / ((x + y) ^ 2 / 2 * (n + 1)) ≤ 8 / θ ^ 2 := by
  have hn' := h.hn'
  have hξ := h.xi_pos
  have h1 := h.sum_sq
  have hθ := h.hθ
  have hS : 0 < (x + y) ^ 2 := lt_of_lt_of_le (by positivity) h1
  rw [div_le_div_iff₀ (by positivity) (by positivity)]
  unfold scaleP
  have e1 : θ ^ 2 * (1 / xiP n x y) ≤ 8 * (x + y) ^ 2 := by
    rw [mul_one_div, div_le_iff₀ hξ]
    have := h.xi_sum
    linarith
  have e2 : θ ^ 2 * xiP n x y ≤ (x + y) ^ 2 * (1 + n / 2) := mul_le_mul h1 h.xi_le hξ.le hS.le
  have e3 : (x + y) ^ 2 * (10 + n / 2) ≤ (x + y) ^ 2 * (4 * (n + 1)) := mul_le_mul_of_nonneg_left (by linarith) hS.le
  linarith

theorem zeta_ge : θ / 2 ≤ zetaP n x y := by
  have hn' := h.hn'
  have hξ := h.xi_pos
  obtain ⟨a, b, c, d⟩ := h.x2
  have := h.hx; have := h.hxy; have := h.hy; have := h.hθ
  unfold zetaP
  have e1 : 0 < xiP n x y / n := by positivity
  nlinarith

theorem zeta_le : zetaP n x y ≤ 2 := by
  have hn' := h.hn'
  obtain ⟨a, b, c, d⟩ := h.x2
  unfold zetaP
  have e1 : xiP n x y / n ≤ 1 := by rw [div_le_one (by linarith)]; linarith [h.xi_le]
  linarith

/-- The exact bounds on the exact parameters. -/
theorem exact : 0 ≤ sigmaP n x y ∧ θ ^ 2 / 12 ≤ 1 - sigmaP n x y ∧ 0 < deltaP n x y ∧
    θ ^ 2 / 12 ≤ deltaP n x y * (1 - sigmaP n x y) ∧
    ∀ v, v + x ≤ 0 → 0 ≤ v + y → KeepsAt 1 (sigmaP n x y * ((x + y) / 2)) (sigmaP n x y) (deltaP n x y) v := by
  have hn' := h.hn'
  obtain ⟨a, b, c, d⟩ := h.x2
  have hx := h.hx; have hxy := h.hxy; have hy := h.hy; have hθ := h.hθ
  obtain ⟨hr, -, hk⟩ := par_norm (x := x) (y := y) (σ := sigmaP n x y) (δ := deltaP n x y) h.hn d (by linarith)
    (by have : 0 ≤ (n : ℝ) * (x * y) := mul_nonneg (by linarith) (mul_nonneg hx (by linarith)); linarith) (by linarith) h.xi_pos.le h.xi_sq rfl rfl
  have hc1 : 0 < c1 n ∧ c1 n ≤ 4 / 3 := by
    unfold c1
    refine ⟨div_pos (by positivity) (by nlinarith), ?_⟩
    rw [div_le_iff₀ (by nlinarith)]; nlinarith
  have hδ0 : 0 < deltaP n x y := mul_pos hc1.1 (by linarith [h.zeta_ge])
  have hδ1 : deltaP n x y ≤ 8 / 3 := by
    unfold deltaP
    have := mul_le_mul hc1.2 h.zeta_le (by linarith [h.zeta_ge]) (by norm_num)
    linarith
  set σ := sigmaP n x y
  set δ := deltaP n x y
  have hw : θ ^ 2 / 4 ≤ δ * (1 - σ) := by
    obtain ⟨k1, -⟩ := hk (-x) (by linarith) (by linarith)
    obtain ⟨k2, -⟩ := hk (-y) (by linarith) (by linarith)
    have hs1 : 0 ≤ 1 - σ := by linarith [hr.s1]
    have m1 : (1 - σ) * (1 * δ - 1 + (-x) ^ 2) ≤ (1 - σ) * δ := mul_le_mul_of_nonneg_left (by rw [neg_sq]; linarith) hs1
    have m2 : (1 - σ) * (1 * δ - 1 + (-y) ^ 2) ≤ (1 - σ) * δ := mul_le_mul_of_nonneg_left (by rw [neg_sq]; linarith) hs1
    have m3 : θ ^ 2 ≤ (y - x) ^ 2 := pow_le_pow_left₀ hθ.le (by linarith) 2
    nlinarith [sq_nonneg (-x + σ * ((x + y) / 2) + (-y + σ * ((x + y) / 2)))]
  refine ⟨hr.s0, ?_, hδ0, by nlinarith, hk⟩
  have hs1 : 0 ≤ 1 - σ := by linarith [hr.s1]
  have := mul_le_mul_of_nonneg_right hδ1 hs1
  nlinarith [sq_nonneg θ]

end Ctx

/-! ### The rounded parameters -/

variable (h : Ctx n t θ x y) (hfl : RelErr u fl) (hu0 : 0 ≤ u) (hu : u ≤ t)
include h hfl hu0 hu

/-- The square root. -/
theorem xi_err {D' : ℝ} (hD : |D' - xiP n x y ^ 2| ≤ 34 * t * (1 + xiP n x y ^ 2)) :
    ∃ ξ', sqrtF fl D' = .ok ξ' ∧ |ξ' - xiP n x y| ≤ 36 * t * (1 / xiP n x y + xiP n x y) := by
  have hξ := h.xi_pos
  have ht0 := h.ht0
  have ht1 := h.t_le
  set ξ := xiP n x y with hξd
  have hD0 : 0 ≤ D' := by
    have h1 := (abs_le.1 hD).1
    have h2 : θ ^ 2 / 4 ≤ ξ ^ 2 := by
      have := pow_le_pow_left₀ (by linarith [h.hθ]) h.xi_ge 2
      rw [← hξd] at this
      linarith [show (θ / 2) ^ 2 = θ ^ 2 / 4 by ring]
    have h3 : 34 * t * ξ ^ 2 ≤ 34 / 10000 * ξ ^ 2 := mul_le_mul_of_nonneg_right (by linarith) (sq_nonneg _)
    have h4 := h.ht
    nlinarith [sq_nonneg θ]
  refine ⟨fl √D', by unfold sqrtF; rw [pySqrt_ok.2 ⟨hD0, rfl⟩]; rfl, ?_⟩
  have h1 : |√D' - ξ| ≤ 34 * t * (1 / ξ + ξ) := by
    have e1 : (√D' - ξ) * (√D' + ξ) = D' - ξ ^ 2 := by
      have := Real.sq_sqrt hD0; ring_nf; linarith
    have e2 : |√D' - ξ| * ξ ≤ |√D' - ξ| * |√D' + ξ| := by
      refine mul_le_mul_of_nonneg_left ?_ (abs_nonneg _)
      rw [abs_of_pos (by positivity)]
      linarith [Real.sqrt_nonneg D']
    rw [← abs_mul, e1] at e2
    have e3 : 34 * t * (1 / ξ + ξ) * ξ = 34 * t * (1 + ξ ^ 2) := by field_simp
    exact le_of_mul_le_mul_right (by linarith) hξ
  refine (fl_near hfl hu0 h1 (abs_of_pos hξ).le).trans ?_
  have e0 : 0 < 1 / ξ := by positivity
  have e1 : u * ξ ≤ t * (1 / ξ + ξ) := mul_le_mul hu (by linarith) hξ.le ht0
  have e2 : u * (34 * t * (1 / ξ + ξ)) ≤ 1 / 10000 * (34 * t * (1 / ξ + ξ)) := mul_le_mul_of_nonneg_right (by linarith) (by positivity)
  have e3 : 0 ≤ t * (1 / ξ + ξ) := by positivity
  linarith

/-- The quotient in `sigma`, and `sigma`. -/
theorem sigma_err {N N' M M' k : ℝ} (hk : 0 < k) (hkM : k * ((x + y) ^ 2 / 2 * (n + 1)) = M)
    (hN : k * (1 + x * y - xiP n x y) = N) (hN' : |N' - N| ≤ 42 * t * (k * scaleP n x y)) (hM' : Rel (16 * t) M' M) :
    M' ≠ 0 ∧ |fl (c3F fl n + fl (N' / M')) - sigmaP n x y| ≤ 630 * (t / θ ^ 2) := by
  have hn' := h.hn'
  have hξ := h.xi_pos
  have hθ := h.hθ
  have ht0 := h.ht0
  have ht1 := h.t_le
  have htd := h.t_le_div
  have htd' := h.t_div_le
  have hS : 0 < (x + y) ^ 2 := lt_of_lt_of_le (by positivity) h.sum_sq
  set m := (x + y) ^ 2 / 2 * ((n : ℝ) + 1) with hm
  have hm0 : 0 < m := by positivity
  have hM0 : 0 < M := by rw [← hkM]; positivity
  have hM'0 : 0 < M' := hM'.pos hM0 (by linarith)
  set W := scaleP n x y with hW
  have hW1 : 1 ≤ W := h.scale_ge
  have hWm : W / m ≤ 8 / θ ^ 2 := h.scale_le
  have hWm0 : 0 ≤ W / m := by positivity
  have hq : N / M = (1 + x * y - xiP n x y) / m := by rw [← hN, ← hkM]; field_simp
  have hNW : |N| ≤ 2 * (k * W) := by
    rw [← hN, abs_mul, abs_of_pos hk]
    have e1 : |1 + x * y - xiP n x y| ≤ 2 * W := by
      have a0 : 0 ≤ x * y := mul_nonneg h.hx (by linarith [h.hx, h.hxy])
      have a1 : x * y ≤ 1 := by nlinarith [h.hx, h.hxy, h.hy]
      have a2 : 0 < 1 / xiP n x y := by positivity
      rw [hW]; unfold scaleP
      rw [abs_le]; constructor <;> linarith
    have := mul_le_mul_of_nonneg_left e1 hk.le
    linarith
  refine ⟨hM'0.ne', ?_⟩
  have h1 : |N' / M' - N / M| ≤ 75 * t * (W / m) := by
    have e1 : N' / M' - N / M = ((N' - N) * M - N * (M' - M)) / (M' * M) := by field_simp; ring
    have e0 : |M' - M| ≤ 16 * t * M := by have := hM'; unfold Rel at this; rwa [abs_of_pos hM0] at this
    rw [e1, abs_div, abs_of_pos (mul_pos hM'0 hM0), div_le_iff₀ (by positivity)]
    have e2 : |(N' - N) * M - N * (M' - M)| ≤ 74 * t * (k * W) * M := by
      refine (abs_sub _ _).trans ?_
      rw [abs_mul, abs_mul, abs_of_pos hM0]
      have a1 := mul_le_mul_of_nonneg_right hN' hM0.le
      have a2 := mul_le_mul hNW e0 (abs_nonneg _) (by positivity)
      linarith
    refine e2.trans ?_
    have e3 : 99 / 100 * M ≤ M' := le_trans (mul_le_mul_of_nonneg_right (by linarith) hM0.le) (hM'.lower hM0.le)
    have e4 : 75 * t * (W / m) * (99 / 100 * M * M) ≤ 75 * t * (W / m) * (M' * M) :=
      mul_le_mul_of_nonneg_left (mul_le_mul_of_nonneg_right e3 hM0.le) (by positivity)
    refine le_trans ?_ e4
    have e5 : 75 * t * (W / m) * (99 / 100 * M * M) = 297 / 4 * t * (k * W) * M := by
      rw [← hkM]; field_simp; ring
    rw [e5]
    have : 0 ≤ t * (k * W) * M := by positivity
    linarith
  have h1' : |N' / M' - N / M| ≤ 600 * (t / θ ^ 2) := by
    refine h1.trans ?_
    have := mul_le_mul_of_nonneg_left hWm (show 0 ≤ 75 * t by positivity)
    have e : 75 * t * (8 / θ ^ 2) = 600 * (t / θ ^ 2) := by ring
    linarith
  have h2 : |N / M| ≤ 16 / θ ^ 2 := by
    rw [abs_div, abs_of_pos hM0, div_le_iff₀ hM0]
    have e1 : k * W = W / m * M := by rw [← hkM]; field_simp
    have e2 := mul_le_mul_of_nonneg_right hWm hM0.le
    have e3 : 16 / θ ^ 2 * M = 2 * (8 / θ ^ 2 * M) := by ring
    linarith
  have h3 : |fl (N' / M') - N / M| ≤ 617 * (t / θ ^ 2) := by
    refine (fl_near hfl hu0 h1' h2).trans ?_
    have e1 : u * (16 / θ ^ 2) ≤ t * (16 / θ ^ 2) := mul_le_mul_of_nonneg_right hu (by positivity)
    have e2 : t * (16 / θ ^ 2) = 16 * (t / θ ^ 2) := by ring
    have e3 : u * (600 * (t / θ ^ 2)) ≤ 1 / 10000 * (600 * (t / θ ^ 2)) := mul_le_mul_of_nonneg_right (by linarith) (by positivity)
    have e4 : 0 ≤ t / θ ^ 2 := by positivity
    linarith
  have h4 : |c3F fl n - n / (n + 1)| ≤ t := by
    have := hfl ((n : ℝ) / (n + 1))
    have e1 : |(n : ℝ) / (n + 1)| ≤ 1 := by
      rw [abs_of_nonneg (by positivity), div_le_one (by linarith)]; linarith
    have e2 := mul_le_mul_of_nonneg_left e1 hu0
    unfold c3F
    linarith
  have h5 : |c3F fl n + fl (N' / M') - sigmaP n x y| ≤ 618 * (t / θ ^ 2) := by
    have e1 : c3F fl n + fl (N' / M') - sigmaP n x y = (c3F fl n - n / (n + 1)) + (fl (N' / M') - N / M) := by
      rw [hq]; unfold sigmaP; ring
    rw [e1]
    exact (abs_add_le _ _).trans (by linarith)
  obtain ⟨s0, s1, -⟩ := h.exact
  have h6 : |sigmaP n x y| ≤ 1 := by
    rw [abs_of_nonneg s0]
    have : 0 ≤ θ ^ 2 / 12 := by positivity
    linarith
  refine (fl_near hfl hu0 h5 h6).trans ?_
  have e3 : u * (618 * (t / θ ^ 2)) ≤ 1 / 10000 * (618 * (t / θ ^ 2)) := mul_le_mul_of_nonneg_right (by linarith) (by positivity)
  have e4 : 0 ≤ t / θ ^ 2 := by positivity
  linarith

/-- `delta`. -/
theorem delta_err {ξ' m' : ℝ} (hξ' : |ξ' - xiP n x y| ≤ 36 * t * (1 / xiP n x y + xiP n x y))
    (hm' : |m' - ((1 - x ^ 2) + (1 - y ^ 2)) / 2| ≤ 25 / 2 * t) :
    Rel (230 * (t / θ ^ 2)) (fl (c1F fl n * fl (m' + fl (ξ' / n)))) (deltaP n x y) := by
  have hn' := h.hn'
  have hξ := h.xi_pos
  have hθ := h.hθ
  have ht0 := h.ht0
  have ht1 := h.t_le
  have htd := h.t_le_div
  have htd' := h.t_div_le
  have hz := h.zeta_ge
  have hzξ : xiP n x y / n ≤ zetaP n x y := by
    obtain ⟨a, b, c, d⟩ := h.x2
    unfold zetaP; linarith
  have hξge := h.xi_ge
  set ξ := xiP n x y with hξd
  set Z := zetaP n x y with hZ
  have hZ0 : 0 < Z := by linarith
  have hi : 0 < 1 / ξ := by positivity
  have hn0 : (0 : ℝ) < n := by linarith
  have h1 : |ξ' / n - ξ / n| ≤ 36 * t * ((1 / ξ + ξ) / n) := by
    rw [← sub_div, abs_div, abs_of_pos hn0, div_le_iff₀ hn0]
    have : 36 * t * ((1 / ξ + ξ) / n) * n = 36 * t * (1 / ξ + ξ) := by field_simp
    linarith
  have hbn : 0 ≤ (1 / ξ + ξ) / n := by positivity
  have h2 : |fl (ξ' / n) - ξ / n| ≤ 38 * t * ((1 / ξ + ξ) / n) := by
    refine (fl_near hfl hu0 h1 (abs_of_pos (by positivity)).le).trans ?_
    have e1 : u * (ξ / n) ≤ t * ((1 / ξ + ξ) / n) := by
      refine mul_le_mul hu ?_ (by positivity) ht0
      exact div_le_div_of_nonneg_right (by linarith) hn0.le
    have e2 : u * (36 * t * ((1 / ξ + ξ) / n)) ≤ 1 / 10000 * (36 * t * ((1 / ξ + ξ) / n)) :=
      mul_le_mul_of_nonneg_right (by linarith) (by positivity)
    have e3 : 0 ≤ t * ((1 / ξ + ξ) / n) := by positivity
    linarith
  -- both parts of the error against `Z`
  have k1 : t ≤ 2 * (t / θ ^ 2) * Z := by
    have e1 : 2 * (t / θ ^ 2) * (θ / 2) ≤ 2 * (t / θ ^ 2) * Z := mul_le_mul_of_nonneg_left hz (by positivity)
    have e2 : 2 * (t / θ ^ 2) * (θ / 2) = t / θ := by field_simp
    have e3 : t ≤ t / θ := by
      rw [le_div_iff₀ hθ]
      have := mul_le_mul_of_nonneg_left h.theta_le ht0
      linarith
    linarith
  have k2 : t * ((1 / ξ + ξ) / n) ≤ 5 * (t / θ ^ 2) * Z := by
    have e1 : (1 / ξ + ξ) / n = (1 / ξ ^ 2 + 1) * (ξ / n) := by field_simp
    have e2 : 1 / ξ ^ 2 ≤ 4 / θ ^ 2 := by
      rw [div_le_div_iff₀ (by positivity) (by positivity)]
      have := pow_le_pow_left₀ (by linarith) hξge 2
      linarith [show (θ / 2) ^ 2 = θ ^ 2 / 4 by ring]
    have e3 : (1 : ℝ) ≤ 1 / θ ^ 2 := by
      rw [le_div_iff₀ (by positivity)]
      have := pow_le_one₀ (n := 2) hθ.le h.theta_le
      linarith
    have e4 : (1 / ξ ^ 2 + 1) * (ξ / n) ≤ 5 / θ ^ 2 * Z := by
      refine mul_le_mul ?_ hzξ (by positivity) (by positivity)
      have : 5 / θ ^ 2 = 4 / θ ^ 2 + 1 / θ ^ 2 := by ring
      linarith
    have e5 := mul_le_mul_of_nonneg_left e4 ht0
    rw [e1]
    have e6 : t * (5 / θ ^ 2 * Z) = 5 * (t / θ ^ 2) * Z := by ring
    linarith
  have h3 : Rel (215 * (t / θ ^ 2)) (m' + fl (ξ' / n)) Z := by
    unfold Rel
    rw [abs_of_pos hZ0]
    have e1 : m' + fl (ξ' / n) - Z = (m' - ((1 - x ^ 2) + (1 - y ^ 2)) / 2) + (fl (ξ' / n) - ξ / n) := by
      rw [hZ]; unfold zetaP; rw [← hξd]; ring
    rw [e1]
    refine (abs_add_le _ _).trans ?_
    have : 0 ≤ t / θ ^ 2 * Z := by positivity
    linarith
  have h4 : Rel (217 * (t / θ ^ 2)) (fl (m' + fl (ξ' / n))) Z := (h3.round hfl hu0 (by linarith)).mono (by linarith)
  have hc1 := c1F_rel h.hn hfl hu0 (by linarith)
  unfold deltaP
  exact ((hc1.mul h4 (by positivity) (by linarith)).round hfl hu0 (by linarith)).mono (by linarith)

set_option maxHeartbeats 2000000 in
/-- Everything together: the code falls back to the deep cut, or the parameters are accurate. -/
theorem core_err (hτ : 0 < τ) {tsq : ℝ} (htsq : Rel (41 / 10 * t) tsq (τ ^ 2)) :
    calcLlCoreF fl n true tsq (τ * x) (τ * y) = calcDcF fl n tsq (τ * x) ∨
      ∃ ρ' σ' δ', calcLlCoreF fl n true tsq (τ * x) (τ * y) = .ok (.accept ρ' σ' δ', tsq) ∧
        |ρ' - τ * (sigmaP n x y * ((x + y) / 2))| ≤ 650 * (t / θ ^ 2) * τ ∧ |σ' - sigmaP n x y| ≤ 650 * (t / θ ^ 2) ∧
        Rel (650 * (t / θ ^ 2)) δ' (deltaP n x y) := by
  have hn' := h.hn'
  have hξ := h.xi_pos
  have hθ := h.hθ
  have ht0 := h.ht0
  have ht1 := h.t_le
  have htd := h.t_le_div
  have htd' := h.t_div_le
  have htd0 : 0 ≤ t / θ ^ 2 := by positivity
  have hx := h.hx
  have hy0 : 0 < y := by linarith [h.hxy]
  have hyx : 0 < y - x := by linarith [h.hxy]
  have hxy1 : x ≤ 1 := by linarith [h.hy]
  obtain ⟨a1, a2, a3, a4⟩ := h.x2
  obtain ⟨s0, s1, -⟩ := h.exact
  have hs1 : |sigmaP n x y| ≤ 1 := by
    rw [abs_of_nonneg s0]
    have : 0 ≤ θ ^ 2 / 12 := by positivity
    linarith
  have htsq0 : 0 < tsq := htsq.pos (by positivity) (by linarith)
  have hdt : ∀ a, divF fl a tsq = .ok (fl (a / tsq)) := fun a => by unfold divF pyDiv; rw [if_neg htsq0.ne']; rfl
  have hdn : ∀ a, divF fl a (n : ℝ) = .ok (fl (a / n)) := fun a => by
    unfold divF pyDiv; rw [if_neg (by linarith)]; rfl
  -- a bound divided by `tsq`
  have hq : ∀ z, Rel (66 / 10 * t) (fl (τ * z / tsq)) (z / τ) := fun z => by
    have := (((Rel.refl (x := τ * z) le_rfl).div htsq le_rfl (by positivity) (by linarith) (by positivity)).round hfl hu0
      (by linarith)).mono (by linarith : _ ≤ 66 / 10 * t)
    rwa [show τ * z / τ ^ 2 = z / τ by field_simp] at this
  have hqq : ∀ z z', Rel (86 / 10 * t) (fl (τ * z' * fl (τ * z / tsq))) (z' * z) := fun z z' => by
    have := (((hq z).mul_left (τ * z')).round hfl hu0 (by linarith)).mono (by linarith : _ ≤ 86 / 10 * t)
    rwa [show τ * z' * (z / τ) = z' * z by field_simp] at this
  have hone : ∀ z, 0 ≤ z → z ≤ 1 → |fl (1 - fl (τ * z * fl (τ * z / tsq))) - (1 - z ^ 2)| ≤ 10 * t := fun z h0 h1 => by
    have e1 : |(1 - fl (τ * z * fl (τ * z / tsq))) - (1 - z ^ 2)| ≤ 86 / 10 * t := by
      rw [sub_sub_sub_cancel_left, abs_sub_comm]
      have := (hqq z z).absn (mul_nonneg h0 h0)
      rw [← pow_two] at this
      have e2 : 86 / 10 * t * z ^ 2 ≤ 86 / 10 * t * 1 := mul_le_mul_of_nonneg_left (pow_le_one₀ h0 h1) (by positivity)
      linarith
    refine (fl_near hfl hu0 e1 (M := 1) ?_).trans ?_
    · rw [abs_le]; constructor <;> nlinarith
    · have : u * (86 / 10 * t) ≤ 1 / 10000 * (86 / 10 * t) := mul_le_mul_of_nonneg_right (by linarith) (by positivity)
      linarith
  have ht1n := hone y hy0.le h.hy
  have ht0n := hone x hx hxy1
  set b1sqn := fl (τ * y * fl (τ * y / tsq)) with hb1
  by_cases hneg : fl (1 - b1sqn) < 0
  · left
    simp only [calcLlCoreF, hdt, bind, Except.bind]
    rw [← hb1, if_pos (Or.inl hneg)]
  right
  have hbd : Rel t (fl (τ * y - τ * x)) (τ * (y - x)) := by
    rw [← mul_sub]; exact (Rel.of_fl hfl _).mono hu
  have hbd0 : 0 < fl (τ * y - τ * x) := hbd.pos (by positivity) (by linarith)
  by_cases hz : τ * x = 0
  · -- the central parallel cut
    have hx0 : x = 0 := by rcases mul_eq_zero.1 hz with h | h <;> linarith
    have hb1r : Rel (86 / 10 * t) b1sqn (y ^ 2) := by have := hqq y y; rwa [← pow_two] at this
    have hp : Rel (12 * t) (fl (halfN n * b1sqn)) (n / 2 * (x + y) * (y - x)) := by
      have := ((hb1r.mul_left (halfN n)).round hfl hu0 (by linarith)).mono (by linarith : _ ≤ 12 * t)
      rwa [show halfN n * y ^ 2 = n / 2 * (x + y) * (y - x) by rw [hx0]; unfold halfN; ring] at this
    have hpp : Rel (32 * t) (fl (fl (halfN n * b1sqn) ^ 2)) ((n / 2 * (x + y) * (y - x)) ^ 2) := by
      rw [pow_two, pow_two (n / 2 * (x + y) * (y - x))]
      exact ((hp.mul hp (by positivity) (by linarith)).round hfl hu0 (by linarith)).mono (by linarith)
    have hD : |fl (fl (1 - b1sqn) + fl (fl (halfN n * b1sqn) ^ 2)) - xiP n x y ^ 2| ≤ 34 * t * (1 + xiP n x y ^ 2) := by
      have e0 : xiP n x y ^ 2 = (1 - y ^ 2) + (n / 2 * (x + y) * (y - x)) ^ 2 := by rw [h.xi_sq, hx0]; ring
      set p := n / 2 * (x + y) * (y - x)
      have hpp := hpp.absn (sq_nonneg _)
      have e1 : |fl (1 - b1sqn) + fl (fl (halfN n * b1sqn) ^ 2) - xiP n x y ^ 2| ≤ 10 * t + 32 * t * p ^ 2 := by
        rw [e0, add_sub_add_comm]
        exact (abs_add_le _ _).trans (by linarith)
      refine (fl_near hfl hu0 e1 (abs_of_nonneg (sq_nonneg _)).le).trans ?_
      have e2 : u * xiP n x y ^ 2 ≤ t * xiP n x y ^ 2 := mul_le_mul_of_nonneg_right hu (sq_nonneg _)
      have e3 : u * (10 * t + 32 * t * p ^ 2) ≤ 1 / 10000 * (10 * t + 32 * t * p ^ 2) :=
        mul_le_mul_of_nonneg_right (by linarith) (by positivity)
      have e4 : t * p ^ 2 ≤ t * xiP n x y ^ 2 := mul_le_mul_of_nonneg_left (by linarith) ht0
      have e5 : 0 ≤ t * xiP n x y ^ 2 := by positivity
      linarith
    obtain ⟨ξ', hsq, hξ'⟩ := xi_err h hfl hu0 hu hD
    have hc2 : (0 : ℝ) < c2 n := by unfold c2; positivity
    have hW := h.scale_ge
    have hWξ : 1 / xiP n x y + xiP n x y ≤ scaleP n x y := by unfold scaleP; linarith
    have hi : 0 < 1 / xiP n x y := by positivity
    have hN' : |fl (c2F fl n * fl (1 - ξ')) - c2 n * (1 + x * y - xiP n x y)| ≤ 42 * t * (c2 n * scaleP n x y) := by
      set W := scaleP n x y with hWd
      have e0 : |(1 - ξ') - (1 + x * y - xiP n x y)| ≤ 36 * t * W := by
        rw [hx0, zero_mul, add_zero, sub_sub_sub_cancel_left, abs_sub_comm, ← hx0]
        exact hξ'.trans (mul_le_mul_of_nonneg_left hWξ (by positivity))
      have e1 : |1 + x * y - xiP n x y| ≤ W := by
        rw [hx0, zero_mul, add_zero, ← hx0]
        rw [abs_le, hWd]; unfold scaleP; constructor <;> linarith
      have tw : 0 ≤ t * W := by positivity
      have e2 : |fl (1 - ξ') - (1 + x * y - xiP n x y)| ≤ 38 * t * W := by
        refine (fl_near hfl hu0 e0 e1).trans ?_
        have b1 : u * W ≤ t * W := mul_le_mul_of_nonneg_right hu (by linarith)
        have b2 : u * (36 * t * W) ≤ 1 / 10000 * (36 * t * W) := mul_le_mul_of_nonneg_right (by linarith) (by positivity)
        linarith
      have e3 : |c2F fl n - c2 n| ≤ t * c2 n := by
        have := (Rel.of_fl hfl (2 / ((n : ℝ) + 1))).absn (by positivity)
        unfold c2F c2
        exact this.trans (mul_le_mul_of_nonneg_right hu (by positivity))
      have e4 := mul_near e3 e2 (abs_of_pos hc2).le e1
      have e5 : t * c2 n * (W + 38 * t * W) + c2 n * (38 * t * W) ≤ 79 / 2 * t * (c2 n * W) := by
        have b1 : t * (38 * t) ≤ 1 / 10000 * (38 * t) := mul_le_mul_of_nonneg_right ht1 (by positivity)
        have b2 := mul_le_mul_of_nonneg_right b1 (show 0 ≤ c2 n * W by positivity)
        have b3 : 0 ≤ t * (c2 n * W) := by positivity
        linarith
      have e6 : |c2 n * (1 + x * y - xiP n x y)| ≤ c2 n * W := by
        rw [abs_mul, abs_of_pos hc2]; exact mul_le_mul_of_nonneg_left e1 hc2.le
      refine (fl_near hfl hu0 (e4.trans e5) e6).trans ?_
      have b1 : u * (c2 n * W) ≤ t * (c2 n * W) := mul_le_mul_of_nonneg_right hu (by positivity)
      have b2 : u * (79 / 2 * t * (c2 n * W)) ≤ 1 / 10000 * (79 / 2 * t * (c2 n * W)) := mul_le_mul_of_nonneg_right (by linarith) (by positivity)
      have b3 : 0 ≤ t * (c2 n * W) := by positivity
      linarith
    obtain ⟨hM0, hσ'⟩ := sigma_err h hfl hu0 hu (N' := fl (c2F fl n * fl (1 - ξ'))) (M' := b1sqn) (M := y ^ 2) hc2
      (by rw [hx0]; unfold c2; field_simp; ring) rfl hN' (hb1r.mono (by linarith))
    have hds : ∀ a, divF fl a b1sqn = .ok (fl (a / b1sqn)) := fun a => by unfold divF pyDiv; rw [if_neg hM0]; rfl
    set σ' := fl (c3F fl n + fl (fl (c2F fl n * fl (1 - ξ')) / b1sqn)) with hσd
    have hm' : |fl (1 - fl (b1sqn / 2)) - ((1 - x ^ 2) + (1 - y ^ 2)) / 2| ≤ 25 / 2 * t := by
      have e1 : Rel (106 / 10 * t) (fl (b1sqn / 2)) (y ^ 2 / 2) := by
        rw [div_eq_inv_mul b1sqn, div_eq_inv_mul (y ^ 2)]
        exact ((hb1r.mul_left _).round hfl hu0 (by linarith)).mono (by linarith)
      have e1 := e1.absn (by positivity)
      have e2 : |(1 - fl (b1sqn / 2)) - (1 - y ^ 2 / 2)| ≤ 53 / 10 * t := by
        rw [sub_sub_sub_cancel_left, abs_sub_comm]
        have : 106 / 10 * t * (y ^ 2 / 2) ≤ 106 / 10 * t * (1 / 2) := mul_le_mul_of_nonneg_left (by linarith) (by positivity)
        linarith
      rw [hx0, show ((1 : ℝ) - 0 ^ 2 + (1 - y ^ 2)) / 2 = 1 - y ^ 2 / 2 by ring]
      refine (fl_near hfl hu0 e2 (M := 1) (by rw [abs_le]; constructor <;> linarith)).trans ?_
      have b2 : u * (53 / 10 * t) ≤ 1 / 10000 * (53 / 10 * t) := mul_le_mul_of_nonneg_right (by linarith) (by positivity)
      linarith
    have hδ' := delta_err h hfl hu0 hu hξ' hm'
    refine ⟨fl (fl (σ' * (τ * y)) / 2), σ', _, ?_, ?_, hσ'.trans (by linarith), hδ'.mono (by linarith)⟩
    · simp only [calcLlCoreF, hdt, bind, Except.bind]
      rw [← hb1, if_neg (by rintro (hh | hh); exacts [hneg hh, Bool.noConfusion hh]), if_neg (not_lt.2 hbd0.le), if_pos hz]
      simp only [calcLlCcF, hsq, hds, hdn, bind, Except.bind, pure, Except.pure]
      rfl
    · have e1 : |σ' * (τ * y) - sigmaP n x y * (τ * y)| ≤ 630 * (t / θ ^ 2) * τ := by
        rw [← sub_mul, abs_mul, abs_of_pos (show 0 < τ * y by positivity)]
        refine mul_le_mul hσ' ?_ (by positivity) (by positivity)
        have := mul_le_mul_of_nonneg_left h.hy hτ.le
        linarith
      have e2 : |sigmaP n x y * (τ * y)| ≤ τ := by
        rw [abs_mul, abs_of_pos (show 0 < τ * y by positivity)]
        have := mul_le_mul hs1 (mul_le_mul_of_nonneg_left h.hy hτ.le) (by positivity) zero_le_one
        linarith
      have tt : 0 ≤ t / θ ^ 2 * τ := by positivity
      have t1 : t * τ ≤ t / θ ^ 2 * τ := mul_le_mul_of_nonneg_right htd hτ.le
      have b1 : u * τ ≤ t * τ := mul_le_mul_of_nonneg_right hu hτ.le
      have e3 : |fl (σ' * (τ * y)) - sigmaP n x y * (τ * y)| ≤ 632 * (t / θ ^ 2) * τ := by
        refine (fl_near hfl hu0 e1 e2).trans ?_
        have b2 : u * (630 * (t / θ ^ 2) * τ) ≤ 1 / 10000 * (630 * (t / θ ^ 2) * τ) := mul_le_mul_of_nonneg_right (by linarith) (by positivity)
        linarith
      have e4 : |fl (σ' * (τ * y)) / 2 - τ * (sigmaP n x y * ((x + y) / 2))| ≤ 316 * (t / θ ^ 2) * τ := by
        rw [show fl (σ' * (τ * y)) / 2 - τ * (sigmaP n x y * ((x + y) / 2)) = (fl (σ' * (τ * y)) - sigmaP n x y * (τ * y)) / 2 by
          rw [hx0]; ring, abs_div, abs_two]
        linarith
      have e5 : |τ * (sigmaP n x y * ((x + y) / 2))| ≤ τ := by
        rw [show τ * (sigmaP n x y * ((x + y) / 2)) = sigmaP n x y * (τ * y) / 2 by rw [hx0]; ring, abs_div, abs_two]
        linarith
      refine (fl_near hfl hu0 e4 e5).trans ?_
      have b2 : u * (316 * (t / θ ^ 2) * τ) ≤ 1 / 10000 * (316 * (t / θ ^ 2) * τ) := mul_le_mul_of_nonneg_right (by linarith) (by positivity)
      linarith
  · -- the general parallel cut
    have hxp : 0 < x := lt_of_le_of_ne hx fun h => hz (by rw [← h, mul_zero])
    have hb01 := hqq y x
    set b0b1n := fl (τ * x * fl (τ * y / tsq)) with hb0
    have hb01p : 0 ≤ b0b1n := (hb01.pos (by positivity) (by linarith)).le
    have hnb : ¬ fl ((n : ℝ) * b0b1n) < -1 := not_lt.2 (by
      have := fl_nonneg hfl (by linarith) (mul_nonneg (by linarith : (0 : ℝ) ≤ n) hb01p)
      linarith)
    set t0n := fl (1 - fl (τ * x * fl (τ * x / tsq))) with ht0d
    set t1n := fl (1 - b1sqn) with ht1d
    have hbs : Rel t (fl (τ * x + τ * y)) (τ * (x + y)) := by
      rw [← mul_add]; exact (Rel.of_fl hfl _).mono hu
    set bsum := fl (τ * x + τ * y) with hbsd
    have hbn : Rel (77 / 10 * t) (fl (bsum / tsq)) ((x + y) / τ) := by
      have := ((hbs.div htsq ht0 (by positivity) (by linarith) (by positivity)).round hfl hu0
        (by linarith)).mono (by linarith : _ ≤ 77 / 10 * t)
      rwa [show τ * (x + y) / τ ^ 2 = (x + y) / τ by field_simp] at this
    set bsumn := fl (bsum / tsq) with hbnd
    have hba : Rel (3 * t) (fl (bsum / 2)) (τ * ((x + y) / 2)) := by
      have e1 : Rel t (bsum / 2) (τ * ((x + y) / 2)) := by
        rw [div_eq_inv_mul, show τ * ((x + y) / 2) = 2⁻¹ * (τ * (x + y)) by ring]; exact hbs.mul_left _
      exact (e1.round hfl hu0 (by linarith)).mono (by linarith)
    set bav := fl (bsum / 2) with hbad
    have hp : Rel (14 * t) (fl (fl (halfN n * bsumn) * fl (τ * y - τ * x))) (n / 2 * (x + y) * (y - x)) := by
      have e1 : Rel (97 / 10 * t) (fl (halfN n * bsumn)) (halfN n * ((x + y) / τ)) :=
        ((hbn.mul_left (halfN n)).round hfl hu0 (by linarith)).mono (by linarith)
      have e2 := ((e1.mul hbd (by positivity) (by linarith)).round hfl hu0 (by linarith)).mono (by linarith : _ ≤ 14 * t)
      rwa [show halfN n * ((x + y) / τ) * (τ * (y - x)) = n / 2 * (x + y) * (y - x) by unfold halfN; field_simp] at e2
    set tempn := fl (fl (halfN n * bsumn) * fl (τ * y - τ * x)) with htmp
    have hpp : Rel (32 * t) (fl (tempn * tempn)) ((n / 2 * (x + y) * (y - x)) ^ 2) := by
      rw [pow_two]
      exact ((hp.mul hp (by positivity) (by linarith)).round hfl hu0 (by linarith)).mono (by linarith)
    have hD : |fl (fl (t0n * t1n) + fl (tempn * tempn)) - xiP n x y ^ 2| ≤ 34 * t * (1 + xiP n x y ^ 2) := by
      set p := n / 2 * (x + y) * (y - x)
      have e0 : xiP n x y ^ 2 = (1 - x ^ 2) * (1 - y ^ 2) + p ^ 2 := h.xi_sq
      have hpp := hpp.absn (sq_nonneg _)
      have f1 : |t0n * t1n - (1 - x ^ 2) * (1 - y ^ 2)| ≤ 201 / 10 * t := by
        refine (mul_near ht0n ht1n (X := 1) (Y := 1) (by rw [abs_le]; constructor <;> linarith)
          (by rw [abs_le]; constructor <;> linarith)).trans ?_
        have : t * t ≤ 1 / 10000 * t := mul_le_mul_of_nonneg_right ht1 ht0
        linarith
      have f2 : |fl (t0n * t1n) - (1 - x ^ 2) * (1 - y ^ 2)| ≤ 22 * t := by
        refine (fl_near hfl hu0 f1 (M := 1) (by rw [abs_of_nonneg h.tt.1]; exact h.tt.2)).trans ?_
        have b2 : u * (201 / 10 * t) ≤ 1 / 10000 * (201 / 10 * t) := mul_le_mul_of_nonneg_right (by linarith) (by positivity)
        linarith
      have e1 : |fl (t0n * t1n) + fl (tempn * tempn) - xiP n x y ^ 2| ≤ 22 * t + 32 * t * p ^ 2 := by
        rw [e0, add_sub_add_comm]
        exact (abs_add_le _ _).trans (by linarith)
      refine (fl_near hfl hu0 e1 (abs_of_nonneg (sq_nonneg _)).le).trans ?_
      have e2 : u * xiP n x y ^ 2 ≤ t * xiP n x y ^ 2 := mul_le_mul_of_nonneg_right hu (sq_nonneg _)
      have e3 : u * (22 * t + 32 * t * p ^ 2) ≤ 1 / 10000 * (22 * t + 32 * t * p ^ 2) :=
        mul_le_mul_of_nonneg_right (by linarith) (by positivity)
      have e4 : t * p ^ 2 ≤ t * xiP n x y ^ 2 := mul_le_mul_of_nonneg_left (by linarith [h.tt.1]) ht0
      have e5 : 0 ≤ t * xiP n x y ^ 2 := by positivity
      linarith
    obtain ⟨ξ', hsq, hξ'⟩ := xi_err h hfl hu0 hu hD
    have hW := h.scale_ge
    have hWξ : 1 / xiP n x y + xiP n x y = scaleP n x y - 1 := by unfold scaleP; ring
    have hi : 0 < 1 / xiP n x y := by positivity
    have hxy0 : 0 ≤ x * y := by positivity
    have hxy2 : x * y ≤ 1 := by nlinarith [h.hy]
    have hN' : |fl (fl (1 + b0b1n) - ξ') - 1 * (1 + x * y - xiP n x y)| ≤ 42 * t * (1 * scaleP n x y) := by
      rw [one_mul, one_mul]
      set W := scaleP n x y with hWd
      have tw : t ≤ t * W := by nlinarith
      have e0 : |1 + b0b1n - (1 + x * y)| ≤ 86 / 10 * t := by
        rw [add_sub_add_left_eq_sub]
        have hb01 := hb01.absn hxy0
        have : 86 / 10 * t * (x * y) ≤ 86 / 10 * t * 1 := mul_le_mul_of_nonneg_left hxy2 (by positivity)
        linarith
      have e1 : |fl (1 + b0b1n) - (1 + x * y)| ≤ 11 * t := by
        refine (fl_near hfl hu0 e0 (M := 2) (by rw [abs_le]; constructor <;> linarith)).trans ?_
        have b2 : u * (86 / 10 * t) ≤ 1 / 10000 * (86 / 10 * t) := mul_le_mul_of_nonneg_right (by linarith) (by positivity)
        linarith
      have e2 : |fl (1 + b0b1n) - ξ' - (1 + x * y - xiP n x y)| ≤ 36 * t * W := by
        rw [sub_sub_sub_comm]
        refine (abs_sub _ _).trans ?_
        rw [hWξ] at hξ'
        linarith
      have e3 : |1 + x * y - xiP n x y| ≤ 2 * W := by
        rw [abs_le, hWd]; unfold scaleP; constructor <;> linarith
      refine (fl_near hfl hu0 e2 e3).trans ?_
      have b1 : u * (2 * W) ≤ t * (2 * W) := mul_le_mul_of_nonneg_right hu (by linarith)
      have b2 : u * (36 * t * W) ≤ 1 / 10000 * (36 * t * W) := mul_le_mul_of_nonneg_right (by linarith) (by positivity)
      linarith
    have hM' : Rel (16 * t) (fl (fl (bsumn * bav) * ((n : ℝ) + 1))) ((x + y) ^ 2 / 2 * (n + 1)) := by
      have e1 := ((hbn.mul hba (by positivity) (by linarith)).round hfl hu0 (by linarith)).mono (by linarith : _ ≤ 14 * t)
      rw [show (x + y) / τ * (τ * ((x + y) / 2)) = (x + y) ^ 2 / 2 by field_simp] at e1
      have e2 : Rel (14 * t) (fl (bsumn * bav) * ((n : ℝ) + 1)) ((x + y) ^ 2 / 2 * (n + 1)) := by
        rw [mul_comm (fl (bsumn * bav)), mul_comm ((x + y) ^ 2 / 2)]; exact e1.mul_left _
      exact (e2.round hfl hu0 (by linarith)).mono (by linarith)
    obtain ⟨hM0, hσ'⟩ := sigma_err h hfl hu0 hu (N' := fl (fl (1 + b0b1n) - ξ')) (M' := fl (fl (bsumn * bav) * ((n : ℝ) + 1)))
      (M := (x + y) ^ 2 / 2 * (n + 1)) one_pos (by rw [one_mul]) rfl hN' hM'
    have hds : ∀ a, divF fl a (fl (fl (bsumn * bav) * ((n : ℝ) + 1))) = .ok (fl (a / fl (fl (bsumn * bav) * ((n : ℝ) + 1)))) := fun a => by
      unfold divF pyDiv; rw [if_neg hM0]; rfl
    set σ' := fl (c3F fl n + fl (fl (fl (1 + b0b1n) - ξ') / fl (fl (bsumn * bav) * ((n : ℝ) + 1)))) with hσd
    have hm' : |fl (fl (t0n + t1n) / 2) - ((1 - x ^ 2) + (1 - y ^ 2)) / 2| ≤ 25 / 2 * t := by
      have e1 : |t0n + t1n - ((1 - x ^ 2) + (1 - y ^ 2))| ≤ 20 * t := by
        rw [add_sub_add_comm]; exact (abs_add_le _ _).trans (by linarith)
      have e2 : |fl (t0n + t1n) - ((1 - x ^ 2) + (1 - y ^ 2))| ≤ 221 / 10 * t := by
        refine (fl_near hfl hu0 e1 (M := 2) (by rw [abs_le]; constructor <;> linarith)).trans ?_
        have b2 : u * (20 * t) ≤ 1 / 10000 * (20 * t) := mul_le_mul_of_nonneg_right (by linarith) (by positivity)
        linarith
      have e3 : |fl (t0n + t1n) / 2 - ((1 - x ^ 2) + (1 - y ^ 2)) / 2| ≤ 221 / 20 * t := by
        rw [← sub_div, abs_div, abs_two]; linarith
      refine (fl_near hfl hu0 e3 (M := 1) (by rw [abs_le]; constructor <;> linarith)).trans ?_
      have b2 : u * (221 / 20 * t) ≤ 1 / 10000 * (221 / 20 * t) := mul_le_mul_of_nonneg_right (by linarith) (by positivity)
      linarith
    have hδ' := delta_err h hfl hu0 hu hξ' hm'
    refine ⟨fl (σ' * bav), σ', _, ?_, ?_, hσ'.trans (by linarith), hδ'.mono (by linarith)⟩
    · simp only [calcLlCoreF, hdt, bind, Except.bind]
      rw [← hb1, if_neg (by rintro (hh | hh); exacts [hneg hh, Bool.noConfusion hh]), if_neg (not_lt.2 hbd0.le), if_neg hz]
      rw [← hb0, if_neg hnb]
      simp only [← ht0d, ← ht1d, ← hbsd, ← hbnd, ← hbad, ← htmp, hsq, hds, hdn, pure, Except.pure]
      rfl
    · have hb2 : τ * ((x + y) / 2) ≤ τ := by
        have : τ * ((x + y) / 2) ≤ τ * 1 := mul_le_mul_of_nonneg_left (by linarith [h.hy]) hτ.le
        linarith
      have hb3 : |τ * ((x + y) / 2)| ≤ τ := by rw [abs_of_pos (by positivity)]; exact hb2
      have hba' : |bav - τ * ((x + y) / 2)| ≤ 3 * t * τ := by
        unfold Rel at hba
        exact hba.trans (mul_le_mul_of_nonneg_left hb3 (by positivity))
      have tt : 0 ≤ t / θ ^ 2 * τ := by positivity
      have t1 : t * τ ≤ t / θ ^ 2 * τ := mul_le_mul_of_nonneg_right htd hτ.le
      have b1 : u * τ ≤ t * τ := mul_le_mul_of_nonneg_right hu hτ.le
      have e1 := mul_near hσ' hba' hs1 hb3
      have e2 : 630 * (t / θ ^ 2) * (τ + 3 * t * τ) + 1 * (3 * t * τ) ≤ 634 * (t / θ ^ 2) * τ := by
        have c1 : t / θ ^ 2 * τ * t ≤ t / θ ^ 2 * τ * (1 / 10000) := mul_le_mul_of_nonneg_left ht1 tt
        linarith
      have e3 : |sigmaP n x y * (τ * ((x + y) / 2))| ≤ τ := by
        rw [abs_mul]
        have := mul_le_mul hs1 hb3 (abs_nonneg _) zero_le_one
        linarith
      rw [show τ * (sigmaP n x y * ((x + y) / 2)) = sigmaP n x y * (τ * ((x + y) / 2)) by ring]
      refine (fl_near hfl hu0 (e1.trans e2) e3).trans ?_
      have b2 : u * (634 * (t / θ ^ 2) * τ) ≤ 1 / 10000 * (634 * (t / θ ^ 2) * τ) := mul_le_mul_of_nonneg_right (by linarith) (by positivity)
      linarith

end ParF
end Verif
