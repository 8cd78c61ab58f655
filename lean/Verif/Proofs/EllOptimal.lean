import Verif.Proofs.EllParallel
import Mathlib.Analysis.SpecialFunctions.Log.Deriv
import Mathlib.Analysis.Calculus.Deriv.MeanValue

/-! # The parallel-cut parameters minimise the volume over the pencil -/
namespace Verif.Ell
variable {n : ℕ} {x y : ℝ}

/-- `(1-σ)·δ(σ)` for the member `σ` of the pencil of ellipsoids through the slab's boundary. -/
noncomputable def pencil (x y s : ℝ) : ℝ := 1 - (1 + x * y) * s + s ^ 2 * (x + y) ^ 2 / 4

theorem pencil_eq (x y s v : ℝ) : pencil x y s =
    (1 - s) * (1 - v ^ 2) + (v + s * (x + y) / 2) ^ 2 + s * (-(v + x) * (v + y)) := by
  unfold pencil; ring

theorem pencil_pos (hxy : x < y) (hx : x < 1) (hy : -1 < y) {s : ℝ} (hs0 : 0 ≤ s) (hs : s < 1) :
    0 < pencil x y s := by
  obtain ⟨v, h1, h2⟩ := exists_between (show max (-1) (-y) < min 1 (-x) by
    rw [max_lt_iff, lt_min_iff, lt_min_iff]; exact ⟨⟨by norm_num, by linarith⟩, by linarith, by linarith⟩)
  rw [max_lt_iff] at h1
  rw [lt_min_iff] at h2
  rw [pencil_eq x y s v]
  have h3 : 0 < (1 - s) * (1 - v ^ 2) := mul_pos (by linarith) (by nlinarith)
  have h4 : 0 ≤ s * (-(v + x) * (v + y)) := mul_nonneg hs0 (mul_nonneg (by linarith) (by linarith))
  have h5 := sq_nonneg (v + s * (x + y) / 2)
  linarith

/-- Logarithm of the squared volume ratio along the pencil. -/
noncomputable def logVol (n : ℕ) (x y s : ℝ) : ℝ :=
  n * Real.log (pencil x y s) - (n - 1) * Real.log (1 - s)

theorem logVol_deriv (hxy : x < y) (hx : x < 1) (hy : -1 < y) {s : ℝ} (hs0 : 0 ≤ s) (hs : s < 1) :
    HasDerivAt (logVol n x y)
      ((-(1 + n * (x * y)) + (1 + x * y + n * (x + y) ^ 2 / 2) * s - (n + 1) * (x + y) ^ 2 / 4 * s ^ 2) /
        (pencil x y s * (1 - s))) s := by
  have hP := pencil_pos hxy hx hy hs0 hs
  have h1s : (1 - s) ≠ 0 := by linarith
  have d1 : HasDerivAt (pencil x y) (-(1 + x * y) + s * (x + y) ^ 2 / 2) s := by
    have e : pencil x y = fun s => 1 - (1 + x * y) * s + s ^ 2 * ((x + y) ^ 2 / 4) := by
      funext s; unfold pencil; ring
    rw [e]
    have := (((hasDerivAt_id' s).const_mul (1 + x * y)).const_sub 1).add
      (((hasDerivAt_id' s).pow 2).mul_const ((x + y) ^ 2 / 4))
    refine this.congr_deriv ?_
    push_cast
    ring
  have d2 : HasDerivAt (fun s : ℝ => 1 - s) (-1) s := by
    simpa using (hasDerivAt_id s).const_sub 1
  have := ((d1.log hP.ne').const_mul (n : ℝ)).sub ((d2.log h1s).const_mul ((n : ℝ) - 1))
  refine this.congr_deriv ?_
  have hP' := hP.ne'
  field_simp
  unfold pencil
  ring

/-- Root data of the derivative: `s1 ∈ [0,1)` is the first root, the second is at least 1. -/
theorem logVol_min (hn : 2 ≤ n) (hxy : x < y) (hx : x < 1) (hy : -1 < y) {s1 s2 : ℝ} (h0 : 0 ≤ s1)
    (h1 : s1 < 1) (h2 : 1 ≤ s2) (hsum : x + y ≠ 0)
    (hroot : ∀ s : ℝ, -(1 + n * (x * y)) + (1 + x * y + n * (x + y) ^ 2 / 2) * s -
      (n + 1) * (x + y) ^ 2 / 4 * s ^ 2 = -((n + 1) * (x + y) ^ 2 / 4) * ((s - s1) * (s - s2)))
    {s : ℝ} (hs0 : 0 ≤ s) (hs : s < 1) (hne : s ≠ s1) : logVol n x y s1 < logVol n x y s := by
  have hn' : (2 : ℝ) ≤ n := by exact_mod_cast hn
  have hk : 0 < ((n : ℝ) + 1) * (x + y) ^ 2 / 4 := by positivity
  have hcont : ∀ {t}, 0 ≤ t → t < 1 → ContinuousAt (logVol n x y) t := fun h h' =>
    (logVol_deriv hxy hx hy h h').continuousAt
  rcases lt_or_gt_of_ne hne with hlt | hgt
  · have hanti : StrictAntiOn (logVol n x y) (Set.Icc 0 s1) := by
      refine strictAntiOn_of_deriv_neg (convex_Icc _ _) (fun t ht => ?_) fun t ht => ?_
      · exact (hcont ht.1 (by linarith [ht.2])).continuousWithinAt
      · rw [interior_Icc] at ht
        have ht1 : t < 1 := by linarith [ht.2]
        rw [(logVol_deriv hxy hx hy ht.1.le ht1).deriv, hroot]
        apply div_neg_of_neg_of_pos
        · have : 0 < (t - s1) * (t - s2) := mul_pos_of_neg_of_neg (by linarith [ht.2]) (by linarith)
          nlinarith
        · exact mul_pos (pencil_pos hxy hx hy ht.1.le ht1) (by linarith)
    exact hanti ⟨hs0, hlt.le⟩ ⟨h0, le_rfl⟩ hlt
  · have hmono : StrictMonoOn (logVol n x y) (Set.Icc s1 s) := by
      refine strictMonoOn_of_deriv_pos (convex_Icc _ _) (fun t ht => ?_) fun t ht => ?_
      · exact (hcont (by linarith [ht.1]) (by linarith [ht.2])).continuousWithinAt
      · rw [interior_Icc] at ht
        have ht0 : 0 ≤ t := by linarith [ht.1]
        have ht1 : t < 1 := by linarith [ht.2]
        rw [(logVol_deriv hxy hx hy ht0 ht1).deriv, hroot]
        apply div_pos
        · have : (t - s1) * (t - s2) < 0 := mul_neg_of_pos_of_neg (by linarith [ht.1]) (by linarith)
          nlinarith
        · exact mul_pos (pencil_pos hxy hx hy ht0 ht1) (by linarith)
    exact hmono ⟨le_rfl, hgt.le⟩ ⟨hgt.le, le_rfl⟩ hgt

/-- The squared volume ratio `δⁿ(1-σ)` as the exponential of `logVol`. -/
theorem ratio_eq_exp (hxy : x < y) (hx : x < 1) (hy : -1 < y) {s d : ℝ} (hs0 : 0 ≤ s) (hs : s < 1)
    (hd : (1 - s) * d = pencil x y s) : d ^ n * (1 - s) = Real.exp (logVol n x y s) := by
  have hP := pencil_pos hxy hx hy hs0 hs
  have h1 : 0 < 1 - s := by linarith
  have hdp : 0 < d := by
    by_contra hc
    have : (1 - s) * d ≤ 0 := mul_nonpos_of_nonneg_of_nonpos h1.le (not_lt.1 hc)
    linarith
  have hde : d = pencil x y s / (1 - s) := by rw [← hd]; field_simp
  rw [← Real.exp_log (show 0 < d ^ n * (1 - s) by positivity)]
  congr 1
  rw [Real.log_mul (by positivity) h1.ne', Real.log_pow, hde, Real.log_div hP.ne' h1.ne', logVol]
  ring

section
variable {ξ σ δ : ℝ}

/-- Optimality of the parallel-cut parameters, normalised. -/
theorem par_optimal (hn : 2 ≤ n) (hy : y ^ 2 ≤ 1) (hy1 : -1 < y) (hx1 : x < 1) (hxy : x < y)
    (hp : -1 ≤ (n : ℝ) * (x * y))
    (hs : x + y ≠ 0) (hξ0 : 0 ≤ ξ)
    (hξ : ξ ^ 2 = (1 - x ^ 2) * (1 - y ^ 2) + (n / 2 * (x + y) * (y - x)) ^ 2)
    (hσ : σ = n / (n + 1) + (1 + x * y - ξ) / ((x + y) ^ 2 / 2 * (n + 1)))
    (hδ : δ = c1 n * (((1 - x ^ 2) + (1 - y ^ 2)) / 2 + ξ / n)) :
    0 ≤ σ ∧ σ < 1 ∧ (1 - σ) * δ = pencil x y σ ∧ (σ = 0 ↔ (n : ℝ) * (x * y) = -1) ∧
    (∀ s, 0 ≤ s → s < 1 → s ≠ σ → logVol n x y σ < logVol n x y s) ∧
    pencil x y σ = n * ((σ * (x + y) / 2 - x) * (y - σ * (x + y) / 2)) := by
  have hn' : (2 : ℝ) ≤ n := by exact_mod_cast hn
  obtain ⟨r1, r2, -⟩ := par_norm hn hy hxy.le hp hs hξ0 hξ hσ hδ
  have hid := par_id hn hs hξ hσ hδ
  obtain ⟨f1, f2, f3⟩ := xi_facts hn hy hp hξ0 hξ
  have hs2 : 0 < (x + y) ^ 2 := by positivity
  have hσ' : σ = (1 + x * y + n * (x + y) ^ 2 / 2 - ξ) / ((n + 1) * (x + y) ^ 2 / 2) := by
    rw [hσ]; field_simp; ring
  have hX : ξ ^ 2 = (1 + x * y + n * (x + y) ^ 2 / 2) ^ 2 - (x + y) ^ 2 * (n + 1) * (1 + n * (x * y)) := by
    rw [hξ]; ring
  refine ⟨r1.s0, r2.2 hxy.ne, ?_, ?_, ?_, ?_⟩
  · unfold pencil; linear_combination hid
  · rw [hσ', div_eq_zero_iff]
    have : ((n : ℝ) + 1) * (x + y) ^ 2 / 2 ≠ 0 := by positivity
    simp only [this, or_false]
    constructor
    · intro h
      have h' : ξ = 1 + x * y + n * (x + y) ^ 2 / 2 := by linarith
      rw [h'] at hX
      have h6 : (x + y) ^ 2 * ((n : ℝ) + 1) * (1 + n * (x * y)) = 0 := by linarith
      have h7 : (x + y) ^ 2 * ((n : ℝ) + 1) ≠ 0 := by positivity
      have := (mul_eq_zero.1 h6).resolve_left h7
      linarith
    · intro h
      have h1 : 0 ≤ 1 + x * y := by nlinarith
      have h2 : 0 ≤ 1 + x * y + n * (x + y) ^ 2 / 2 := by positivity
      have h3 : ξ ^ 2 = (1 + x * y + n * (x + y) ^ 2 / 2) ^ 2 := by rw [hX, h]; ring
      have := (sq_eq_sq₀ hξ0 h2).1 h3
      linarith
  · intro s h0 h1 hne
    refine logVol_min (s2 := (1 + x * y + n * (x + y) ^ 2 / 2 + ξ) / ((n + 1) * (x + y) ^ 2 / 2)) hn hxy
      hx1 hy1 r1.s0 (r2.2 hxy.ne) ?_ hs ?_ h0 h1 hne
    · rw [le_div_iff₀ (by positivity)]
      -- ξ ≥ -m
      have : -(((1 - x ^ 2) + (1 - y ^ 2)) / 2) ≤ ξ := by
        have hd : ξ ^ 2 = (((1 - x ^ 2) + (1 - y ^ 2)) / 2) ^ 2 +
          ((n : ℝ) ^ 2 - 1) * (((x + y) * (y - x)) / 2) ^ 2 := by rw [hξ]; ring
        have h4 : (-(((1 - x ^ 2) + (1 - y ^ 2)) / 2)) ^ 2 ≤ ξ ^ 2 := by
          rw [hd]
          have : 0 ≤ ((n : ℝ) ^ 2 - 1) := by nlinarith
          have := mul_nonneg this (sq_nonneg (((x + y) * (y - x)) / 2))
          nlinarith
        exact (abs_le_of_sq_le_sq' h4 hξ0).2
      nlinarith
    · intro t
      rw [hσ']
      field_simp
      linear_combination (-8 : ℝ) * hX
  · have hne : x + y ≠ 0 := hs
    unfold pencil
    rw [hσ']
    field_simp
    linear_combination 16 * ((n : ℝ) + 1) * hX

end
end Verif.Ell
