import Verif.Proofs.EllScalar

/-! # Scalar analysis of the parallel cut -/
namespace Verif.Ell
variable {n : ℕ}

section norm
variable {x y ξ : ℝ}

/-- The basic facts about `ξ` in normalised coordinates. -/
theorem xi_facts (hn : 2 ≤ n) (hy : y ^ 2 ≤ 1) (hp : -1 ≤ (n : ℝ) * (x * y))
    (hξ0 : 0 ≤ ξ)
    (hξ : ξ ^ 2 = (1 - x ^ 2) * (1 - y ^ 2) + (n / 2 * (x + y) * (y - x)) ^ 2) :
    ((1 - x ^ 2) + (1 - y ^ 2)) / 2 ≤ ξ ∧ ξ ≤ 1 + x * y + n * (x + y) ^ 2 / 2 ∧
    0 ≤ ((1 - x ^ 2) + (1 - y ^ 2)) / 2 + ξ / n := by
  have hn' : (2 : ℝ) ≤ n := by exact_mod_cast hn
  have hnn : (4 : ℝ) ≤ (n : ℝ) ^ 2 := by nlinarith
  have hd : ξ ^ 2 = (((1 - x ^ 2) + (1 - y ^ 2)) / 2) ^ 2 +
      ((n : ℝ) ^ 2 - 1) * (((x + y) * (y - x)) / 2) ^ 2 := by rw [hξ]; ring
  refine ⟨?_, ?_, ?_⟩
  · refine (abs_le_of_sq_le_sq' ?_ hξ0).2
    nlinarith [sq_nonneg (((x + y) * (y - x)) / 2)]
  · have h1 : 0 ≤ 1 + x * y := by nlinarith
    have h2 : 0 ≤ 1 + x * y + n * (x + y) ^ 2 / 2 := by positivity
    have h3 : (1 + x * y + n * (x + y) ^ 2 / 2) ^ 2 - ξ ^ 2 =
        (x + y) ^ 2 * (n + 1) * (1 + n * (x * y)) := by rw [hξ]; ring
    have h4 : 0 ≤ (x + y) ^ 2 * ((n : ℝ) + 1) * (1 + n * (x * y)) := by
      apply mul_nonneg (by positivity); linarith
    exact (sq_le_sq₀ hξ0 h2).1 (by linarith)
  · rcases le_or_gt 0 (((1 - x ^ 2) + (1 - y ^ 2)) / 2) with h | h
    · positivity
    · have hx : (1 - x ^ 2) * (1 - y ^ 2) ≤ 0 := by
        apply mul_nonpos_of_nonpos_of_nonneg <;> nlinarith
      have h1 : (n * -(((1 - x ^ 2) + (1 - y ^ 2)) / 2)) ^ 2 ≤ ξ ^ 2 := by
        have : ξ ^ 2 - (n * -(((1 - x ^ 2) + (1 - y ^ 2)) / 2)) ^ 2 =
          ((n : ℝ) ^ 2 - 1) * -((1 - x ^ 2) * (1 - y ^ 2)) := by rw [hξ]; ring
        have : 0 ≤ ((n : ℝ) ^ 2 - 1) * -((1 - x ^ 2) * (1 - y ^ 2)) :=
          mul_nonneg (by linarith) (by linarith)
        linarith
      have h2 : n * -(((1 - x ^ 2) + (1 - y ^ 2)) / 2) ≤ ξ := by
        apply (sq_le_sq₀ _ hξ0).1 h1
        apply mul_nonneg <;> linarith
      have h3 : -(((1 - x ^ 2) + (1 - y ^ 2)) / 2) ≤ ξ / n := by
        rw [le_div_iff₀ (by linarith)]; linarith
      linarith

private theorem par_key {m σ δ : ℝ}
    (e1 : σ * ((m + 1) * ((x + y) ^ 2 / 2)) = m * ((x + y) ^ 2 / 2) + (1 + x * y - ξ))
    (e2 : (1 - σ) * ((m + 1) * ((x + y) ^ 2 / 2)) = ξ - ((1 - x ^ 2) + (1 - y ^ 2)) / 2)
    (e3 : δ * ((m - 1) * (m + 1)) = m ^ 2 * (((1 - x ^ 2) + (1 - y ^ 2)) / 2) + m * ξ)
    (hξ : ξ ^ 2 = (1 - x ^ 2) * (1 - y ^ 2) + (m / 2 * (x + y) * (y - x)) ^ 2) :
    ((m + 1) * ((x + y) ^ 2 / 2)) ^ 2 * (m - 1) *
        ((1 - σ) * (δ - 1) - (σ * ((x + y) / 2)) ^ 2 + σ * (x * y)) = 0 := by
  linear_combination ((m + 1) * ((x + y) ^ 2 / 2)) * (m - 1) * (δ - 1) * e2 +
        (ξ - ((1 - x ^ 2) + (1 - y ^ 2)) / 2) * ((x + y) ^ 2 / 2) * e3 -
        (m - 1) * ((x + y) ^ 2 / 4) * (σ * ((m + 1) * ((x + y) ^ 2 / 2)) + m * ((x + y) ^ 2 / 2) +
          (1 + x * y - ξ)) * e1 + (m - 1) * ((m + 1) * ((x + y) ^ 2 / 2)) * (x * y) * e1 +
        (m + 1) / 2 * ((x + y) ^ 2 / 2) * hξ

/-- The identity that makes the parallel cut exact. -/
theorem par_id (hn : 2 ≤ n) (hs : x + y ≠ 0)
    (hξ : ξ ^ 2 = (1 - x ^ 2) * (1 - y ^ 2) + (n / 2 * (x + y) * (y - x)) ^ 2)
    {σ δ : ℝ} (hσ : σ = n / (n + 1) + (1 + x * y - ξ) / ((x + y) ^ 2 / 2 * (n + 1)))
    (hδ : δ = c1 n * (((1 - x ^ 2) + (1 - y ^ 2)) / 2 + ξ / n)) :
    (1 - σ) * (δ - 1) - (σ * ((x + y) / 2)) ^ 2 + σ * (x * y) = 0 := by
  have hn' : (2 : ℝ) ≤ n := by exact_mod_cast hn
  have h3 : (n : ℝ) * n - 1 = (n - 1) * (n + 1) := by ring
  have h4 : (n : ℝ) - 1 ≠ 0 := by linarith
  have hn0 : (n : ℝ) ≠ 0 := by linarith
  have hs2 : 0 < (x + y) ^ 2 := by positivity
  have hden : 0 < ((n : ℝ) + 1) * ((x + y) ^ 2 / 2) := by positivity
  have e1 : σ * ((n + 1) * ((x + y) ^ 2 / 2)) = n * ((x + y) ^ 2 / 2) + (1 + x * y - ξ) := by
    rw [hσ]; field_simp
  have e2 : (1 - σ) * ((n + 1) * ((x + y) ^ 2 / 2)) = ξ - ((1 - x ^ 2) + (1 - y ^ 2)) / 2 := by
    linarith [e1, show (1 - σ) * ((n + 1) * ((x + y) ^ 2 / 2)) = (n + 1) * ((x + y) ^ 2 / 2) -
      σ * ((n + 1) * ((x + y) ^ 2 / 2)) by ring, show 1 + x * y = (x + y) ^ 2 / 2 +
      ((1 - x ^ 2) + (1 - y ^ 2)) / 2 by ring]
  have e3 : δ * ((n - 1) * (n + 1)) = n ^ 2 * (((1 - x ^ 2) + (1 - y ^ 2)) / 2) + n * ξ := by
    rw [hδ]; unfold c1; rw [h3]; field_simp
  have e4 := par_key e1 e2 e3 hξ
  rcases mul_eq_zero.1 e4 with h | h
  · exact absurd h (mul_ne_zero (pow_ne_zero 2 hden.ne') h4)
  · exact h

/-- `σ` in normalised coordinates. -/
theorem par_norm (hn : 2 ≤ n) (hy : y ^ 2 ≤ 1) (hxy : x ≤ y) (hp : -1 ≤ (n : ℝ) * (x * y))
    (hs : x + y ≠ 0) (hξ0 : 0 ≤ ξ)
    (hξ : ξ ^ 2 = (1 - x ^ 2) * (1 - y ^ 2) + (n / 2 * (x + y) * (y - x)) ^ 2)
    {σ δ : ℝ} (hσ : σ = n / (n + 1) + (1 + x * y - ξ) / ((x + y) ^ 2 / 2 * (n + 1)))
    (hδ : δ = c1 n * (((1 - x ^ 2) + (1 - y ^ 2)) / 2 + ξ / n)) :
    Range σ δ ∧ (σ < 1 ↔ x ≠ y) ∧
    ∀ v, v + x ≤ 0 → 0 ≤ v + y → KeepsAt 1 (σ * ((x + y) / 2)) σ δ v := by
  have hn' : (2 : ℝ) ≤ n := by exact_mod_cast hn
  obtain ⟨f1, f2, f3⟩ := xi_facts hn hy hp hξ0 hξ
  have hs2 : 0 < (x + y) ^ 2 := by positivity
  have e1 : σ * ((n + 1) * ((x + y) ^ 2 / 2)) = n * ((x + y) ^ 2 / 2) + (1 + x * y - ξ) := by
    rw [hσ]; field_simp
  have hden : 0 < ((n : ℝ) + 1) * ((x + y) ^ 2 / 2) := by positivity
  have e2 : (1 - σ) * ((n + 1) * ((x + y) ^ 2 / 2)) = ξ - ((1 - x ^ 2) + (1 - y ^ 2)) / 2 := by
    linarith [e1, show (1 - σ) * ((n + 1) * ((x + y) ^ 2 / 2)) = (n + 1) * ((x + y) ^ 2 / 2) -
      σ * ((n + 1) * ((x + y) ^ 2 / 2)) by ring, show 1 + x * y = (x + y) ^ 2 / 2 +
      ((1 - x ^ 2) + (1 - y ^ 2)) / 2 by ring]
  have hs0 : 0 ≤ σ := by
    apply nonneg_of_mul_nonneg_left _ hden
    rw [e1]; linarith
  have hs1 : 0 ≤ 1 - σ := by
    apply nonneg_of_mul_nonneg_left _ hden
    rw [e2]; linarith
  have hc1 : 0 < c1 n := by
    unfold c1; apply div_pos (by positivity); nlinarith
  have hlt : σ < 1 ↔ x ≠ y := by
    have h1 : σ < 1 ↔ ((1 - x ^ 2) + (1 - y ^ 2)) / 2 < ξ := by
      rw [← sub_pos (a := 1), ← sub_pos (a := ξ), ← e2]
      exact (mul_pos_iff_of_pos_right hden).symm
    rw [h1]
    have hd : ξ ^ 2 = (((1 - x ^ 2) + (1 - y ^ 2)) / 2) ^ 2 +
      ((n : ℝ) ^ 2 - 1) * (((x + y) * (y - x)) / 2) ^ 2 := by rw [hξ]; ring
    constructor
    · rintro hlt rfl
      have : ξ ^ 2 = (((1 - x ^ 2) + (1 - x ^ 2)) / 2) ^ 2 := by rw [hd]; ring
      have h0 : 0 ≤ ((1 - x ^ 2) + (1 - x ^ 2)) / 2 := by linarith
      have := (sq_eq_sq₀ hξ0 h0).1 this
      linarith
    · intro hne
      refine lt_of_le_of_ne f1 fun he => ?_
      rw [← he] at hd
      have h5 : ((n : ℝ) ^ 2 - 1) * (((x + y) * (y - x)) / 2) ^ 2 = 0 := by linarith
      have h6 : (n : ℝ) ^ 2 - 1 ≠ 0 := by nlinarith
      have h7 : ((x + y) * (y - x)) / 2 ≠ 0 := by
        have : y - x ≠ 0 := sub_ne_zero.2 (Ne.symm hne)
        positivity
      exact (mul_ne_zero h6 (pow_ne_zero 2 h7)) h5
  refine ⟨⟨hs0, by linarith, by rw [hδ]; exact mul_nonneg hc1.le f3⟩, hlt, ?_⟩
  intro v hv1 hv2
  have h3 : (n : ℝ) * n - 1 = (n - 1) * (n + 1) := by ring
  have h4 : (n : ℝ) - 1 ≠ 0 := by linarith
  have hn0 : (n : ℝ) ≠ 0 := by linarith
  have key : (1 - σ) * (1 * δ - 1 + v ^ 2) - (v + σ * ((x + y) / 2)) ^ 2 =
      σ * (-(v + x) * (v + y)) := by
    have := par_id hn hs hξ hσ hδ
    linear_combination this
  have hpos : 0 ≤ -(v + x) * (v + y) := mul_nonneg (by linarith) (by linarith)
  constructor
  · have := mul_nonneg hs0 hpos; linarith
  · rcases eq_or_ne x y with rfl | hne
    · have hv : v = -x := by linarith
      subst hv
      have h0 : 0 ≤ 1 - x ^ 2 := by linarith
      have hxi : ξ = 1 - x ^ 2 := by
        refine (sq_eq_sq₀ hξ0 h0).1 ?_
        rw [hξ]; ring
      have hc : 1 ≤ c1 n := by unfold c1; rw [le_div_iff₀ (by nlinarith)]; linarith
      have : 0 ≤ ξ / n := by positivity
      have h6 : (1 - x ^ 2) ≤ ((1 - x ^ 2) + (1 - x ^ 2)) / 2 + ξ / n := by linarith
      rw [hδ]
      nlinarith
    · have hlt' : 0 < 1 - σ := by have := hlt.2 hne; linarith
      have h5 : 0 ≤ (1 - σ) * (1 * δ - 1 + v ^ 2) := by
        have := mul_nonneg hs0 hpos
        have := sq_nonneg (v + σ * ((x + y) / 2))
        linarith
      have := nonneg_of_mul_nonneg_right h5 hlt'
      linarith
end norm

theorem KeepsAt.scale {ρ σ δ v τ : ℝ} (h : KeepsAt 1 ρ σ δ v) :
    KeepsAt (τ ^ 2) (τ * ρ) σ δ (τ * v) := by
  obtain ⟨h1, h2⟩ := h
  constructor
  · have := mul_le_mul_of_nonneg_left h1 (sq_nonneg τ)
    calc (τ * v + τ * ρ) ^ 2 = τ ^ 2 * (v + ρ) ^ 2 := by ring
      _ ≤ _ := this
      _ = _ := by ring
  · have := mul_le_mul_of_nonneg_left h2 (sq_nonneg τ)
    calc τ ^ 2 - (τ * v) ^ 2 = τ ^ 2 * (1 - v ^ 2) := by ring
      _ ≤ _ := this
      _ = _ := by ring

section
variable {τ b0 b1 : ℝ}

theorem parXi_sq (n : ℕ) (hτ : 0 < τ) (x y : ℝ) :
    parXi n (τ ^ 2) (τ * x) (τ * y) =
      √((1 - x ^ 2) * (1 - y ^ 2) + (n / 2 * (x + y) * (y - x)) ^ 2) := by
  unfold parXi; congr 1; field_simp

/-- The square root of the parallel cut never fails. -/
theorem par_arg_nonneg (hn : 2 ≤ n) (x y : ℝ) :
    0 ≤ (1 - x ^ 2) * (1 - y ^ 2) + (n / 2 * (x + y) * (y - x)) ^ 2 := by
  have hn' : (2 : ℝ) ≤ n := by exact_mod_cast hn
  have : (1 - x ^ 2) * (1 - y ^ 2) + (n / 2 * (x + y) * (y - x)) ^ 2 =
    (((1 - x ^ 2) + (1 - y ^ 2)) / 2) ^ 2 + ((n : ℝ) ^ 2 - 1) * (((x + y) * (y - x)) / 2) ^ 2 := by
      ring
  rw [this]
  have : 0 ≤ (n : ℝ) ^ 2 - 1 := by nlinarith
  positivity

/-- Everything soundness needs about a parallel cut. -/
theorem par_facts (hn : 2 ≤ n) (hτ : 0 < τ) (h1 : 0 ≤ 1 - b1 * (b1 / τ ^ 2)) (hb : b0 ≤ b1)
    (hp : -1 ≤ (n : ℝ) * (b0 * (b1 / τ ^ 2))) (hs : b0 + b1 ≠ 0) :
    Range (parSigma n (τ ^ 2) b0 b1) (parDelta n (τ ^ 2) b0 b1) ∧
    (parSigma n (τ ^ 2) b0 b1 < 1 ↔ b0 ≠ b1) ∧
    ∀ u, u + b0 ≤ 0 → 0 ≤ u + b1 →
      KeepsAt (τ ^ 2) (parSigma n (τ ^ 2) b0 b1 * ((b0 + b1) / 2)) (parSigma n (τ ^ 2) b0 b1)
        (parDelta n (τ ^ 2) b0 b1) u := by
  obtain ⟨x, rfl⟩ : ∃ x, b0 = τ * x := ⟨b0 / τ, by field_simp⟩
  obtain ⟨y, rfl⟩ : ∃ y, b1 = τ * y := ⟨b1 / τ, by field_simp⟩
  have hτ' := hτ.ne'
  have hn' : (2 : ℝ) ≤ n := by exact_mod_cast hn
  have e1 : τ * y * (τ * y / τ ^ 2) = y ^ 2 := by field_simp
  have e2 : τ * x * (τ * y / τ ^ 2) = x * y := by field_simp
  have e3 : τ * x * (τ * x / τ ^ 2) = x ^ 2 := by field_simp
  have hxy : x ≤ y := le_of_mul_le_mul_left hb hτ
  have hsum : x + y ≠ 0 := by
    intro h; apply hs; rw [← mul_add, h, mul_zero]
  rw [e1] at h1
  rw [e2] at hp
  have hξ := parXi_sq n hτ x y
  obtain ⟨r1, r2, r3⟩ := par_norm (ξ := parXi n (τ ^ 2) (τ * x) (τ * y))
    (σ := parSigma n (τ ^ 2) (τ * x) (τ * y)) (δ := parDelta n (τ ^ 2) (τ * x) (τ * y)) hn
    (by linarith) hxy hp hsum (by rw [hξ]; positivity)
    (by rw [hξ, Real.sq_sqrt (par_arg_nonneg hn x y)])
    (by unfold parSigma; rw [e2]; congr 2; field_simp) (by unfold parDelta; rw [e1, e3])
  refine ⟨r1, ?_, ?_⟩
  · rw [r2]; exact not_congr ⟨fun h => by rw [h], fun h => mul_left_cancel₀ hτ' h⟩
  · intro u hu0 hu1
    obtain ⟨v, rfl⟩ : ∃ v, u = τ * v := ⟨u / τ, by field_simp⟩
    have := (r3 v ?_ ?_).scale (τ := τ)
    · convert this using 1; ring
    · rw [← mul_add] at hu0; exact nonpos_of_mul_nonpos_right hu0 hτ
    · rw [← mul_add] at hu1; exact nonneg_of_mul_nonneg_right hu1 hτ
end
end Verif.Ell
