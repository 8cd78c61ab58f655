import Verif.Proofs.EllParallel
import Verif.Proofs.Psd
import Verif.Spec.EllSpec

/-! # Geometry of one ellipsoid update -/
namespace Verif.Ell
open Matrix
variable {n : ℕ}

/-- The updated shape (before scaling by `δ`). -/
noncomputable def shape (Q : Matrix (Fin n) (Fin n) ℝ) (g : Fin n → ℝ) (σ : ℝ) :
    Matrix (Fin n) (Fin n) ℝ :=
  Q - (σ / (g ⬝ᵥ Q *ᵥ g)) • vecMulVec (Q *ᵥ g) (Q *ᵥ g)

theorem shape_symm {Q : Matrix (Fin n) (Fin n) ℝ} (hQ : Qᵀ = Q) (g : Fin n → ℝ) (σ : ℝ) :
    (shape Q g σ)ᵀ = shape Q g σ := by
  unfold shape
  rw [transpose_sub, transpose_smul, transpose_vecMulVec, hQ]

theorem shape_quad {Q : Matrix (Fin n) (Fin n) ℝ} (g y : Fin n → ℝ) (σ : ℝ) :
    y ⬝ᵥ (shape Q g σ) *ᵥ y = y ⬝ᵥ Q *ᵥ y - σ / (g ⬝ᵥ Q *ᵥ g) * (y ⬝ᵥ Q *ᵥ g) ^ 2 := by
  unfold shape
  rw [sub_mulVec, dotProduct_sub, smul_mulVec, vecMulVec_mulVec, dotProduct_smul, dotProduct_smul]
  simp only [smul_eq_mul, op_smul_eq_smul]
  rw [dotProduct_comm (Q *ᵥ g) y]; ring

/-- Decomposition of a direction `y` into the component along `g` and a `Q`-orthogonal rest. -/
theorem decomp {Q : Matrix (Fin n) (Fin n) ℝ} (hQ : Qᵀ = Q) {g : Fin n → ℝ}
    (hω : g ⬝ᵥ Q *ᵥ g ≠ 0) (y : Fin n → ℝ) :
    ∃ (a : ℝ) (w : Fin n → ℝ), y = a • g + w ∧ g ⬝ᵥ Q *ᵥ w = 0 ∧
      y ⬝ᵥ Q *ᵥ g = a * (g ⬝ᵥ Q *ᵥ g) ∧
      y ⬝ᵥ Q *ᵥ y = a ^ 2 * (g ⬝ᵥ Q *ᵥ g) + w ⬝ᵥ Q *ᵥ w := by
  set ω := g ⬝ᵥ Q *ᵥ g with hωd
  have hw : g ⬝ᵥ Q *ᵥ (y - ((y ⬝ᵥ Q *ᵥ g) / ω) • g) = 0 := by
    rw [mulVec_sub, dotProduct_sub, mulVec_smul, dotProduct_smul, smul_eq_mul, ← hωd,
      dot_sym hQ g y]
    field_simp; ring
  refine ⟨(y ⬝ᵥ Q *ᵥ g) / ω, y - ((y ⬝ᵥ Q *ᵥ g) / ω) • g, by simp, hw, by field_simp, ?_⟩
  set w := y - ((y ⬝ᵥ Q *ᵥ g) / ω) • g with hwd
  have hy : y = ((y ⬝ᵥ Q *ᵥ g) / ω) • g + (1 : ℝ) • w := by simp [hwd]
  conv_lhs => rw [hy]
  rw [quad_comb hQ, hw]; ring

theorem shape_psd {Q : Matrix (Fin n) (Fin n) ℝ} (hQ : Q.PosSemidef) {g : Fin n → ℝ}
    (hω : g ⬝ᵥ Q *ᵥ g ≠ 0) {σ : ℝ} (hσ : σ ≤ 1) : (shape Q g σ).PosSemidef := by
  obtain ⟨hs, hp⟩ := psd_iff.1 hQ
  refine psd_iff.2 ⟨shape_symm hs _ _, fun y => ?_⟩
  obtain ⟨a, w, -, -, h1, h2⟩ := decomp hs hω y
  rw [shape_quad, h1, h2]
  have h3 : a ^ 2 * (g ⬝ᵥ Q *ᵥ g) + w ⬝ᵥ Q *ᵥ w -
      σ / (g ⬝ᵥ Q *ᵥ g) * (a * (g ⬝ᵥ Q *ᵥ g)) ^ 2 =
      (1 - σ) * (a ^ 2 * (g ⬝ᵥ Q *ᵥ g)) + w ⬝ᵥ Q *ᵥ w := by field_simp; ring
  rw [h3]
  have := hp g; have := hp w
  have : 0 ≤ 1 - σ := by linarith
  positivity

theorem shape_pd {Q : Matrix (Fin n) (Fin n) ℝ} (hQ : Q.PosDef) {g : Fin n → ℝ}
    (hω : g ⬝ᵥ Q *ᵥ g ≠ 0) {σ : ℝ} (hσ : σ < 1) : (shape Q g σ).PosDef := by
  obtain ⟨hs, hp⟩ := pd_iff.1 hQ
  refine pd_iff.2 ⟨shape_symm hs _ _, fun y hy => ?_⟩
  obtain ⟨a, w, hyd, -, h1, h2⟩ := decomp hs hω y
  rw [shape_quad, h1, h2]
  have h3 : a ^ 2 * (g ⬝ᵥ Q *ᵥ g) + w ⬝ᵥ Q *ᵥ w -
      σ / (g ⬝ᵥ Q *ᵥ g) * (a * (g ⬝ᵥ Q *ᵥ g)) ^ 2 =
      (1 - σ) * (a ^ 2 * (g ⬝ᵥ Q *ᵥ g)) + w ⬝ᵥ Q *ᵥ w := by field_simp; ring
  rw [h3]
  have hg : 0 < g ⬝ᵥ Q *ᵥ g := by
    apply hp; rintro rfl; simp at hω
  have : 0 < 1 - σ := by linarith
  by_cases hw : w = 0
  · subst hw
    have ha : a ≠ 0 := by rintro rfl; simp at hyd; exact hy hyd
    have : 0 < (1 - σ) * (a ^ 2 * (g ⬝ᵥ Q *ᵥ g)) := by positivity
    simpa using this
  · have := hp w hw
    positivity

/-- The 2-dimensional core of soundness. -/
theorem core2 {κ ω u p q a ρ σ δ : ℝ} (hω : 0 < ω) (hq : 0 ≤ q) (hκ : 0 ≤ κ)
    (hall : ∀ s t : ℝ, (s * u + t * p) ^ 2 ≤ κ * (s ^ 2 * ω + t ^ 2 * q))
    (hr : Range σ δ) (hk : KeepsAt (κ * ω) ρ σ δ u) :
    (a * (u + ρ) + p) ^ 2 ≤ κ * δ * ((1 - σ) * (ω * a ^ 2) + q) := by
  obtain ⟨k1, k2⟩ := hk
  have hs1 : 0 ≤ 1 - σ := by linarith [hr.s1]
  -- joint bound
  have hj : u ^ 2 * q + p ^ 2 * ω ≤ κ * ω * q := by
    have h := hall (u * q) (p * ω)
    have e1 : (u * q * u + p * ω * p) ^ 2 = (u ^ 2 * q + p ^ 2 * ω) ^ 2 := by ring
    have e2 : κ * ((u * q) ^ 2 * ω + (p * ω) ^ 2 * q) = κ * ω * q * (u ^ 2 * q + p ^ 2 * ω) := by ring
    rw [e1, e2] at h
    have h0 : 0 ≤ u ^ 2 * q + p ^ 2 * ω := by positivity
    rcases eq_or_lt_of_le h0 with h1 | h1
    · rw [← h1]; positivity
    · have : (u ^ 2 * q + p ^ 2 * ω) * (u ^ 2 * q + p ^ 2 * ω) ≤ κ * ω * q * (u ^ 2 * q + p ^ 2 * ω) := by
        rw [← sq]; exact h
      exact le_of_mul_le_mul_right this h1
  rcases eq_or_lt_of_le hq with h0 | h0
  · -- `q = 0`
    subst h0
    have hp : p = 0 := by
      have : p ^ 2 * ω ≤ 0 := by linarith
      have : p ^ 2 ≤ 0 := by nlinarith [sq_nonneg p]
      nlinarith [sq_nonneg p]
    subst hp
    have hu : u ^ 2 ≤ κ * ω := by simpa using hall 1 0
    have : (u + ρ) ^ 2 ≤ κ * δ * ((1 - σ) * ω) := by nlinarith
    calc (a * (u + ρ) + 0) ^ 2 = a ^ 2 * (u + ρ) ^ 2 := by ring
      _ ≤ a ^ 2 * (κ * δ * ((1 - σ) * ω)) := mul_le_mul_of_nonneg_left this (sq_nonneg _)
      _ = _ := by ring
  · -- `p² ≤ q (κ - u²/ω)`, written without division
    have hp2 : p ^ 2 * ω ≤ q * (κ * ω - u ^ 2) := by nlinarith
    have hp3 : p ^ 2 ≤ q * (κ * δ) := by
      have : p ^ 2 * ω ≤ q * (κ * δ) * ω := by
        have := mul_le_mul_of_nonneg_left k2 h0.le
        nlinarith
      exact le_of_mul_le_mul_right this hω
    -- the key inequality  A² q ≤ (1-σ) ω (κ δ q - p²)
    have hA : (u + ρ) ^ 2 * q ≤ (1 - σ) * (ω * (κ * δ * q - p ^ 2)) := by
      have h1 := mul_le_mul_of_nonneg_right k1 h0.le
      have h2 : (κ * ω * δ - κ * ω + u ^ 2) * q ≤ ω * (κ * δ * q - p ^ 2) := by nlinarith
      have h3 := mul_le_mul_of_nonneg_left h2 hs1
      nlinarith
    -- finish: q * (RHS - LHS) is a sum of nonnegative terms
    have hfin : 0 ≤ q * (κ * δ * ((1 - σ) * (ω * a ^ 2) + q) - (a * (u + ρ) + p) ^ 2) := by
      have hB : 0 ≤ κ * δ * q - p ^ 2 := by linarith
      have h4 := mul_le_mul_of_nonneg_left hA (sq_nonneg a)
      -- the remaining expression is quadratic in `a`
      rcases eq_or_lt_of_le hB with hb | hb
      · -- then A = 0
        rw [← hb] at hA
        have hA0 : u + ρ = 0 := by
          have : (u + ρ) ^ 2 * q ≤ 0 := by linarith
          have : (u + ρ) ^ 2 ≤ 0 := by nlinarith [sq_nonneg (u + ρ)]
          nlinarith [sq_nonneg (u + ρ)]
        rw [hA0]
        have hd : 0 ≤ κ * δ := mul_nonneg hκ hr.d0
        have : 0 ≤ κ * δ * ((1 - σ) * (ω * a ^ 2)) := by positivity
        apply mul_nonneg hq
        nlinarith
      · -- Cauchy-Schwarz with B = κδq - p² > 0
        set B := κ * δ * q - p ^ 2 with hBd
        set A := u + ρ with hAd
        have hE : q * (κ * δ * ((1 - σ) * (ω * a ^ 2) + q) - (a * A + p) ^ 2) =
            ((1 - σ) * (ω * a ^ 2)) * (B + p ^ 2) + q * B - q * (a ^ 2 * A ^ 2) - 2 * q * (a * A * p) := by
          rw [hBd]; ring
        rw [hE]
        have h5 : a ^ 2 * (A ^ 2 * q) ≤ (1 - σ) * (ω * a ^ 2) * B := by nlinarith
        -- (aAq)² ≤ q (1-σ)ωa² B
        have h6 : 0 ≤ (1 - σ) * (ω * a ^ 2) * p ^ 2 + q * B - 2 * q * (a * A * p) := by
          have h7 : 0 ≤ B * ((1 - σ) * (ω * a ^ 2) * p ^ 2 + q * B - 2 * q * (a * A * p)) := by
            have h8 : a ^ 2 * (A ^ 2 * q) * p ^ 2 ≤ (1 - σ) * (ω * a ^ 2) * B * p ^ 2 :=
              mul_le_mul_of_nonneg_right h5 (sq_nonneg p)
            have h9 : 0 ≤ q * (B - a * A * p) ^ 2 := mul_nonneg hq (sq_nonneg _)
            nlinarith
          exact nonneg_of_mul_nonneg_right h7 hb
        nlinarith
    have := nonneg_of_mul_nonneg_right hfin h0
    linarith

/-- Soundness of an accepted update at the level of sets. -/
theorem mem_step {Q : Matrix (Fin n) (Fin n) ℝ} (hQ : Q.PosSemidef) {g z : Fin n → ℝ}
    {κ ρ σ δ : ℝ} (hκ : 0 ≤ κ) (hω : g ⬝ᵥ Q *ᵥ g ≠ 0)
    (hz : ∀ y, (y ⬝ᵥ z) ^ 2 ≤ κ * (y ⬝ᵥ Q *ᵥ y))
    (hr : Range σ δ) (hk : KeepsAt (κ * (g ⬝ᵥ Q *ᵥ g)) ρ σ δ (g ⬝ᵥ z)) (y : Fin n → ℝ) :
    (y ⬝ᵥ (z + (ρ / (g ⬝ᵥ Q *ᵥ g)) • Q *ᵥ g)) ^ 2 ≤ κ * δ * (y ⬝ᵥ (shape Q g σ) *ᵥ y) := by
  obtain ⟨hs, hp⟩ := psd_iff.1 hQ
  have hω0 : 0 < g ⬝ᵥ Q *ᵥ g := lt_of_le_of_ne (hp g) (Ne.symm hω)
  obtain ⟨a, w, hy, hw, h1, h2⟩ := decomp hs hω y
  have hall : ∀ s t : ℝ, (s * (g ⬝ᵥ z) + t * (w ⬝ᵥ z)) ^ 2 ≤
      κ * (s ^ 2 * (g ⬝ᵥ Q *ᵥ g) + t ^ 2 * (w ⬝ᵥ Q *ᵥ w)) := by
    intro s t
    have := hz (s • g + t • w)
    rw [quad_comb hs, hw] at this
    simpa [add_dotProduct, smul_dotProduct] using this
  have := core2 (a := a) hω0 (hp w) hκ hall hr hk
  have e1 : y ⬝ᵥ (z + (ρ / (g ⬝ᵥ Q *ᵥ g)) • Q *ᵥ g) = a * (g ⬝ᵥ z + ρ) + w ⬝ᵥ z := by
    rw [dotProduct_add, dotProduct_smul, h1, smul_eq_mul]
    conv_lhs => rw [hy]
    rw [add_dotProduct, smul_dotProduct, smul_eq_mul]
    field_simp; ring
  have e2 : y ⬝ᵥ (shape Q g σ) *ᵥ y =
      (1 - σ) * ((g ⬝ᵥ Q *ᵥ g) * a ^ 2) + w ⬝ᵥ Q *ᵥ w := by
    rw [shape_quad, h1, h2]; field_simp; ring
  rw [e1, e2]; exact this

end Verif.Ell
