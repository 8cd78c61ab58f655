import Verif.Proofs.EllVolume
import Verif.Proofs.EllOptimal
import Mathlib.Analysis.InnerProductSpace.PiL2
import Mathlib.Analysis.SpecialFunctions.Exp

/-!
# Smallest ellipsoids around a slice of a ball

The argument of F. John: the points where the updated ellipsoid touches the slice carry weights whose
second moment is the matrix of the updated ellipsoid.
-/
namespace Verif
open Matrix
variable {n : ℕ}

/-- A positive definite matrix whose trace is at most its size has determinant at most 1, and is the
identity if the determinant is 1. -/
theorem det_le_one_of_trace {B : Matrix (Fin n) (Fin n) ℝ} (hB : B.PosDef) (ht : B.trace ≤ n) :
    B.det ≤ 1 ∧ (1 ≤ B.det → B = 1) := by
  have htr : B.trace = ∑ i, hB.1.eigenvalues i := by
    simpa using hB.1.trace_eq_sum_eigenvalues
  have hdet : B.det = ∏ i, hB.1.eigenvalues i := by
    simpa using hB.1.det_eq_prod_eigenvalues
  have hpos := hB.eigenvalues_pos
  have hexp : ∏ i, Real.exp (hB.1.eigenvalues i - 1) ≤ 1 := by
    rw [← Real.exp_sum, Real.exp_le_one_iff, Finset.sum_sub_distrib, ← htr]
    simpa using ht
  have hle : ∀ i ∈ Finset.univ, hB.1.eigenvalues i ≤ Real.exp (hB.1.eigenvalues i - 1) := fun i _ => by
    linarith [Real.add_one_le_exp (hB.1.eigenvalues i - 1)]
  refine ⟨hdet ▸ (Finset.prod_le_prod (fun i _ => (hpos i).le) hle).trans hexp, fun h1 => ?_⟩
  have hone : ∀ i, hB.1.eigenvalues i = 1 := by
    by_contra hc
    push Not at hc
    obtain ⟨i, hi⟩ := hc
    have hlt : hB.1.eigenvalues i < Real.exp (hB.1.eigenvalues i - 1) := by
      linarith [Real.add_one_lt_exp (sub_ne_zero.2 hi)]
    have := Finset.prod_lt_prod (fun i _ => hpos i) hle ⟨i, Finset.mem_univ i, hlt⟩
    linarith
  have hs := hB.1.spectral_theorem
  have he : (RCLike.ofReal ∘ hB.1.eigenvalues : Fin n → ℝ) = fun _ => 1 := by
    funext i; simp [hone i]
  rw [he] at hs
  rw [hs]
  simp

/-- The parallelogram law for a quadratic form. -/
theorem quad_parallelogram (N : Matrix (Fin n) (Fin n) ℝ) (p v : Fin n → ℝ) :
    (p + v) ⬝ᵥ N *ᵥ (p + v) + (p - v) ⬝ᵥ N *ᵥ (p - v) = 2 * (p ⬝ᵥ N *ᵥ p) + 2 * (v ⬝ᵥ N *ᵥ v) := by
  simp only [mulVec_add, mulVec_sub, add_dotProduct, sub_dotProduct, dotProduct_add, dotProduct_sub]
  ring

/-- The trace bound: an ellipsoid `{z | (z-d)'N(z-d) ≤ 1}` that contains the slice
`-y ≤ z₀ ≤ -x` of the unit ball. -/
theorem john_trace (hn : 2 ≤ n) (i0 : Fin n) {N : Matrix (Fin n) (Fin n) ℝ} (hs : Nᵀ = N)
    {d : Fin n → ℝ} {x y σ δ : ℝ} (hx : -1 ≤ x) (hxy : x < y) (hy : y ≤ 1) (hσ : σ < 1)
    (hδ : 0 < δ) (hp : (1 - σ) * δ = Ell.pencil x y σ)
    (hst : Ell.pencil x y σ = n * ((σ * (x + y) / 2 - x) * (y - σ * (x + y) / 2)))
    (hq : ∀ z : Fin n → ℝ, ∑ i, z i ^ 2 ≤ 1 → -y ≤ z i0 → z i0 ≤ -x → (z - d) ⬝ᵥ N *ᵥ (z - d) ≤ 1) :
    δ * (N.trace - σ * N i0 i0) +
      n * ((Pi.single i0 (-(σ * (x + y) / 2)) - d) ⬝ᵥ N *ᵥ (Pi.single i0 (-(σ * (x + y) / 2)) - d)) ≤ n := by
  have hn' : (2 : ℝ) ≤ n := by exact_mod_cast hn
  set m := σ * (x + y) / 2 with hm
  -- one rim
  have rim : ∀ t, -1 ≤ t → t ≤ 1 → x ≤ t → t ≤ y →
      ((n : ℝ) - 1) * ((Pi.single i0 (-t) - d) ⬝ᵥ N *ᵥ (Pi.single i0 (-t) - d)) +
        (1 - t ^ 2) * (N.trace - N i0 i0) ≤ n - 1 := by
    intro t h1 h2 h3 h4
    have ht : 0 ≤ 1 - t ^ 2 := by nlinarith
    have one : ∀ j ∈ Finset.univ.erase i0,
        (Pi.single i0 (-t) - d) ⬝ᵥ N *ᵥ (Pi.single i0 (-t) - d) + (1 - t ^ 2) * N j j ≤ 1 := by
      intro j hj
      have hj : j ≠ i0 := (Finset.mem_erase.1 hj).1
      have hv : ∀ r : ℝ, (Pi.single j r : Fin n → ℝ) ⬝ᵥ N *ᵥ Pi.single j r = r ^ 2 * N j j := by
        intro r; simp [single_dotProduct, mulVec_single]; ring
      have pt : ∀ r : ℝ, r ^ 2 = 1 - t ^ 2 →
          ((Pi.single i0 (-t) - d) + Pi.single j r) ⬝ᵥ N *ᵥ ((Pi.single i0 (-t) - d) + Pi.single j r) ≤ 1 := by
        intro r hr
        have e : (Pi.single i0 (-t) - d) + Pi.single j r =
            (Pi.single i0 (-t) + Pi.single j r : Fin n → ℝ) - d := by abel
        rw [e]
        have e0 : (Pi.single i0 (-t) + Pi.single j r : Fin n → ℝ) i0 = -t := by
          simp [hj.symm]
        refine hq _ ?_ (by rw [e0]; linarith) (by rw [e0]; linarith)
        have : ∀ i, (Pi.single i0 (-t) + Pi.single j r : Fin n → ℝ) i ^ 2 =
            (if i = i0 then t ^ 2 else 0) + (if i = j then r ^ 2 else 0) := by
          intro i
          by_cases ha : i = i0
          · subst ha; simp [hj.symm]
          · by_cases hb : i = j
            · subst hb; simp [ha]
            · simp [ha, hb]
        simp only [this, Finset.sum_add_distrib, Finset.sum_ite_eq', Finset.mem_univ, if_true]
        linarith
      have hr := Real.sq_sqrt ht
      have h5 := pt (√(1 - t ^ 2)) hr
      have h6 := pt (-√(1 - t ^ 2)) (by rw [neg_sq]; exact hr)
      rw [show (Pi.single j (-√(1 - t ^ 2)) : Fin n → ℝ) = -Pi.single j (√(1 - t ^ 2)) from Pi.single_neg _ _,
        ← sub_eq_add_neg] at h6
      have h7 := quad_parallelogram N (Pi.single i0 (-t) - d) (Pi.single j (√(1 - t ^ 2)))
      rw [hv, hr] at h7
      linarith
    have hsum := Finset.sum_le_sum one
    rw [Finset.sum_add_distrib, Finset.sum_const, Finset.sum_const, Finset.card_erase_of_mem (Finset.mem_univ _),
      ← Finset.mul_sum, Finset.card_univ, Fintype.card_fin, nsmul_eq_mul, nsmul_eq_mul, mul_one,
      Nat.cast_sub (by omega), Nat.cast_one] at hsum
    have htr : ∑ j ∈ Finset.univ.erase i0, N j j = N.trace - N i0 i0 := by
      rw [Matrix.trace, ← Finset.add_sum_erase _ _ (Finset.mem_univ i0)]; simp
    rwa [htr] at hsum
  have hpos : 0 < (m - x) * (y - m) := by
    have : 0 < (n : ℝ) * ((m - x) * (y - m)) := by
      rw [← hst, ← hp]; exact mul_pos (by linarith) hδ
    exact (mul_pos_iff_of_pos_left (by linarith)).1 this
  have hm1 : x < m ∧ m < y := by
    rcases pos_and_pos_or_neg_and_neg_of_mul_pos hpos with h | h
    · exact ⟨by linarith, by linarith⟩
    · exfalso; linarith
  have r0 := rim x hx (by linarith) le_rfl hxy.le
  have r1 := rim y (by linarith) hy hxy.le le_rfl
  -- the quadratic form along the axis
  have hax : ∀ t, (Pi.single i0 (-t) - d) ⬝ᵥ N *ᵥ (Pi.single i0 (-t) - d) =
      t ^ 2 * N i0 i0 + 2 * t * (N *ᵥ d) i0 + d ⬝ᵥ N *ᵥ d := by
    intro t
    have hc : d ⬝ᵥ N *ᵥ Pi.single i0 (-t) = -t * (N *ᵥ d) i0 := by
      rw [dotProduct_mulVec, ← mulVec_transpose, hs, dotProduct_single]; ring
    simp only [mulVec_sub, sub_dotProduct, dotProduct_sub, hc]
    simp [single_dotProduct, mulVec_single]
    ring
  rw [hax] at r0 r1 ⊢
  set A := N i0 i0
  set b := (N *ᵥ d) i0
  set c := d ⬝ᵥ N *ᵥ d
  set T := N.trace
  -- the two identities for the matrix of the new ellipsoid
  have i1 : (1 - σ) * δ = n * ((m - x) * (y - m)) := by rw [hp, hst]
  have i2 : ((n : ℝ) - 1) * δ = n * (1 - m ^ 2 - (m - x) * (y - m)) := by
    have h1 : (1 - σ) ≠ 0 := by linarith
    apply mul_left_cancel₀ h1
    have e1 : (1 - σ) * (((n : ℝ) - 1) * δ) = n * ((1 - σ) * δ) - (1 - σ) * δ := by ring
    rw [e1]
    have e2 : (n : ℝ) * ((1 - σ) * δ) = n * Ell.pencil x y σ := by rw [hp]
    rw [e2, i1]
    unfold Ell.pencil
    rw [hm]; ring
  -- average of the two rims
  have hyx : 0 < y - x := by linarith
  have avg := add_le_add (mul_le_mul_of_nonneg_left r0 (show 0 ≤ y - m by linarith))
    (mul_le_mul_of_nonneg_left r1 (show 0 ≤ m - x by linarith))
  have e : (y - m) * (((n : ℝ) - 1) * (x ^ 2 * A + 2 * x * b + c) + (1 - x ^ 2) * (T - A)) +
      (m - x) * (((n : ℝ) - 1) * (y ^ 2 * A + 2 * y * b + c) + (1 - y ^ 2) * (T - A)) =
      (y - x) * ((n - 1) * (m ^ 2 * A + 2 * m * b + c) + (n - 1) * ((m - x) * (y - m)) * A +
        (1 - m ^ 2 - (m - x) * (y - m)) * (T - A)) := by ring
  rw [e, show (y - m) * ((n : ℝ) - 1) + (m - x) * (n - 1) = (y - x) * (n - 1) by ring] at avg
  have avg := le_of_mul_le_mul_left avg hyx
  have hn1 : (0 : ℝ) < n - 1 := by linarith
  refine le_of_mul_le_mul_left ?_ hn1
  have key : ((n : ℝ) - 1) * (δ * (T - σ * A) + n * (m ^ 2 * A + 2 * m * b + c)) =
      n * ((n - 1) * (m ^ 2 * A + 2 * m * b + c) + (n - 1) * ((m - x) * (y - m)) * A +
        (1 - m ^ 2 - (m - x) * (y - m)) * (T - A)) := by
    linear_combination (T - A) * i2 + ((n : ℝ) - 1) * A * i1
  rw [key]
  have := mul_le_mul_of_nonneg_left avg (show (0 : ℝ) ≤ n by linarith)
  linarith

/-- An orthogonal matrix with a prescribed unit column. -/
theorem exists_orthogonal_col (i0 : Fin n) {u : Fin n → ℝ} (hu : u ⬝ᵥ u = 1) :
    ∃ R : Matrix (Fin n) (Fin n) ℝ, Rᵀ * R = 1 ∧ R * Rᵀ = 1 ∧ Rᵀ *ᵥ u = Pi.single i0 1 := by
  classical
  let v : EuclideanSpace ℝ (Fin n) := WithLp.toLp 2 u
  have hv : ‖v‖ = 1 := by
    rw [EuclideanSpace.norm_eq, Real.sqrt_eq_one]
    simpa [v, dotProduct, sq] using hu
  have ho : Orthonormal ℝ (({i0} : Set (Fin n)).domRestrict fun _ => v) := by
    refine ⟨fun i => hv, fun i j hij => absurd (Subsingleton.elim i j) hij⟩
  obtain ⟨b, hb⟩ := ho.exists_orthonormalBasis_extension_of_card_eq (by simp)
  have hb0 : b i0 = v := hb i0 rfl
  have h1 : (Matrix.of fun i j => (b j) i : Matrix (Fin n) (Fin n) ℝ)ᵀ * (Matrix.of fun i j => (b j) i) = 1 := by
    ext i j
    have := orthonormal_iff_ite.1 b.orthonormal i j
    rw [Matrix.mul_apply, Matrix.one_apply, ← this]
    simp [PiLp.inner_apply, mul_comm]
  refine ⟨Matrix.of fun i j => (b j) i, h1, mul_eq_one_comm.1 h1, ?_⟩
  have hcol : u = (Matrix.of fun i j => (b j) i : Matrix (Fin n) (Fin n) ℝ) *ᵥ Pi.single i0 1 := by
    ext i; simp [mulVec_single, hb0, v]
  conv_lhs => rw [hcol]
  rw [mulVec_mulVec, h1, one_mulVec]

end Verif
