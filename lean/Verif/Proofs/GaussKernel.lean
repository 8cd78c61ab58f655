import Mathlib.Analysis.Matrix.Order
import Mathlib.Analysis.SpecialFunctions.Exponential
import Mathlib.Algebra.Polynomial.Eval.Degree
import Mathlib.Algebra.BigOperators.Field

/-!
# The Gaussian kernel is strictly positive definite on distinct points
-/
namespace Verif
open Matrix Finset

variable {n d : ℕ}

/-- Entrywise powers of a Gram matrix are positive semidefinite. -/
theorem gram_pow_psd (s : Fin n → Fin d → ℝ) (k : ℕ) :
    (Matrix.of fun i j => (s i ⬝ᵥ s j) ^ k : Matrix (Fin n) (Fin n) ℝ).PosSemidef := by
  induction k with
  | zero =>
    have h := Matrix.posSemidef_vecMulVec_self_star (fun _ : Fin n => (1 : ℝ))
    convert h using 1
    ext i j; simp [vecMulVec_apply]
  | succ k ih =>
    have h := Matrix.posSemidef_self_mul_conjTranspose (Matrix.of s)
    have h' := ih.hadamard h
    have e : (Matrix.of fun i j => (s i ⬝ᵥ s j) ^ (k + 1) : Matrix (Fin n) (Fin n) ℝ) =
        (Matrix.of fun i j => (s i ⬝ᵥ s j) ^ k) ⊙ (Matrix.of s * (Matrix.of s)ᴴ) := by
      ext i j
      simp [pow_succ, Matrix.mul_apply, dotProduct]
    rw [e]; exact h'

/-- If every power of the Gram matrix of distinct points kills `u`, then `u = 0`. -/
theorem gram_pow_ker {s : Fin n → Fin d → ℝ} (hs : Function.Injective s) {u : Fin n → ℝ}
    (h : ∀ k i, ∑ j, (s i ⬝ᵥ s j) ^ k * u j = 0) : u = 0 := by
  by_contra hu
  obtain ⟨i0, hi0⟩ := Function.ne_iff.1 hu
  have hne : (univ.filter fun i => u i ≠ 0).Nonempty := ⟨i0, by simpa using hi0⟩
  obtain ⟨i, hi, hmax⟩ := exists_max_image _ (fun i => s i ⬝ᵥ s i) hne
  simp only [mem_filter, mem_univ, true_and] at hi hmax
  -- the only support point with `s i · s j = |s i|²` is `i`
  have hsep : ∀ j, u j ≠ 0 → s i ⬝ᵥ s j = s i ⬝ᵥ s i → j = i := by
    intro j hj he
    have h1 := hmax j hj
    have h2 : (s j - s i) ⬝ᵥ (s j - s i) ≤ 0 := by
      rw [sub_dotProduct, dotProduct_sub, dotProduct_sub, dotProduct_comm (s j) (s i), he]
      linarith
    have h3 : (s j - s i) ⬝ᵥ (s j - s i) = 0 :=
      le_antisymm h2 (sum_nonneg fun k _ => mul_self_nonneg _)
    exact hs (sub_eq_zero.1 (dotProduct_self_eq_zero.1 h3))
  set V : Finset ℝ := (univ.image fun j => s i ⬝ᵥ s j).erase (s i ⬝ᵥ s i)
  let p : Polynomial ℝ := ∏ v ∈ V, (Polynomial.X - Polynomial.C v)
  have hp : ∀ x, p.eval x = ∏ v ∈ V, (x - v) := fun x => by simp [p, Polynomial.eval_prod]
  have h0 : ∑ j, p.eval (s i ⬝ᵥ s j) * u j = 0 := by
    have : ∀ j, p.eval (s i ⬝ᵥ s j) * u j = ∑ k ∈ range (p.natDegree + 1), p.coeff k * ((s i ⬝ᵥ s j) ^ k * u j) := by
      intro j
      rw [Polynomial.eval_eq_sum_range, sum_mul]
      exact sum_congr rfl fun k _ => by ring
    simp only [this]
    rw [sum_comm]
    refine sum_eq_zero fun k _ => ?_
    rw [← mul_sum, h k i, mul_zero]
  rw [sum_eq_single i] at h0
  · rcases mul_eq_zero.1 h0 with h1 | h1
    · rw [hp, prod_eq_zero_iff] at h1
      obtain ⟨v, hv, hv'⟩ := h1
      exact (mem_erase.1 hv).1 (by linarith)
    · exact hi h1
  · intro j _ hji
    by_cases hj : u j = 0
    · simp [hj]
    · have h1 : s i ⬝ᵥ s j ∈ V := mem_erase.2 ⟨fun he => hji (hsep j hj he), mem_image_of_mem _ (mem_univ j)⟩
      rw [hp, prod_eq_zero h1 (sub_self _), zero_mul]
  · simp

/-- The exponential kernel `exp(c s_i·s_j)`, `c > 0`, is strictly positive definite on distinct points. -/
theorem exp_gram_pos {s : Fin n → Fin d → ℝ} (hs : Function.Injective s) {c : ℝ} (hc : 0 < c) {u : Fin n → ℝ}
    (hu : u ≠ 0) : 0 < ∑ i, ∑ j, u i * u j * Real.exp (c * (s i ⬝ᵥ s j)) := by
  let q : ℕ → ℝ := fun k => ∑ i, ∑ j, u i * u j * (s i ⬝ᵥ s j) ^ k
  have hq : ∀ k, q k = star u ⬝ᵥ (Matrix.of fun i j => (s i ⬝ᵥ s j) ^ k : Matrix (Fin n) (Fin n) ℝ) *ᵥ u := by
    intro k
    simp only [q, star_trivial, dotProduct, mulVec, mul_sum, of_apply]
    exact sum_congr rfl fun i _ => sum_congr rfl fun j _ => by ring
  have hq0 : ∀ k, 0 ≤ q k := fun k => by rw [hq]; exact (gram_pow_psd s k).dotProduct_mulVec_nonneg u
  have hsum : HasSum (fun k : ℕ => c ^ k / k.factorial * q k) (∑ i, ∑ j, u i * u j * Real.exp (c * (s i ⬝ᵥ s j))) := by
    have h1 : ∀ i j, HasSum (fun k : ℕ => u i * u j * ((c * (s i ⬝ᵥ s j)) ^ k / k.factorial))
        (u i * u j * Real.exp (c * (s i ⬝ᵥ s j))) := fun i j => by
      rw [Real.exp_eq_exp_ℝ]
      exact (NormedSpace.expSeries_div_hasSum_exp (c * (s i ⬝ᵥ s j))).mul_left _
    have h2 := hasSum_sum (s := univ) fun i _ => hasSum_sum (s := univ) fun j _ => h1 i j
    convert h2 using 1
    funext k
    simp only [q, mul_sum]
    exact sum_congr rfl fun i _ => sum_congr rfl fun j _ => by rw [mul_pow]; ring
  have hterm : ∀ k : ℕ, 0 ≤ c ^ k / k.factorial * q k := fun k => mul_nonneg (by positivity) (hq0 k)
  by_contra hle
  refine hu (gram_pow_ker hs fun k i => ?_)
  have h1 : c ^ k / k.factorial * q k ≤ 0 := (le_hasSum hsum k fun j _ => hterm j).trans (not_lt.1 hle)
  have h2 : q k = 0 := le_antisymm (nonpos_of_mul_nonpos_right h1 (by positivity)) (hq0 k)
  rw [hq, (gram_pow_psd s k).dotProduct_mulVec_zero_iff] at h2
  exact congrFun h2 i

/-- The Gaussian kernel `exp(-c |s_j - s_i|²)`, `c > 0`, is positive definite on distinct points. -/
theorem gauss_posDef {s : Fin n → Fin d → ℝ} (hs : Function.Injective s) {c : ℝ} (hc : 0 < c) :
    (Matrix.of fun i j => Real.exp (-c * ∑ k, (s j k - s i k) * (s j k - s i k)) : Matrix (Fin n) (Fin n) ℝ).PosDef := by
  rw [Matrix.posDef_iff_dotProduct_mulVec]
  refine ⟨?_, fun {u} hu => ?_⟩
  · ext i j
    simp only [conjTranspose_apply, of_apply, star_trivial]
    congr 2
    exact sum_congr rfl fun k _ => by ring
  · have hfac : ∀ i j, Real.exp (-c * ∑ k, (s j k - s i k) * (s j k - s i k)) =
        Real.exp (-c * (s i ⬝ᵥ s i)) * Real.exp (-c * (s j ⬝ᵥ s j)) * Real.exp (2 * c * (s i ⬝ᵥ s j)) := by
      intro i j
      rw [← Real.exp_add, ← Real.exp_add]
      congr 1
      simp only [dotProduct, mul_sum, ← sum_add_distrib]
      exact sum_congr rfl fun k _ => by ring
    have hv : (fun i => u i * Real.exp (-c * (s i ⬝ᵥ s i))) ≠ 0 := by
      obtain ⟨i, hi⟩ := Function.ne_iff.1 hu
      exact Function.ne_iff.2 ⟨i, mul_ne_zero hi (Real.exp_pos _).ne'⟩
    have h := exp_gram_pos hs (show 0 < 2 * c by linarith) hv
    refine h.trans_eq ?_
    simp only [star_trivial, dotProduct, mulVec, mul_sum, of_apply]
    refine sum_congr rfl fun i _ => sum_congr rfl fun j _ => ?_
    have := hfac i j
    simp only [dotProduct, mul_sum] at this
    rw [this]; ring

end Verif
