import Verif.Proofs.EllFloatRun

/-! # How wide and how narrow the ellipsoids of a run can become -/
namespace Verif
open Matrix MeasureTheory Ell
variable {n : ℕ} {E E' : Ell n} {g : Fin n → ℝ} {β b C ε u η L D v : ℝ} {fl : ℝ → ℝ} {dot : (Fin n → ℝ) → (Fin n → ℝ) → ℝ}

/-- The smallest eigenvalue is at least `det A / L^(n-1)` if the largest is at most `L`. -/
theorem min_eig {A : Matrix (Fin n) (Fin n) ℝ} (hA : A.PosDef) {L : ℝ} (hL : ∀ y, y ⬝ᵥ A *ᵥ y ≤ L * (y ⬝ᵥ y)) (y : Fin n → ℝ) :
    A.det * (y ⬝ᵥ y) ≤ L ^ (n - 1) * (y ⬝ᵥ A *ᵥ y) := by
  classical
  have hH := hA.1
  set U : Matrix (Fin n) (Fin n) ℝ := (hH.eigenvectorUnitary).1 with hU
  have hUU : Uᵀ * U = 1 := by
    have := Unitary.coe_star_mul_self hH.eigenvectorUnitary
    simpa [star_eq_conjTranspose, conjTranspose_eq_transpose_of_trivial] using this
  have hUU' : U * Uᵀ = 1 := mul_eq_one_comm.1 hUU
  have hD : A = U * diagonal hH.eigenvalues * Uᵀ := by
    have := hH.spectral_theorem
    rw [Unitary.conjStarAlgAut_apply] at this
    simpa [star_eq_conjTranspose, conjTranspose_eq_transpose_of_trivial, Function.comp_def] using this
  set lam := hH.eigenvalues with hlam
  have hpos : ∀ i, 0 < lam i := fun i => hA.eigenvalues_pos i
  have q1 : ∀ z, (U *ᵥ z) ⬝ᵥ A *ᵥ (U *ᵥ z) = ∑ i, lam i * z i ^ 2 := fun z => by
    have e : A *ᵥ (U *ᵥ z) = U *ᵥ (diagonal lam *ᵥ z) := by
      rw [hD, mulVec_mulVec, mulVec_mulVec, mul_assoc, hUU, mul_one]
    rw [e, dotProduct_mulVec, ← mulVec_transpose, mulVec_mulVec, hUU, one_mulVec]
    simp only [dotProduct, mulVec_diagonal]
    exact Finset.sum_congr rfl fun i _ => by ring
  have q2 : ∀ z, (U *ᵥ z) ⬝ᵥ (U *ᵥ z) = ∑ i, z i ^ 2 := fun z => by
    rw [dotProduct_mulVec, ← mulVec_transpose, mulVec_mulVec, hUU, one_mulVec]
    simp only [dotProduct]
    exact Finset.sum_congr rfl fun i _ => by ring
  have hle : ∀ i, lam i ≤ L := fun i => by
    have := hL (U *ᵥ Pi.single i 1)
    rw [q1, q2] at this
    simpa [Pi.single_apply] using this
  have hdet : A.det = ∏ i, lam i := by simpa using hH.det_eq_prod_eigenvalues
  have hmin : ∀ i, A.det ≤ L ^ (n - 1) * lam i := fun i => by
    rw [hdet, ← Finset.mul_prod_erase _ _ (Finset.mem_univ i), mul_comm]
    refine mul_le_mul_of_nonneg_right ?_ (hpos i).le
    refine (Finset.prod_le_prod (fun j _ => (hpos j).le) (fun j _ => hle j)).trans (le_of_eq ?_)
    rw [Finset.prod_const, Finset.card_erase_of_mem (Finset.mem_univ i), Finset.card_univ, Fintype.card_fin]
  have hy : y = U *ᵥ (Uᵀ *ᵥ y) := by rw [mulVec_mulVec, hUU', one_mulVec]
  rw [hy, q1, q2, Finset.mul_sum, Finset.mul_sum]
  exact Finset.sum_le_sum fun i _ => by
    have := mul_le_mul_of_nonneg_right (hmin i) (sq_nonneg ((Uᵀ *ᵥ y) i))
    linarith

/-- No half-axis of the ellipsoid is longer than `√L`. -/
def Ell.Within (L : ℝ) (E : Ell n) : Prop := ∀ y, E.kappa * (y ⬝ᵥ E.Q *ᵥ y) ≤ L * (y ⬝ᵥ y)

theorem within_diag (h : E.Within L) (i : Fin n) : E.kappa * E.Q i i ≤ L := by
  have := h (Pi.single i 1)
  simpa [single_one_dotProduct] using this

theorem within_min (hE : E.Proper) (h : E.Within L) (y : Fin n → ℝ) : E.vsq * (y ⬝ᵥ y) ≤ L ^ (n - 1) * (E.kappa * (y ⬝ᵥ E.Q *ᵥ y)) := by
  have e : ∀ y, y ⬝ᵥ (E.kappa • E.Q) *ᵥ y = E.kappa * (y ⬝ᵥ E.Q *ᵥ y) := fun y => by rw [smul_mulVec, dotProduct_smul, smul_eq_mul]
  have := min_eig (A := E.kappa • E.Q) (hE.pd.smul hE.kappa) (L := L) (fun y => by rw [e]; exact h y) y
  rw [e, det_smul, Fintype.card_fin] at this
  exact this

/-- A wide ellipsoid with some volume is well-conditioned. -/
theorem within_cond (hE : E.Proper) (h : E.Within L) (hL : 0 ≤ L) (hv0 : 0 < v) (hv : v ^ 2 ≤ E.vsq) (hC : n * L ^ n ≤ C ^ 2 * v ^ 2) : CondBound C E.Q := by
  intro y
  have hκ := hE.kappa
  have hn : 1 ≤ n := by have := hE.dim; omega
  have hd : ∀ i, 0 ≤ E.Q i i := fun i => hE.pd.posSemidef.diag_nonneg
  have hyy : 0 ≤ y ⬝ᵥ y := Finset.sum_nonneg fun i _ => mul_self_nonneg (y i)
  have h1 : E.kappa * (∑ i, √(E.Q i i) * |y i|) ^ 2 ≤ n * L * (y ⬝ᵥ y) := by
    have k1 := Finset.sum_mul_sq_le_sq_mul_sq Finset.univ (fun _ => (1 : ℝ)) (fun i => √(E.Q i i) * |y i|)
    simp only [one_mul, one_pow, Finset.sum_const, Finset.card_univ, Fintype.card_fin, nsmul_eq_mul, mul_one] at k1
    have k2 : E.kappa * ∑ i, (√(E.Q i i) * |y i|) ^ 2 ≤ L * (y ⬝ᵥ y) := by
      rw [dotProduct, Finset.mul_sum, Finset.mul_sum]
      refine Finset.sum_le_sum fun i _ => ?_
      rw [mul_pow, Real.sq_sqrt (hd i), sq_abs]
      have := mul_le_mul_of_nonneg_right (within_diag h i) (sq_nonneg (y i))
      linarith
    have k3 := mul_le_mul_of_nonneg_left k1 hκ.le
    have k4 := mul_le_mul_of_nonneg_left k2 (Nat.cast_nonneg (α := ℝ) n)
    linarith
  have h2 := within_min hE h y
  have h3 : v ^ 2 * (y ⬝ᵥ y) ≤ L ^ (n - 1) * (E.kappa * (y ⬝ᵥ E.Q *ᵥ y)) := (mul_le_mul_of_nonneg_right hv hyy).trans h2
  have hq : 0 ≤ E.kappa * (y ⬝ᵥ E.Q *ᵥ y) := mul_nonneg hκ.le ((psd_iff.1 hE.pd.posSemidef).2 y)
  have h4 := mul_le_mul_of_nonneg_left h1 (sq_nonneg v)
  have h5 := mul_le_mul_of_nonneg_left h3 (show 0 ≤ n * L by positivity)
  have h6 := mul_le_mul_of_nonneg_right hC hq
  have e : n * L * (L ^ (n - 1) * (E.kappa * (y ⬝ᵥ E.Q *ᵥ y))) = n * L ^ n * (E.kappa * (y ⬝ᵥ E.Q *ᵥ y)) := by
    have : L ^ n = L ^ (n - 1) * L := by rw [← pow_succ]; congr 1; omega
    rw [this]; ring
  have h7 : (v ^ 2 * E.kappa) * (∑ i, √(E.Q i i) * |y i|) ^ 2 ≤ (v ^ 2 * E.kappa) * (C ^ 2 * (y ⬝ᵥ E.Q *ᵥ y)) := by linarith
  exact le_of_mul_le_mul_left h7 (by positivity)

theorem within_resolved {A : ℝ} (hE : E.Proper) (h : E.Within L) (hL : 0 < L) (hu0 : 0 ≤ u) (hη : 0 ≤ η) (hv0 : 0 < v) (hv : v ^ 2 ≤ E.vsq)
    (hC : n * L ^ n ≤ C ^ 2 * v ^ 2) (hx : ∀ i, |E.xc i| ≤ A) (hA : u * A * √(L ^ (n - 1)) ≤ η * v) : Resolved C η u E := by
  refine ⟨within_cond hE h hL.le hv0 hv hC, fun i => ?_⟩
  have h1 := within_min hE h (Pi.single i 1)
  rw [show (Pi.single i 1 : Fin n → ℝ) ⬝ᵥ Pi.single i 1 = 1 by simp, show (Pi.single i 1 : Fin n → ℝ) ⬝ᵥ E.Q *ᵥ Pi.single i 1 = E.Q i i by simp, mul_one] at h1
  have h2 : v ≤ √(L ^ (n - 1)) * √(E.kappa * E.Q i i) := by
    rw [← Real.sqrt_mul (by positivity)]
    exact Real.le_sqrt_of_sq_le (hv.trans h1)
  have hs : 0 < √(L ^ (n - 1)) := Real.sqrt_pos.2 (by positivity)
  have h3 := mul_le_mul_of_nonneg_left h2 hη
  have h4 := mul_le_mul_of_nonneg_right (mul_le_mul_of_nonneg_left (hx i) hu0) hs.le
  refine le_of_mul_le_mul_right (a := √(L ^ (n - 1))) ?_ hs
  linarith

/-- A point of the ellipsoid is near its centre. -/
theorem within_centre (h : E.Within L) {z : Fin n → ℝ} (hz : z ∈ E.pts) (i : Fin n) : |E.xc i| ≤ |z i| + √L := by
  have h1 := hz (Pi.single i 1)
  rw [single_one_dotProduct, show (Pi.single i 1 : Fin n → ℝ) ⬝ᵥ E.Q *ᵥ Pi.single i 1 = E.Q i i by simp] at h1
  have h2 := Real.abs_le_sqrt (h1.trans (within_diag h i))
  rw [Pi.sub_apply] at h2
  have h3 := abs_sub_abs_le_abs_sub (E.xc i) (z i)
  rw [abs_sub_comm] at h3
  linarith

/-- How much wider an update can make the ellipsoid. -/
theorem within_step (hE : E.Proper) (h : E.Within L) (hfl : RelErr u fl) (hu0 : 0 ≤ u) (hu : u ≤ ε) (hdot : VecDotErr ε dot) {l q : ℝ}
    (hb : StepBounds n C ε η b l q) (hC : Resolved C η u E) (hg : g ≠ 0) (hβ0 : 0 ≤ β) (hβ : β ≤ (1 - b) * √(E.kappa * (g ⬝ᵥ E.Q *ᵥ g)))
    (hD : (1 + 400 * (C ^ 4 * ε / b ^ 2)) * c1 n ≤ D) {st : CUTStatus} {tsq : ℝ} (hup : updateF fl dot (g, .scalar β) E = .ok (E', st, tsq)) :
    E'.Within (L * D) := by
  have hω : 0 < g ⬝ᵥ E.Q *ᵥ g := (pd_iff.1 hE.pd).2 g hg
  have ht : 0 < E.kappa * (g ⬝ᵥ E.Q *ᵥ g) := mul_pos hE.kappa hω
  have hτ0 : 0 < √(E.kappa * (g ⬝ᵥ E.Q *ᵥ g)) := Real.sqrt_pos.2 ht
  obtain ⟨E1, tsq1, h1, -, -, -, -, h6⟩ := update_sandwich hE hfl hu0 hu hdot hb.C1 hC.1 hg hb.b0 hβ0 hβ hb.eps
  rw [hup] at h1
  simp only [Except.ok.injEq, Prod.mk.injEq] at h1
  obtain ⟨rfl, -, -⟩ := h1
  intro y
  set τ := √(E.kappa * (g ⬝ᵥ E.Q *ᵥ g)) with hτ
  have hq : 0 ≤ E.kappa * (y ⬝ᵥ E.Q *ᵥ y) := mul_nonneg hE.kappa.le ((psd_iff.1 hE.pd.posSemidef).2 y)
  have hs0 : 0 ≤ C ^ 4 * ε / b ^ 2 := by have := hu0.trans hu; positivity
  obtain ⟨-, -, hσ, -, hδ, -⟩ := deep_bounds hE.dim hτ0 hβ0 hb.b0 hβ
  have hn' : (2 : ℝ) ≤ n := by exact_mod_cast hE.dim
  have hc0 : 0 < c1 n := by unfold c1; exact div_pos (by positivity) (by nlinarith)
  have hδ1 : deltaD n τ β ≤ c1 n := by
    unfold deltaD
    have : 0 ≤ β * (β / τ ^ 2) := by positivity
    nlinarith
  have hsh : y ⬝ᵥ (shape E.Q g (sigmaD n τ β)) *ᵥ y ≤ y ⬝ᵥ E.Q *ᵥ y := by
    rw [shape_quad]
    have : 0 ≤ sigmaD n τ β / (g ⬝ᵥ E.Q *ᵥ g) * (y ⬝ᵥ E.Q *ᵥ g) ^ 2 := by positivity
    linarith
  have h7 : E.kappa * deltaD n τ β * (y ⬝ᵥ (shape E.Q g (sigmaD n τ β)) *ᵥ y) ≤ c1 n * (E.kappa * (y ⬝ᵥ E.Q *ᵥ y)) := by
    have k1 := mul_le_mul_of_nonneg_left hsh (show 0 ≤ E.kappa * deltaD n τ β from mul_nonneg hE.kappa.le hδ.le)
    have k2 := mul_le_mul_of_nonneg_right hδ1 hq
    linarith
  have h8 := mul_le_mul_of_nonneg_left h7 (show 0 ≤ 1 + 400 * (C ^ 4 * ε / b ^ 2) by linarith)
  have h9 := mul_le_mul_of_nonneg_right hD hq
  have h10 := mul_le_mul_of_nonneg_left (h y) ((mul_nonneg (by linarith) hc0.le).trans hD)
  have := h6 y
  linarith

end Verif
