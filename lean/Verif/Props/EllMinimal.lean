import Verif.Proofs.John
import Verif.Props.EllVolume

/-! # C127: the updated ellipsoid is the smallest one -/
namespace Verif
open Matrix MeasureTheory Ell
variable {n : ℕ} {E E' F : Ell n} {g : Fin n → ℝ} {st : CUTStatus} {tsq : ℝ}

/-- The cut that `update` is asked to use: with `use_parallel_cut` off only the first bound counts. -/
def Ell.usedCut (up : Bool) : Beta → Beta
  | .seq (b0 :: b1 :: l) => if up then .seq (b0 :: b1 :: l) else .scalar b0
  | b => b

/-- The two hyperplanes of a parallel cut are not beyond the far side of the ellipsoid,
`-τ ≤ b0` and `-τ ≤ b1` (`τ² = tsq`); no condition for a single cut. -/
def Ell.meets (up : Bool) (tsq : ℝ) : Beta → Prop
  | .seq (b0 :: b1 :: _) => up = true → -√tsq ≤ b0 ∧ -√tsq ≤ b1
  | _ => True

/-- Coordinates in which a proper ellipsoid is the unit ball and `g` points along axis `i0`. -/
theorem Ell.exists_coords (hE : E.Proper) (i0 : Fin n) {τ : ℝ} (hτ : 0 < τ)
    (hg : τ ^ 2 = E.kappa * (g ⬝ᵥ E.Q *ᵥ g)) :
    ∃ L : Matrix (Fin n) (Fin n) ℝ, L * Lᵀ = E.kappa • E.Q ∧ Lᵀ *ᵥ g = Pi.single i0 τ := by
  obtain ⟨B, hB, hBB⟩ := exists_sym_sqrt hE.pd.posSemidef
  have hk := Real.mul_self_sqrt hE.kappa.le
  set u : Fin n → ℝ := (√E.kappa / τ) • B *ᵥ g with hu
  have huu : u ⬝ᵥ u = 1 := by
    have : (B *ᵥ g) ⬝ᵥ (B *ᵥ g) = g ⬝ᵥ E.Q *ᵥ g := by
      rw [← hBB, ← mulVec_mulVec, dotProduct_mulVec g, ← mulVec_transpose, hB]
    rw [hu, smul_dotProduct, dotProduct_smul, this, smul_eq_mul, smul_eq_mul]
    have : √E.kappa / τ * (√E.kappa / τ * (g ⬝ᵥ E.Q *ᵥ g)) =
        √E.kappa * √E.kappa * (g ⬝ᵥ E.Q *ᵥ g) / τ ^ 2 := by ring
    rw [this, hk, ← hg, div_self (by positivity)]
  obtain ⟨R, h1, h2, h3⟩ := exists_orthogonal_col i0 huu
  refine ⟨√E.kappa • (B * R), ?_, ?_⟩
  · rw [transpose_smul, transpose_mul, hB, smul_mul_smul, hk, Matrix.mul_assoc, ← Matrix.mul_assoc R, h2,
      Matrix.one_mul, hBB]
  · have : (√E.kappa • (B * R))ᵀ *ᵥ g = τ • Rᵀ *ᵥ u := by
      rw [hu, transpose_smul, transpose_mul, hB, mulVec_smul, smul_smul, mul_div_cancel₀ _ hτ.ne', smul_mulVec,
        mulVec_mulVec]
    rw [this, h3, ← Pi.single_smul, smul_eq_mul, mul_one]

/-- The new centre lies at `ρ = σ(b0+b1)/2`. -/
theorem CalcCase.rho {up b ρ σ δ} {tsq : ℝ} (ht : 0 < tsq) (hσ1 : σ < 1) (hδ0 : 0 < δ)
    (h : CalcCase n up tsq b (.accept ρ σ δ)) :
    ρ = √tsq * (σ * ((bounds up tsq b).1 + (bounds up tsq b).2) / 2) := by
  obtain ⟨τ, hτ, rfl⟩ : ∃ τ : ℝ, 0 < τ ∧ tsq = τ ^ 2 :=
    ⟨√tsq, Real.sqrt_pos.2 ht, (Real.sq_sqrt ht.le).symm⟩
  have hs : √(τ ^ 2) = τ := Real.sqrt_sq hτ.le
  have dc : ∀ {b}, DcCase n (τ ^ 2) b (.accept ρ σ δ) → ρ = τ * (σ * (b / τ + 1) / 2) := by
    intro b h
    generalize hr : Calc.accept ρ σ δ = r at h
    cases h with
    | nosoln => simp at hr
    | noeffect => simp at hr
    | central hb0 =>
      subst hb0
      simp only [calcCc, Calc.accept.injEq] at hr
      obtain ⟨rfl, rfl, rfl⟩ := hr
      rw [hs]; unfold c2; field_simp; ring
    | deep h1 h2 h3 h4 h5 =>
      simp only [Calc.accept.injEq] at hr
      obtain ⟨rfl, rfl, rfl⟩ := hr
      rw [hs] at *
      have : b + τ ≠ 0 := by rwa [add_comm]
      field_simp
      try ring
  cases h with
  | scalar h => simp only [bounds, hs]; exact dc h
  | single h => simp only [bounds, hs]; exact dc h
  | @par b0 b1 l _ h0 h =>
    have e1 : 1 - b1 * (b1 / τ ^ 2) < 0 ↔ τ ^ 2 < b1 ^ 2 := by
      rw [sub_neg, ← mul_div_assoc, one_lt_div (by positivity), sq b1]
    generalize hr : Calc.accept ρ σ δ = r at h
    cases h with
    | fallback hf hd =>
      subst hr
      have : bounds up (τ ^ 2) (.seq (b0 :: b1 :: l)) = (b0 / τ, 1) := by
        simp only [bounds, hs]; rw [if_pos (by rwa [e1] at hf)]
      rw [this, hs]
      exact dc hd
    | nosoln => simp at hr
    | noeffect => simp at hr
    | parallel h1 h2 h3 h4 h5 =>
      simp only [Calc.accept.injEq] at hr
      obtain ⟨rfl, rfl, rfl⟩ := hr
      have hle : ¬ τ ^ 2 < b1 ^ 2 := by rw [← e1]; exact not_lt.2 h2
      have : bounds up (τ ^ 2) (.seq (b0 :: b1 :: l)) = (b0 / τ, b1 / τ) := by
        simp only [bounds, hs]; rw [if_neg (by simp [h1, not_lt.1 hle])]
      rw [this, hs]
      field_simp

private theorem mem_pts_of_ball {L : Matrix (Fin n) (Fin n) ℝ} (hL : L * Lᵀ = E.kappa • E.Q)
    {z : Fin n → ℝ} (hz : ∑ i, z i ^ 2 ≤ 1) : E.xc + L *ᵥ z ∈ E.pts := by
  intro w
  rw [add_sub_cancel_left]
  have h1 : w ⬝ᵥ L *ᵥ z = (Lᵀ *ᵥ w) ⬝ᵥ z := by rw [dotProduct_mulVec, ← mulVec_transpose]
  have h2 : E.kappa * (w ⬝ᵥ E.Q *ᵥ w) = (Lᵀ *ᵥ w) ⬝ᵥ (Lᵀ *ᵥ w) := by
    have : E.kappa * (w ⬝ᵥ E.Q *ᵥ w) = w ⬝ᵥ (E.kappa • E.Q) *ᵥ w := by
      rw [smul_mulVec, dotProduct_smul, smul_eq_mul]
    rw [this, ← hL, ← mulVec_mulVec, dotProduct_mulVec w, ← mulVec_transpose]
  have h3 := psd_cauchy (Matrix.PosSemidef.one (n := Fin n) (R := ℝ)) (Lᵀ *ᵥ w) z
  simp only [one_mulVec] at h3
  have hz' : z ⬝ᵥ z ≤ 1 := by simpa [dotProduct, sq] using hz
  have h4 : 0 ≤ (Lᵀ *ᵥ w) ⬝ᵥ (Lᵀ *ᵥ w) := by simpa using dotProduct_star_self_nonneg (Lᵀ *ᵥ w)
  rw [h1, h2]
  nlinarith

/-- The set of an ellipsoid depends on the centre and on `κQ` only. -/
theorem Ell.pts_congr (hc : E.xc = F.xc) (hQ : E.kappa • E.Q = F.kappa • F.Q) : E.pts = F.pts := by
  have h : ∀ y, E.kappa * (y ⬝ᵥ E.Q *ᵥ y) = F.kappa * (y ⬝ᵥ F.Q *ᵥ y) := fun y => by
    have := congrArg (fun M : Matrix (Fin n) (Fin n) ℝ => y ⬝ᵥ M *ᵥ y) hQ
    simpa [smul_mulVec, dotProduct_smul] using this
  unfold Ell.pts
  simp only [hc, h]

/-- The squared volume of the update is at most that of every proper ellipsoid around the slice. -/
theorem Ell.minimal_core (hE : E.Proper) (hF : F.Proper) (i0 : Fin n) {τ x y ρ σ δ : ℝ} (hτ : 0 < τ)
    (hg : τ ^ 2 = E.kappa * (g ⬝ᵥ E.Q *ᵥ g)) (hx : -1 ≤ x) (hxy : x < y) (hy : y ≤ 1) (hσ1 : σ < 1)
    (hδ : 0 < δ) (opt : Optimal n x y σ δ) (hρ : ρ = τ * (σ * (x + y) / 2))
    (hsub : ∀ p ∈ E.pts, -(τ * y) ≤ g ⬝ᵥ (p - E.xc) → g ⬝ᵥ (p - E.xc) ≤ -(τ * x) → p ∈ F.pts) :
    (after E g ρ σ δ).vsq ≤ F.vsq ∧
    (F.vsq ≤ (after E g ρ σ δ).vsq → F.pts = (after E g ρ σ δ).pts) := by
  have hn := hE.dim
  have hω : g ⬝ᵥ E.Q *ᵥ g ≠ 0 := by
    intro h; rw [h, mul_zero] at hg; have := pow_pos hτ 2; linarith
  obtain ⟨L, hL, hLg⟩ := Ell.exists_coords hE i0 hτ hg
  have hLdet : L.det ^ 2 = E.vsq := by
    have := congrArg Matrix.det hL
    rw [det_mul, det_transpose, det_smul, Fintype.card_fin] at this
    rw [sq, this, vsq]
  have hLu : IsUnit L.det := by
    rw [isUnit_iff_ne_zero]; intro h
    have := vsq_pos hE
    rw [← hLdet, h] at this; norm_num at this
  have hL1 : L * L⁻¹ = 1 := mul_nonsing_inv L hLu
  have hL2 : L⁻¹ * L = 1 := nonsing_inv_mul L hLu
  have hFu : IsUnit F.Q.det := (Matrix.isUnit_iff_isUnit_det _).1 hF.pd.isUnit
  set M : Matrix (Fin n) (Fin n) ℝ := F.kappa⁻¹ • F.Q⁻¹ with hM
  have hMp : M.PosDef := hF.pd.inv.smul (inv_pos.2 hF.kappa)
  have hMdet : M.det = F.vsq⁻¹ := by
    rw [hM, det_smul, Fintype.card_fin, det_nonsing_inv, Ring.inverse_eq_inv', vsq, mul_inv, inv_pow]
  set N : Matrix (Fin n) (Fin n) ℝ := Lᵀ * M * L with hN
  have hNp : N.PosDef := by
    have := hMp.conjTranspose_mul_mul_same (B := L) ?_
    · simpa [conjTranspose_eq_transpose_of_trivial] using this
    · intro a b h
      have := congrArg (L⁻¹ *ᵥ ·) h
      simpa [mulVec_mulVec, hL2] using this
  have hNs := (pd_iff.1 hNp).1
  set d := L⁻¹ *ᵥ (F.xc - E.xc) with hd
  have hLd : L *ᵥ d = F.xc - E.xc := by rw [hd, mulVec_mulVec, hL1, one_mulVec]
  have hquad : ∀ z, z ⬝ᵥ N *ᵥ z = (L *ᵥ z) ⬝ᵥ M *ᵥ (L *ᵥ z) := fun z => by
    rw [hN, ← mulVec_mulVec, ← mulVec_mulVec, dotProduct_mulVec z, ← mulVec_transpose, transpose_transpose]
  have tr := john_trace hn i0 hNs (d := d) hx hxy hy hσ1 hδ opt.d opt.stat fun z hz h1 h2 => by
    have hgz : g ⬝ᵥ (E.xc + L *ᵥ z - E.xc) = τ * z i0 := by
      rw [add_sub_cancel_left, dotProduct_mulVec, ← mulVec_transpose, hLg, single_dotProduct]
    have hp := hsub _ (mem_pts_of_ball hL hz) (by rw [hgz]; nlinarith) (by rw [hgz]; nlinarith)
    rw [Ell.pts_eq_region hF.pd hF.kappa.le] at hp
    have hp : (E.xc + L *ᵥ z - F.xc) ⬝ᵥ F.Q⁻¹ *ᵥ (E.xc + L *ᵥ z - F.xc) ≤ F.kappa := hp
    rw [hquad, mulVec_sub, hLd, hM, smul_mulVec, dotProduct_smul, smul_eq_mul,
      inv_mul_le_iff₀ hF.kappa, mul_one]
    have e : L *ᵥ z - (F.xc - E.xc) = E.xc + L *ᵥ z - F.xc := by abel
    rwa [e]
  set m := σ * (x + y) / 2 with hm
  set q := (Pi.single i0 (-m) - d) ⬝ᵥ N *ᵥ (Pi.single i0 (-m) - d) with hq
  have hq0 : 0 ≤ q := by simpa using (psd_iff.1 hNp.posSemidef).2 (Pi.single i0 (-m) - d)
  have hn0 : (0 : ℝ) < n := by have : 0 < n := by omega
                               exact_mod_cast this
  have h1s : 0 < 1 - σ := by linarith
  -- the diagonal scaling
  set w : Fin n → ℝ := fun i => if i = i0 then √(δ * (1 - σ)) else √δ with hw
  have hw2 : ∀ i, w i ^ 2 = δ * (1 - if i = i0 then σ else 0) := fun i => by
    simp only [hw]; split_ifs
    · rw [Real.sq_sqrt (by positivity)]
    · rw [Real.sq_sqrt hδ.le, sub_zero, mul_one]
  have hw0 : ∀ i, 0 < w i := fun i => by
    simp only [hw]; split_ifs <;> positivity
  set B := diagonal w * N * diagonal w with hB
  have hBe : ∀ i j, B i j = w i * N i j * w j := fun i j => by
    rw [hB, mul_diagonal, diagonal_mul]
  have hBp : B.PosDef := by
    have := hNp.conjTranspose_mul_mul_same (B := diagonal w) ?_
    · simpa [conjTranspose_eq_transpose_of_trivial] using this
    · intro a b h
      funext i
      have := congrFun h i
      simp only [mulVec_diagonal] at this
      exact mul_left_cancel₀ (hw0 i).ne' this
  have hBtr : B.trace = δ * (N.trace - σ * N i0 i0) := by
    have : ∀ i, B i i = δ * N i i - (if i = i0 then δ * σ * N i0 i0 else 0) := fun i => by
      rw [hBe, show w i * N i i * w i = w i ^ 2 * N i i by ring, hw2]
      split_ifs with h
      · subst h; ring
      · ring
    rw [Matrix.trace, Matrix.trace]
    simp only [Matrix.diag_apply, this, Finset.sum_sub_distrib, Finset.sum_ite_eq', Finset.mem_univ, if_true,
      ← Finset.mul_sum]
    ring
  have hprod : (∏ i, w i) ^ 2 = δ ^ n * (1 - σ) := by
    rw [← Finset.prod_pow]
    simp only [hw2, Finset.prod_mul_distrib, Finset.prod_const, Finset.card_univ, Fintype.card_fin]
    congr 1
    rw [Finset.prod_eq_single i0]
    · simp
    · intro b _ hb; simp [hb]
    · simp
  have hBdet : B.det = (after E g ρ σ δ).vsq / F.vsq := by
    rw [hB, det_mul, det_mul, det_diagonal, hN, det_mul, det_mul, det_transpose, hMdet, vsq_after hω, ← hLdet,
      ← hprod]
    ring
  have hFv := vsq_pos hF
  have hBt : B.trace ≤ n := by rw [hBtr]; nlinarith [mul_nonneg hn0.le hq0]
  obtain ⟨k1, k2⟩ := det_le_one_of_trace hBp hBt
  rw [hBdet] at k1 k2
  refine ⟨(div_le_one hFv).1 k1, fun hge => ?_⟩
  have hB1 := k2 ((one_le_div hFv).2 hge)
  have hq1 : q = 0 := by
    have : B.trace = n := by rw [hB1]; simp
    rw [hBtr] at this
    rw [this] at tr
    nlinarith
  -- the centre
  have hd' : d = Pi.single i0 (-m) := by
    by_contra hne
    have := (pd_iff.1 hNp).2 _ (sub_ne_zero.2 (Ne.symm hne))
    rw [← hq, hq1] at this
    exact lt_irrefl _ this
  have hcol : τ • L *ᵥ Pi.single i0 1 = E.kappa • E.Q *ᵥ g := by
    rw [← mulVec_smul, ← Pi.single_smul, smul_eq_mul, mul_one, ← hLg, mulVec_mulVec, hL, smul_mulVec]
  have hcol' : L *ᵥ Pi.single i0 1 = (E.kappa / τ) • E.Q *ᵥ g := by
    rw [div_eq_inv_mul, ← smul_smul, ← hcol, smul_smul, inv_mul_cancel₀ hτ.ne', one_smul]
  have hkω : E.kappa / τ ^ 2 = 1 / (g ⬝ᵥ E.Q *ᵥ g) := by
    rw [hg]; have := hE.kappa.ne'; field_simp
  have hcen : F.xc = E.xc - (ρ / (g ⬝ᵥ E.Q *ᵥ g)) • E.Q *ᵥ g := by
    have h1 : F.xc = E.xc + L *ᵥ d := by rw [hLd]; abel
    rw [h1, hd', show (Pi.single i0 (-m) : Fin n → ℝ) = (-m) • Pi.single i0 1 by
      rw [← Pi.single_smul, smul_eq_mul, mul_one], mulVec_smul, hcol', smul_smul, sub_eq_add_neg, ← neg_smul]
    congr 2
    rw [hρ]
    have : ρ / (g ⬝ᵥ E.Q *ᵥ g) = ρ * (E.kappa / τ ^ 2) := by rw [hkω]; ring
    rw [← hρ, this, hρ]; field_simp
  -- the matrix
  have hNd : N = diagonal fun i => (w i ^ 2)⁻¹ := by
    ext i j
    have h1 := hBe i j
    rw [hB1, Matrix.one_apply] at h1
    rw [diagonal_apply]
    have a := (hw0 i).ne'
    have b := (hw0 j).ne'
    split_ifs at h1 ⊢ with hij
    · subst hij
      field_simp; linarith
    · have : w i * N i j = 0 := by
        rcases mul_eq_zero.1 h1.symm with h | h
        · exact h
        · exact absurd h b
      exact (mul_eq_zero.1 this).resolve_left a
  have hP : F.kappa • F.Q = L * (diagonal fun i => w i ^ 2) * Lᵀ := by
    have hMF : M * (F.kappa • F.Q) = 1 := by
      rw [hM, smul_mul_smul, inv_mul_cancel₀ hF.kappa.ne', one_smul, nonsing_inv_mul _ hFu]
    have hMR : M * (L * (diagonal fun i => w i ^ 2) * Lᵀ) = 1 := by
      have hMN : M = (L⁻¹)ᵀ * N * L⁻¹ := by
        have e : (L⁻¹)ᵀ * Lᵀ = 1 := by rw [← transpose_mul, hL1, transpose_one]
        rw [hN]
        calc M = ((L⁻¹)ᵀ * Lᵀ) * M * (L * L⁻¹) := by rw [e, hL1, Matrix.one_mul, Matrix.mul_one]
          _ = _ := by simp only [Matrix.mul_assoc]
      have e2 : N * (diagonal fun i => w i ^ 2) = 1 := by
        rw [hNd, diagonal_mul_diagonal, ← diagonal_one]
        congr 1; funext i
        exact inv_mul_cancel₀ (pow_ne_zero 2 (hw0 i).ne')
      calc M * (L * (diagonal fun i => w i ^ 2) * Lᵀ)
          = (L⁻¹)ᵀ * (N * ((L⁻¹ * L) * (diagonal fun i => w i ^ 2))) * Lᵀ := by
            rw [hMN]; simp only [Matrix.mul_assoc]
        _ = (L⁻¹)ᵀ * Lᵀ := by rw [hL2, Matrix.one_mul, e2, Matrix.mul_one]
        _ = 1 := by rw [← transpose_mul, hL1, transpose_one]
    have hu : IsUnit M := hMp.isUnit
    exact hu.mul_left_cancel (hMF.trans hMR.symm)
  have hdg : (diagonal fun i => w i ^ 2) = δ • ((1 : Matrix (Fin n) (Fin n) ℝ) -
      σ • vecMulVec (Pi.single i0 1) (Pi.single i0 1)) := by
    ext i j
    simp only [diagonal_apply, hw2, Matrix.smul_apply, Matrix.sub_apply, Matrix.one_apply, vecMulVec_apply,
      smul_eq_mul]
    by_cases hij : i = j
    · subst hij
      by_cases h : i = i0
      · subst h; simp
      · simp [h]
    · by_cases h : i = i0
      · subst h; simp [hij, Ne.symm hij]
      · simp [h, hij]
  have hQ' : F.kappa • F.Q = (δ * E.kappa) • shape E.Q g σ := by
    rw [hP, hdg, Matrix.mul_smul, Matrix.smul_mul, Matrix.mul_sub, Matrix.sub_mul, Matrix.mul_one, hL,
      Matrix.mul_smul, Matrix.smul_mul, Matrix.mul_vecMulVec, Matrix.vecMulVec_mul, vecMul_transpose, hcol',
      mul_smul]
    congr 1
    unfold shape
    rw [smul_sub]
    congr 1
    rw [Matrix.smul_vecMulVec, Matrix.vecMulVec_smul, smul_smul, smul_smul, smul_smul]
    congr 1
    have : σ / (g ⬝ᵥ E.Q *ᵥ g) = σ * (E.kappa / τ ^ 2) := by rw [hkω]; ring
    rw [this]; ring
  refine Ell.pts_congr ?_ ?_
  · rw [hcen]; unfold after; by_cases h : E.noDefer <;> simp [h]
  · rw [hQ']; unfold after
    by_cases h : E.noDefer
    · simp [h, smul_smul, mul_comm]
    · simp [h, mul_comm]

private theorem DcCase.low (hn : 2 ≤ n) {b ρ σ δ : ℝ} (h : DcCase n tsq b (.accept ρ σ δ)) :
    -√tsq ≤ b := by
  have hn' : (2 : ℝ) ≤ n := by exact_mod_cast hn
  have h0 := Real.sqrt_nonneg tsq
  generalize hr : Calc.accept ρ σ δ = r at h
  cases h with
  | nosoln => simp at hr
  | noeffect => simp at hr
  | central hb0 => linarith
  | deep h1 h2 h3 h4 h5 =>
    by_contra hc
    nlinarith

/-- The normalised bounds describe the slice of the ellipsoid that the cut leaves. -/
private theorem CalcCase.slice (hn : 2 ≤ n) {up b ρ σ δ} (ht : 0 < tsq)
    (h : CalcCase n up tsq b (.accept ρ σ δ)) (hm : meets up tsq b) :
    -1 ≤ (bounds up tsq b).1 ∧ ∀ u, -(√tsq * (bounds up tsq b).2) ≤ u →
      u ≤ -(√tsq * (bounds up tsq b).1) → betaSat (usedCut up b) u := by
  have hτ := Real.sqrt_pos.2 ht
  have e : ∀ b, √tsq * (b / √tsq) = b := fun b => by field_simp
  have lo : ∀ {b}, -√tsq ≤ b → -1 ≤ b / √tsq := fun h => by rw [le_div_iff₀ hτ]; linarith
  cases h with
  | scalar h =>
    refine ⟨lo (DcCase.low hn h), fun u _ h2 => ?_⟩
    simp only [bounds, e] at h2
    change u + _ ≤ 0
    linarith
  | single h =>
    refine ⟨lo (DcCase.low hn h), fun u _ h2 => ?_⟩
    simp only [bounds, e] at h2
    change u + _ ≤ 0
    linarith
  | @par b0 b1 l _ h0 h =>
    have e1 : 1 - b1 * (b1 / tsq) < 0 ↔ tsq < b1 ^ 2 := by
      rw [sub_neg, ← mul_div_assoc, one_lt_div ht, sq b1]
    generalize hr : Calc.accept ρ σ δ = r at h
    cases h with
    | fallback hf hd =>
      subst hr
      rw [e1] at hf
      have hb : bounds up tsq (.seq (b0 :: b1 :: l)) = (b0 / √tsq, 1) := by
        simp only [bounds]; rw [if_pos hf]
      rw [hb]
      refine ⟨lo (DcCase.low hn hd), fun u h1 h2 => ?_⟩
      simp only [e, mul_one] at h1 h2
      cases up with
      | false => change u + b0 ≤ 0; linarith
      | true =>
        have hf : tsq < b1 ^ 2 := by simpa using hf
        have hb1 := (hm rfl).2
        change u + b0 ≤ 0 ∧ 0 ≤ u + b1
        refine ⟨by linarith, ?_⟩
        have : √tsq ≤ b1 := by
          by_contra hc
          have h3 := Real.sq_sqrt ht.le
          nlinarith
        linarith
    | nosoln => simp at hr
    | noeffect => simp at hr
    | parallel h1 h2 h3 h4 h5 =>
      subst h1
      have hle : ¬ tsq < b1 ^ 2 := by rw [← e1]; exact not_lt.2 h2
      have hb : bounds true tsq (.seq (b0 :: b1 :: l)) = (b0 / √tsq, b1 / √tsq) := by
        simp only [bounds]; rw [if_neg (by simp [not_lt.1 hle])]
      rw [hb]
      refine ⟨lo (hm rfl).1, fun u h1 h2 => ?_⟩
      simp only [e] at h1 h2
      change u + b0 ≤ 0 ∧ 0 ≤ u + b1
      exact ⟨by linarith, by linarith⟩

/-- The updated ellipsoid contains the slice that the used cut leaves. -/
theorem C127_ell_contains (hE : E.WF) {b : Beta} (h : update (g, b) E = .ok (E', .success, tsq)) :
    E.pts ∩ cutSet E.xc (g, usedCut E.usePar b) ⊆ E'.pts := by
  rintro p ⟨hp, hc⟩
  rw [mem_cutSet] at hc
  by_cases hu : usedCut E.usePar b = b
  · rw [hu] at hc; exact update_keep hE h hp hc
  · rcases b with b | (_ | ⟨b0, _ | ⟨b1, l⟩⟩)
    · exact absurd rfl hu
    · exact absurd rfl hu
    · exact absurd rfl hu
    have hup : E.usePar = false := by
      by_contra hne
      exact hu (by simp [usedCut, hne])
    simp only [usedCut, hup, Bool.false_eq_true, if_false] at hc
    obtain ⟨rfl, ⟨hr, -⟩ | ⟨-, h0, ρ, σ, δ, hcc, rfl⟩⟩ := update_ok hE h
    · rcases hr.reject with h | h <;> simp at h
    rw [hup] at hcc
    cases hcc with
    | par _ hl =>
      generalize hr : Calc.accept ρ σ δ = r at hl
      cases hl with
      | fallback _ hd =>
        subst hr
        obtain ⟨k1, k2⟩ := hd.keeps hE.dim (tsq_nonneg hE g)
        rw [mem_after]
        exact mem_step hE.psd hE.kappa h0 hp k1 (k2 _ (sq_le_of_mem hp g) hc)
      | nosoln h => simp at h
      | noeffect h => simp at h
      | parallel h => simp at h

/-- **C127.** The updated ellipsoid is the smallest one: among all full-dimensional ellipsoids that
contain the part of the old ellipsoid satisfying the cut, it has the least volume, and it is the only
one with that volume. -/
theorem C127_ell_minimal (hE : E.Proper) {b : Beta} (h : update (g, b) E = .ok (E', .success, tsq))
    (hm : meets E.usePar tsq b) (hF : F.Proper)
    (hsub : E.pts ∩ cutSet E.xc (g, usedCut E.usePar b) ⊆ F.pts) :
    volume E'.pts ≤ volume F.pts ∧ (F.pts ≠ E'.pts → volume E'.pts < volume F.pts) := by
  have hwf' := update_wf hE.wf h
  have key : E'.vsq ≤ F.vsq ∧ (F.vsq ≤ E'.vsq → F.pts = E'.pts) := by
    by_cases hP' : E'.Proper
    swap
    · rw [Ell.vsq_eq_zero hwf' hP']
      have := vsq_pos hF
      exact ⟨this.le, fun h => absurd h (not_le.2 this)⟩
    obtain ⟨rfl, ⟨hc, -⟩ | ⟨-, h0, ρ, σ, δ, hc, rfl⟩⟩ := update_ok hE.wf h
    · rcases hc.reject with h | h <;> simp at h
    have hω : 0 < g ⬝ᵥ E.Q *ᵥ g := lt_of_le_of_ne ((psd_iff.1 hE.pd.posSemidef).2 g) (Ne.symm h0)
    have ht := mul_pos hE.kappa hω
    have hvp : 0 < (after E g ρ σ δ).vsq := vsq_pos hP'
    rw [vsq_after h0] at hvp
    have hr := (hc.keeps hE.dim ht.le).1
    have hd1 : 0 < δ ^ n * (1 - σ) := (pos_iff_pos_of_mul_pos hvp).2 (vsq_pos hE)
    have hσ1 : σ < 1 := by
      rcases eq_or_lt_of_le hr.s1 with h | h
      · rw [h] at hd1; simp at hd1
      · exact h
    have hδ0 : 0 < δ := by
      rcases eq_or_lt_of_le hr.d0 with h | h
      · rw [← h, zero_pow (by have := hE.dim; omega)] at hd1; simp at hd1
      · exact h
    obtain ⟨o1, o2, o3, o4, opt, -⟩ := CalcCase.optimal hE.dim ht hσ1 hδ0 hc
    obtain ⟨s1, s2⟩ := CalcCase.slice hE.dim ht hc hm
    exact Ell.minimal_core hE hF ⟨0, by have := hE.dim; omega⟩ (Real.sqrt_pos.2 ht) (Real.sq_sqrt ht.le) s1 o2
      o4 hσ1 hδ0 opt (CalcCase.rho ht hσ1 hδ0 hc) fun p hp h1 h2 =>
      hsub ⟨hp, mem_cutSet.2 (s2 _ h1 h2)⟩
  rw [volume_pts' hF.wf, volume_pts' hwf']
  refine ⟨by gcongr; exact key.1, fun hne => ?_⟩
  refine ENNReal.mul_lt_mul_left (euclBall_volume_pos).ne' euclBall_volume_lt_top.ne ?_
  rw [ENNReal.ofReal_lt_ofReal_iff (Real.sqrt_pos.2 (vsq_pos hF))]
  refine Real.sqrt_lt_sqrt (vsq_nonneg hwf') ?_
  by_contra hc
  exact hne (key.2 (not_lt.1 hc))

/-- Every member of the pencil keeps the slice. -/
private theorem pencil_keeps {x y s d v τ : ℝ} (hs0 : 0 ≤ s) (hs1 : s < 1)
    (hd : (1 - s) * d = pencil x y s) (hv : (v + x) * (v + y) ≤ 0) :
    KeepsAt (τ ^ 2) (τ * (s * (x + y) / 2)) s d (τ * v) := by
  refine KeepsAt.scale ?_
  have h := pencil_eq x y s v
  have h1 : (v + s * (x + y) / 2) ^ 2 ≤ (1 - s) * (1 * d - 1 + v ^ 2) := by
    have e : (1 - s) * (1 * d - 1 + v ^ 2) = (1 - s) * d - (1 - s) * (1 - v ^ 2) := by ring
    rw [e, hd, h]
    nlinarith [mul_nonneg hs0 (neg_nonneg.2 hv)]
  refine ⟨h1, ?_⟩
  have h2 := (sq_nonneg _).trans h1
  have := nonneg_of_mul_nonneg_right h2 (show 0 < 1 - s by linarith)
  linarith

/-- **C127 (finding).** The condition on `b0` is needed: a parallel cut whose first hyperplane lies
beyond the ellipsoid (`b0 < -τ`, that half-space imposes nothing) still enters the formulas, and the
update is then *not* the smallest ellipsoid around the slice. -/
theorem C127_not_minimal_beyond (hE : E.Proper) {b0 b1 : ℝ} {l : List ℝ}
    (h : update (g, .seq (b0 :: b1 :: l)) E = .ok (E', .success, tsq)) (hE' : E'.Proper)
    (hb : b0 < -√tsq) (hne : (n : ℝ) * (b0 * b1) ≠ -tsq) :
    ∃ F : Ell n, F.Proper ∧ E.pts ∩ cutSet E.xc (g, .seq (b0 :: b1 :: l)) ⊆ F.pts ∧
      volume F.pts < volume E'.pts := by
  have hn' : (2 : ℝ) ≤ n := by exact_mod_cast hE.dim
  obtain ⟨rfl, ⟨hc, -⟩ | ⟨-, h0, ρ, σ, δ, hc, rfl⟩⟩ := update_ok hE.wf h
  · rcases hc.reject with h | h <;> simp at h
  have hω : 0 < g ⬝ᵥ E.Q *ᵥ g := lt_of_le_of_ne ((psd_iff.1 hE.pd.posSemidef).2 g) (Ne.symm h0)
  have ht := mul_pos hE.kappa hω
  have hvp : 0 < (after E g ρ σ δ).vsq := vsq_pos hE'
  rw [vsq_after h0] at hvp
  have hr := (hc.keeps hE.dim ht.le).1
  have hd1 : 0 < δ ^ n * (1 - σ) := (pos_iff_pos_of_mul_pos hvp).2 (vsq_pos hE)
  have hσ1 : σ < 1 := by
    rcases eq_or_lt_of_le hr.s1 with h | h
    · rw [h] at hd1; simp at hd1
    · exact h
  have hδ0 : 0 < δ := by
    rcases eq_or_lt_of_le hr.d0 with h | h
    · rw [← h, zero_pow (by have := hE.dim; omega)] at hd1; simp at hd1
    · exact h
  obtain ⟨o1, o2, o3, o4, opt, o5, -⟩ := CalcCase.optimal hE.dim ht hσ1 hδ0 hc
  have o5 := o5 hne
  have hbd : bounds E.usePar (E.kappa * (g ⬝ᵥ E.Q *ᵥ g)) (.seq (b0 :: b1 :: l)) =
      (b0 / √(E.kappa * (g ⬝ᵥ E.Q *ᵥ g)), b1 / √(E.kappa * (g ⬝ᵥ E.Q *ᵥ g))) := by
    cases hc with
    | par _ hl =>
      generalize hr : Calc.accept ρ σ δ = r at hl
      cases hl with
      | fallback _ hd =>
        subst hr
        exact absurd (DcCase.low hE.dim hd) (not_le.2 hb)
      | nosoln => simp at hr
      | noeffect => simp at hr
      | parallel h1 h2 =>
        simp only [bounds]
        rw [if_neg]
        rw [sub_nonneg, ← mul_div_assoc, div_le_one ht, ← sq] at h2
        simp [h1, h2]
  rw [hbd] at o1 o2 o3 o4 o5 opt
  simp only at o1 o2 o3 o4 o5 opt
  set t := E.kappa * (g ⬝ᵥ E.Q *ᵥ g) with htd
  have hτ := Real.sqrt_pos.2 ht
  have hx : b0 / √t < -1 := by rw [div_lt_iff₀ hτ]; linarith
  have e0 : √t * (b0 / √t) = b0 := by field_simp
  have e1 : √t * (b1 / √t) = b1 := by field_simp
  generalize b0 / √t = x at *
  generalize b1 / √t = y at *
  have hσ0 : 0 < σ := lt_of_le_of_ne opt.s0 fun h => o5 (opt.zero.1 h.symm)
  have h1s : 0 < 1 - σ := by linarith
  have hm : σ * (x + y) / 2 < y := by
    have : 0 < (n : ℝ) * ((σ * (x + y) / 2 - x) * (y - σ * (x + y) / 2)) := by
      rw [← opt.stat]; exact pencil_pos o2 o1 o3 opt.s0 hσ1
    have := (mul_pos_iff_of_pos_left (by linarith : (0 : ℝ) < n)).1 this
    rcases pos_and_pos_or_neg_and_neg_of_mul_pos this with h | h
    · linarith
    · linarith
  -- a nearer hyperplane that still misses the ellipsoid
  obtain ⟨ε, hε0, hε1, hε2⟩ : ∃ ε, 0 < ε ∧ ε ≤ -1 - x ∧ ε ≤ y - σ * (x + y) / 2 :=
    ⟨min (-1 - x) (y - σ * (x + y) / 2), lt_min (by linarith) (by linarith), min_le_left _ _, min_le_right _ _⟩
  have hP := pencil_pos (x := x + ε) (y := y) (by linarith) (by linarith) o3 opt.s0 hσ1
  set d := pencil (x + ε) y σ / (1 - σ) with hd
  have hdp : (1 - σ) * d = pencil (x + ε) y σ := by rw [hd]; field_simp
  have hd0 : 0 < d := by positivity
  have hlt : d < δ := by
    refine lt_of_mul_lt_mul_left ?_ h1s.le
    rw [hdp, opt.d]
    have : pencil x y σ - pencil (x + ε) y σ =
        σ * ε * (2 * (y - σ * (x + y) / 2) - σ * ε / 2) / 2 := by unfold pencil; ring
    have := mul_pos (mul_pos hσ0 hε0)
      (show 0 < 2 * (y - σ * (x + y) / 2) - σ * ε / 2 by nlinarith)
    linarith
  have hF : (after E g (√t * (σ * (x + ε + y) / 2)) σ d).Proper := after_proper hE h0 hσ1 hd0
  refine ⟨_, hF, ?_, ?_⟩
  · rintro p ⟨hp, hc⟩
    obtain ⟨-, c1⟩ := mem_cutSet.1 hc
    have c2 := sq_le_of_mem hp g
    rw [← htd, ← Real.sq_sqrt ht.le] at c2
    rw [mem_after]
    refine mem_step hE.pd.posSemidef hE.kappa.le h0 hp ⟨opt.s0, hσ1.le, hd0.le⟩ ?_
    rw [← htd]
    obtain ⟨v, hv⟩ : ∃ v, g ⬝ᵥ (p - E.xc) = √t * v := ⟨g ⬝ᵥ (p - E.xc) / √t, by field_simp⟩
    have hk := pencil_keeps (x := x + ε) (y := y) (v := v) (τ := √t) opt.s0 hσ1 hdp ?_
    · rw [Real.sq_sqrt ht.le] at hk; rwa [hv]
    · rw [hv] at c1 c2
      have k1 : v ^ 2 ≤ 1 := by
        have := pow_pos hτ 2
        by_contra hc
        nlinarith
      have k2 := abs_le.1 ((sq_le_one_iff_abs_le_one v).1 k1)
      have k3 : 0 ≤ v + y := by
        rw [← e1, ← mul_add] at c1
        exact nonneg_of_mul_nonneg_right c1 hτ
      exact mul_nonpos_of_nonpos_of_nonneg (by linarith [k2.2]) k3
  · rw [volume_pts hF, volume_pts hE']
    refine ENNReal.mul_lt_mul_left (euclBall_volume_pos).ne' euclBall_volume_lt_top.ne ?_
    rw [ENNReal.ofReal_lt_ofReal_iff (Real.sqrt_pos.2 (vsq_pos hE'))]
    refine Real.sqrt_lt_sqrt (vsq_nonneg hF.wf) ?_
    rw [vsq_after h0, vsq_after h0]
    have : d ^ n < δ ^ n := pow_lt_pow_left₀ hlt hd0.le (by have := hE.dim; omega)
    exact mul_lt_mul_of_pos_right (mul_lt_mul_of_pos_right this h1s) (vsq_pos hE)

end Verif
