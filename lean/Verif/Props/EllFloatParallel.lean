import Verif.Proofs.EllFloatPar
import Verif.Props.EllFloatMore

/-!
# C117: parallel cuts in floating point

The counterpart of `C117_update` for a pair of bounds, with the width of the slab in the error term; compare
`C117_thin_indefinite` and `C117_thin_grows` for slabs that are too thin.
-/
namespace Verif
open Matrix Ell FloatSpec
variable {n : ℕ} {u ε C θ b0 b1 : ℝ} {fl : ℝ → ℝ} {dot : (Fin n → ℝ) → (Fin n → ℝ) → ℝ} {E : Ell n} {g : Fin n → ℝ}

/-- **C117**: one update with a parallel cut, every operation rounded.  Both bounds meet the half of the ellipsoid that is kept,
`0 ≤ b0 < b1 ≤ τ`, and the slab between them is at least `θτ` wide.  If the rounding errors are small against the conditioning of `Q`
and the width of the slab, the update succeeds, whatever `use_parallel_cut` and `no_defer_trick`, the new ellipsoid is again proper,
the returned `tsq` is accurate, and every point of the old ellipsoid between the two hyperplanes is in the new one inflated by
`1 + 5·10⁵·C⁴ε/θ⁴`, up to the rounding of the coordinates of the centre. -/
theorem C117_update_parallel (hE : E.Proper) (hfl : RelErr u fl) (hu0 : 0 ≤ u) (hu : u ≤ ε) (hdot : VecDotErr ε dot) (hC1 : 1 ≤ C)
    (hC : CondBound C E.Q) (hg : g ≠ 0) (hθ : 0 < θ) (hb0 : 0 ≤ b0) (hb : b0 + θ * √(E.kappa * (g ⬝ᵥ E.Q *ᵥ g)) ≤ b1)
    (hb1 : b1 ≤ √(E.kappa * (g ⬝ᵥ E.Q *ᵥ g))) (hε : 10 ^ 7 * (C ^ 4 * ε) ≤ θ ^ 4) :
    ∃ E' tsq, updateF fl dot (g, .seq [b0, b1]) E = .ok (E', .success, tsq) ∧ E'.Proper ∧
      |tsq - E.kappa * (g ⬝ᵥ E.Q *ᵥ g)| ≤ 5 * (C ^ 2 * ε) * (E.kappa * (g ⬝ᵥ E.Q *ᵥ g)) ∧
      ∀ x ∈ E.pts ∩ cutSet E.xc (g, .seq [b0, b1]), ∀ y, |y ⬝ᵥ (x - E'.xc)| ≤
        (1 + 500000 * (C ^ 4 * ε / θ ^ 4)) * √(E'.kappa * (y ⬝ᵥ E'.Q *ᵥ y)) + u * ∑ i, |y i| * |E.xc i| := by
  obtain ⟨hn, hpd, hκ⟩ := id hE
  have hQ := hpd.posSemidef
  have hω : 0 < g ⬝ᵥ E.Q *ᵥ g := (pd_iff.1 hpd).2 g hg
  have hκω : 0 < E.kappa * (g ⬝ᵥ E.Q *ᵥ g) := mul_pos hκ hω
  have hε0 : 0 ≤ ε := hu0.trans hu
  set τ := √(E.kappa * (g ⬝ᵥ E.Q *ᵥ g)) with hτ
  have hτ0 : 0 < τ := Real.sqrt_pos.2 hκω
  have hτ2 : τ ^ 2 = E.kappa * (g ⬝ᵥ E.Q *ᵥ g) := Real.sq_sqrt hκω.le
  have hθ1 : θ ≤ 1 := by
    by_contra hc
    have : 1 * τ < θ * τ := mul_lt_mul_of_pos_right (not_le.1 hc) hτ0
    linarith
  have hθ2 : 0 < θ ^ 2 := by positivity
  have hθ21 : θ ^ 2 ≤ 1 := pow_le_one₀ hθ.le hθ1
  have hθ42 : θ ^ 4 ≤ θ ^ 2 := pow_le_pow_of_le_one hθ.le hθ1 (by norm_num)
  have hC2 : 1 ≤ C ^ 2 := one_le_pow₀ hC1
  have ht4 : C ^ 2 * ε ≤ C ^ 4 * ε := mul_le_mul_of_nonneg_right (pow_le_pow_right₀ hC1 (by norm_num)) hε0
  have hs0 : 0 ≤ C ^ 4 * ε / θ ^ 4 := by positivity
  have hwhen : ∀ x, x ∈ cutSet E.xc (g, .seq [b0, b1]) → x ∈ cutSet E.xc (g, .scalar b0) := fun x hx => hx.1
  -- when the code falls back to the first bound
  have fallback : calcLlF fl n E.usePar (fl (E.kappa * dot g fun i => dot (E.Q i) g)) (.seq [b0, b1]) =
      calcDcF fl n (fl (E.kappa * dot g fun i => dot (E.Q i) g)) b0 → ∃ E' tsq, updateF fl dot (g, .seq [b0, b1]) E = .ok (E', .success, tsq) ∧ E'.Proper ∧
      |tsq - E.kappa * (g ⬝ᵥ E.Q *ᵥ g)| ≤ 5 * (C ^ 2 * ε) * (E.kappa * (g ⬝ᵥ E.Q *ᵥ g)) ∧
      ∀ x ∈ E.pts ∩ cutSet E.xc (g, .seq [b0, b1]), ∀ y, |y ⬝ᵥ (x - E'.xc)| ≤
        (1 + 500000 * (C ^ 4 * ε / θ ^ 4)) * √(E'.kappa * (y ⬝ᵥ E'.Q *ᵥ y)) + u * ∑ i, |y i| * |E.xc i| := by
    intro hf
    have he : updateF fl dot (g, .seq [b0, b1]) E = updateF fl dot (g, .scalar b0) E := by
      simp only [updateF]
      rw [hf]
      rfl
    obtain ⟨E', tsq, h1, h2, h3, h4⟩ := C117_update (b := θ) (β := b0) hE hfl hu0 hu hdot hC1 hC hg hθ hb0 (by rw [← hτ]; linarith) (by linarith)
    refine ⟨E', tsq, he.trans h1, h2, h3, fun x hx y => (h4 x ⟨hx.1, hwhen x hx.2⟩ y).trans ?_⟩
    gcongr ?_ * _ + _
    have e1 : C ^ 4 * ε / θ ^ 2 ≤ C ^ 4 * ε / θ ^ 4 := div_le_div_of_nonneg_left (by positivity) (by positivity) hθ42
    linarith
  -- the computed `tsq`
  set t := C ^ 2 * ε with ht
  have ht0 : 0 ≤ t := by positivity
  have hεt : ε ≤ t := by rw [ht]; nlinarith
  have hctx : ParF.Ctx n t θ (b0 / τ) (b1 / τ) :=
    ⟨hn, by positivity, hθ, by rw [div_add' _ _ _ hτ0.ne', div_le_div_iff_of_pos_right hτ0]; exact hb,
      by rw [div_le_one hτ0]; exact hb1, ht0, by linarith⟩
  have ht1 := hctx.t_le
  obtain ⟨-, hω'⟩ := qg_err (g := g) hQ hdot hε0 (by linarith) hC1 hC
  rw [← ht] at hω'
  have htsq := ((hω'.mul_left E.kappa).round hfl hu0 (by linarith)).mono (by linarith : _ ≤ 41 / 10 * t)
  rw [← hτ2] at htsq
  have hcore := ParF.core_err hctx hfl hu0 (hu.trans hεt) hτ0 htsq
  rw [mul_div_cancel₀ _ hτ0.ne', mul_div_cancel₀ _ hτ0.ne'] at hcore
  set tsq := fl (E.kappa * dot g fun i => dot (E.Q i) g) with htsqd
  have htq : |tsq - E.kappa * (g ⬝ᵥ E.Q *ᵥ g)| ≤ 5 * t * (E.kappa * (g ⬝ᵥ E.Q *ᵥ g)) := by
    have := htsq.absn (by positivity)
    rw [hτ2] at this
    exact this.trans (mul_le_mul_of_nonneg_right (by linarith) hκω.le)
  have htsq0 : 0 < tsq := htsq.pos (by positivity) (by linarith)
  by_cases hp : E.usePar = false
  · refine fallback ?_
    simp only [calcLlF, calcLlCoreF, hp, divF, pyDiv, if_neg htsq0.ne', Except.map, bind, Except.bind]
    rw [if_pos (Or.inr trivial)]
  replace hp : E.usePar = true := by simpa using hp
  rcases hcore with h | ⟨ρ', σ', δ', hc, hρ', hσ', hδ'⟩
  · exact fallback (by simp only [calcLlF, hp]; exact h)
  set x := b0 / τ with hx
  set y := b1 / τ with hy
  obtain ⟨s0, s1, d0, d1, hk⟩ := hctx.exact
  set e := 650 * (t / θ ^ 2) with he
  have htd : t ≤ t / θ ^ 2 := hctx.t_le_div
  have hxe : C ^ 2 * e / (θ ^ 2 / 12) = 7800 * (C ^ 4 * ε / θ ^ 4) := by
    rw [he, ht]; field_simp; ring
  have hse : C ^ 4 * ε / θ ^ 4 ≤ 1 / 10 ^ 7 := by
    rw [div_le_div_iff₀ (by positivity) (by norm_num)]; linarith
  obtain ⟨E', h1, h2, h3, -⟩ := updateF_err hE hfl hu0 hu hdot hC1 hC hg (be := .seq [b0, b1]) (e := e) (a := θ ^ 2 / 12)
    (ρ := τ * (ParF.sigmaP n x y * ((x + y) / 2))) (σ := ParF.sigmaP n x y) (δ := ParF.deltaP n x y) (ρ' := ρ') (σ' := σ') (δ' := δ')
    (tsq := tsq) (by simp only [calcLlF, hp]; exact hc) (by rw [← ht, he]; linarith) (by positivity) (by linarith)
    (by rw [hxe]; norm_num at hse ⊢; linarith)
    (by
      rw [← hτ, abs_mul, abs_of_pos hτ0]
      refine mul_le_of_le_one_right hτ0.le ?_
      have e0 : 0 ≤ (x + y) / 2 := by have := hctx.hx; have := hctx.hxy; linarith
      have e1 : (x + y) / 2 ≤ 1 := by have := hctx.hxy; have := hctx.hy; linarith
      rw [abs_of_nonneg (mul_nonneg s0 e0)]
      exact mul_le_one₀ (by have : 0 ≤ θ ^ 2 / 12 := by positivity
                            linarith) e0 e1)
    s0 s1 d0 d1 (by rw [← hτ]; exact hρ') hσ' hδ'
  refine ⟨E', tsq, h1, h2, htq, fun z hz v => ?_⟩
  have hz1 := hz.1
  have hz2 : g ⬝ᵥ (z - E.xc) + b0 ≤ 0 ∧ 0 ≤ g ⬝ᵥ (z - E.xc) + b1 := hz.2
  have hkeep := (hk (g ⬝ᵥ (z - E.xc) / τ)
    (by rw [hx, ← add_div]; exact div_nonpos_of_nonpos_of_nonneg hz2.1 hτ0.le)
    (by rw [hy, ← add_div]; exact div_nonneg hz2.2 hτ0.le)).scale (τ := τ)
  rw [mul_div_cancel₀ _ hτ0.ne', hτ2] at hkeep
  refine (h3 z (fun w => mem_step hQ hκ.le hω.ne' hz1 ⟨s0, ?_, d0.le⟩ hkeep w) v).trans ?_
  · have : 0 ≤ θ ^ 2 / 12 := by positivity
    linarith
  · gcongr ?_ * _ + _
    rw [hxe]; linarith

/-- Concrete: doubles, the unit disc and the parallel cut `1/4 ≤ -(x₀ + x₁) ≤ 5/4`. -/
example : ∃ E' tsq, updateF (ieee 53) (vecDot (ieee 53)) (![1, 1], .seq [1 / 4, 5 / 4]) (⟨true, false, 0, 1, 1⟩ : Ell 2) = .ok (E', .success, tsq) ∧
    E'.Proper ∧ ∀ x ∈ (⟨true, false, 0, 1, 1⟩ : Ell 2).pts ∩ cutSet (0 : Fin 2 → ℝ) (![1, 1], .seq [1 / 4, 5 / 4]), ∀ y,
      |y ⬝ᵥ (x - E'.xc)| ≤ (1 + 10⁻¹ ^ 8) * √(E'.kappa * (y ⬝ᵥ E'.Q *ᵥ y)) := by
  have hfl : Nearest 53 (ieee 53 : ℝ → ℝ) := ieee_nearest (by norm_num)
  obtain ⟨h1, h2, h3⟩ := C117_double (n := 2) hfl (by norm_num)
  have h4 : (√2) ^ 4 = (4 : ℝ) := by
    rw [show (4 : ℕ) = 2 * 2 by rfl, pow_mul, Real.sq_sqrt (by norm_num)]; norm_num
  have hP : (⟨true, false, 0, 1, 1⟩ : Ell 2).Proper := ⟨le_rfl, PosDef.one, one_pos⟩
  have hC : CondBound √2 (1 : Matrix (Fin 2) (Fin 2) ℝ) := by
    intro y
    rw [one_mulVec, Real.sq_sqrt (by norm_num)]
    simp only [Fin.sum_univ_two, dotProduct, one_apply_eq, Real.sqrt_one, one_mul]
    nlinarith [sq_nonneg (|y 0| - |y 1|), sq_abs (y 0), sq_abs (y 1)]
  have hq : √((1 : ℝ) * (![1, 1] ⬝ᵥ (1 : Matrix (Fin 2) (Fin 2) ℝ) *ᵥ ![1, 1])) = √2 := by
    rw [one_mulVec]; norm_num [dotProduct, Fin.sum_univ_two]
  have hr1 : √2 ≤ (3 / 2 : ℝ) := Real.sqrt_le_iff.2 (by norm_num)
  have hr2 : (5 / 4 : ℝ) ≤ √2 := Real.le_sqrt_of_sq_le (by norm_num)
  obtain ⟨E', tsq, e1, e2, -, e3⟩ := C117_update_parallel (E := (⟨true, false, 0, 1, 1⟩ : Ell 2)) (g := ![1, 1]) (b0 := 1 / 4)
    (b1 := 5 / 4) (θ := 2 / 3) hP h1 (by positivity) h2 h3 (by rw [Real.one_le_sqrt]; norm_num) hC
    (fun h => by simpa using congrFun h 0) (by norm_num) (by norm_num) (by rw [hq]; linarith) (by rw [hq]; exact hr2)
    (by rw [h4]; norm_num)
  refine ⟨E', tsq, e1, e2, fun x hx y => ?_⟩
  have h5 := e3 x hx y
  simp only [Pi.zero_apply, abs_zero, mul_zero, Finset.sum_const_zero, add_zero, h4] at h5
  refine h5.trans (mul_le_mul_of_nonneg_right ?_ (Real.sqrt_nonneg _))
  norm_num

end Verif
