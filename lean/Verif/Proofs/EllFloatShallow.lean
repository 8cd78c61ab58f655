import Verif.Proofs.EllFloatParRun

/-! # Rounded updates with slightly shallow cuts

A cut that misses the centre by much less than the size of the ellipsoid has, up to rounding, the parameters of the central cut. -/
namespace Verif
open Matrix MeasureTheory Ell
variable {n : ℕ} {E : Ell n} {g : Fin n → ℝ} {C ε u t θ β : ℝ} {fl : ℝ → ℝ} {dot : (Fin n → ℝ) → (Fin n → ℝ) → ℝ}

theorem calcDcF_shallow (hn : 2 ≤ n) (hfl : RelErr u fl) (hu0 : 0 ≤ u) (hu : u ≤ t) {τ tsq : ℝ} (hτ : 0 < τ) (hβ0 : β < 0)
    (hβ : -(t * τ) ≤ n * β) (ht : 1000 * t ≤ 1) (htsq : Rel (41 / 10 * t) tsq (τ ^ 2)) :
    ∃ ρ' σ' δ', calcDcF fl n tsq β = .ok (.accept ρ' σ' δ', tsq) ∧ Rel (60 * t) ρ' (rhoD n τ 0) ∧
      Rel (60 * t) σ' (sigmaD n τ 0) ∧ Rel (60 * t) δ' (deltaD n τ 0) := by
  have hn' : (2 : ℝ) ≤ n := by exact_mod_cast hn
  have ht0 : 0 ≤ t := hu0.trans hu
  have ht1 : t ≤ 1 / 1000 := by linarith
  have htsq0 : 0 < tsq := htsq.pos (by positivity) (by linarith)
  have hτ' : Rel (61 / 10 * t) (fl √tsq) τ := by
    have h := htsq.sqrt (by positivity) (by linarith)
    rw [Real.sqrt_sq hτ.le] at h
    exact (h.round hfl hu0 (by linarith)).mono (by linarith)
  set τ' := fl √tsq with hτd
  have hτ0 : 0 < τ' := hτ'.pos hτ (by linarith)
  have hsq : sqrtF fl tsq = .ok τ' := by
    unfold sqrtF; rw [pySqrt_ok.2 ⟨htsq0.le, rfl⟩]; rfl
  have hbd : 0 ≤ fl (τ' - β) := fl_nonneg hfl (by linarith) (by linarith)
  have hc1 := c1F_rel hn hfl hu0 (hu.trans ht1)
  have hnb : (n : ℝ) * β ≤ β := by nlinarith
  have habs : |(n : ℝ) * β| ≤ t * τ := by rw [abs_of_neg (by linarith)]; linarith
  have hbabs : |β| ≤ t * τ := by rw [abs_of_neg hβ0]; linarith
  have htτ : 0 ≤ t * τ := by positivity
  have hr := hτ'
  unfold Rel at hr
  rw [abs_of_pos hτ] at hr
  have hg : Rel (92 / 10 * t) (fl (τ' + fl (n * β))) τ := by
    have h1 : |fl (n * β)| ≤ 11 / 10 * (t * τ) := by
      have h2 := hfl (n * β)
      have h3 := mul_le_mul (show u ≤ 1 / 10 by linarith) habs (abs_nonneg _) (by norm_num)
      have h4 := abs_sub_abs_le_abs_sub (fl (n * β)) (n * β)
      linarith
    have h5 : Rel (72 / 10 * t) (τ' + fl (n * β)) τ := by
      unfold Rel
      rw [abs_of_pos hτ, show τ' + fl (n * β) - τ = (τ' - τ) + fl (n * β) by ring]
      exact (abs_add_le _ _).trans (by linarith)
    exact (h5.round hfl hu0 (by linarith)).mono (by linarith)
  have hg0 : 0 < fl (τ' + fl (n * β)) := hg.pos hτ (by linarith)
  set γ := fl (τ' + fl (n * β))
  have hρ : Rel (112 / 10 * t) (fl (γ / (n + 1))) (τ / (n + 1)) := by
    have h : Rel (92 / 10 * t) (γ / (n + 1)) (τ / (n + 1)) := by
      rw [div_eq_inv_mul γ, div_eq_inv_mul τ]; exact hg.mul_left _
    exact (h.round hfl hu0 (by linarith)).mono (by linarith)
  have hs : Rel (91 / 10 * t) (fl (τ' + β)) τ := by
    have h5 : Rel (71 / 10 * t) (τ' + β) τ := by
      unfold Rel
      rw [abs_of_pos hτ, show τ' + β - τ = (τ' - τ) + β by ring]
      exact (abs_add_le _ _).trans (by linarith)
    exact (h5.round hfl hu0 (by linarith)).mono (by linarith)
  have hs0 : 0 < fl (τ' + β) := hs.pos hτ (by linarith)
  have hσ : Rel (60 * t) (fl (fl (2 * fl (γ / (n + 1))) / fl (τ' + β))) (2 * (τ / (n + 1)) / τ) := by
    have h1 : Rel (132 / 10 * t) (fl (2 * fl (γ / (n + 1)))) (2 * (τ / (n + 1))) :=
      ((hρ.mul_left 2).round hfl hu0 (by linarith)).mono (by linarith)
    exact ((h1.div hs (by positivity) (by positivity) (by linarith) hτ.ne').round hfl hu0 (by linarith)).mono (by linarith)
  have hbb : |fl (β * fl (β / tsq))| ≤ 2 * t := by
    have a1 := htsq.lower (by positivity)
    have a2 : τ ^ 2 / 2 ≤ tsq := le_trans (by have := mul_le_mul_of_nonneg_right (show (1 : ℝ) / 2 ≤ 1 - 41 / 10 * t by linarith) (sq_nonneg τ); linarith) a1
    have a3 : |β * (β / tsq)| ≤ 2 * t ^ 2 := by
      rw [← mul_div_assoc, abs_div, abs_mul, abs_of_pos htsq0, div_le_iff₀ htsq0]
      have a4 := mul_le_mul hbabs hbabs (abs_nonneg _) htτ
      have a5 := mul_le_mul_of_nonneg_left a2 (show 0 ≤ 2 * t ^ 2 by positivity)
      linarith
    have a6 := (Rel.of_fl hfl (β / tsq)).abs_le'
    have a7 := (Rel.of_fl hfl (β * fl (β / tsq))).abs_le'
    have a8 : |β * fl (β / tsq)| ≤ (1 + u) * |β * (β / tsq)| := by
      rw [abs_mul, abs_mul]
      have := mul_le_mul_of_nonneg_left a6 (abs_nonneg β)
      linarith
    have a9 : |β * fl (β / tsq)| ≤ 11 / 10 * (2 * t ^ 2) := a8.trans (mul_le_mul (by linarith) a3 (abs_nonneg _) (by norm_num))
    have a10 : |fl (β * fl (β / tsq))| ≤ 11 / 10 * (11 / 10 * (2 * t ^ 2)) := a7.trans (mul_le_mul (by linarith) a9 (abs_nonneg _) (by norm_num))
    have a11 : t ^ 2 ≤ 1 / 1000 * t := by rw [sq]; exact mul_le_mul_of_nonneg_right ht1 ht0
    linarith
  have h1r : Rel (4 * t) (fl (1 - fl (β * fl (β / tsq)))) 1 := by
    have h1 : Rel (2 * t) (1 - fl (β * fl (β / tsq))) 1 := by
      unfold Rel
      rw [show 1 - fl (β * fl (β / tsq)) - 1 = -fl (β * fl (β / tsq)) by ring, abs_neg, abs_one]
      linarith
    exact (h1.round hfl hu0 (by linarith)).mono (by linarith)
  have hδ : Rel (60 * t) (fl (c1F fl n * fl (1 - fl (β * fl (β / tsq))))) (c1 n * 1) :=
    ((hc1.mul h1r (by positivity) (by linarith)).round hfl hu0 (by linarith)).mono (by linarith)
  refine ⟨_, _, _, ?_, by simpa [rhoD] using hρ.mono (by linarith), by simpa [sigmaD] using hσ, by simpa [deltaD] using hδ⟩
  simp only [calcDcF, hsq]
  rw [if_neg (not_lt.2 hbd), if_neg hβ0.ne, if_neg (not_lt.2 hg0.le)]
  change (do
    let _q ← divF fl (fl (τ' - β)) γ
    let sigma ← divF fl (fl (2 * fl (γ / (n + 1)))) (fl (τ' + β))
    let bt ← divF fl β tsq
    return (Calc.accept (fl (γ / (n + 1))) sigma (fl (c1F fl n * fl (1 - fl (β * bt)))), tsq)) = _
  simp only [divF, pyDiv, if_neg hg0.ne', if_neg hs0.ne', if_neg htsq0.ne', bind, Except.bind, Except.map, pure, Except.pure]

/-- One update with a cut that misses the centre by at most `ετ/n`: it does what a central cut would do. -/
theorem shallow_ok (hE : E.Proper) (hfl : RelErr u fl) (hu0 : 0 ≤ u) (hu : u ≤ ε) (hdot : VecDotErr ε dot) (hC1 : 1 ≤ C) (hC : CondBound C E.Q) (hg : g ≠ 0)
    (hθ : 0 < θ) (hθ1 : θ ≤ 1) (hε : 100000000 * (C ^ 4 * ε) ≤ θ ^ 4) (hβ0 : β < 0) (hβ : -(ε * √(E.kappa * (g ⬝ᵥ E.Q *ᵥ g))) ≤ n * β) :
    ∃ E' tsq, updateF fl dot (g, .scalar β) E = .ok (E', .success, tsq) ∧ UpdateOK C ε u θ E g (E.pts ∩ cutSet E.xc (g, .scalar 0)) E' tsq := by
  obtain ⟨hn, hpd, hκ⟩ := id hE
  have hQ := hpd.posSemidef
  have hε0 : 0 ≤ ε := hu0.trans hu
  have hω : 0 < g ⬝ᵥ E.Q *ᵥ g := (pd_iff.1 hpd).2 g hg
  have hκω : 0 < E.kappa * (g ⬝ᵥ E.Q *ᵥ g) := mul_pos hκ hω
  have hτ0 : 0 < √(E.kappa * (g ⬝ᵥ E.Q *ᵥ g)) := Real.sqrt_pos.2 hκω
  have hτ2 : √(E.kappa * (g ⬝ᵥ E.Q *ᵥ g)) ^ 2 = E.kappa * (g ⬝ᵥ E.Q *ᵥ g) := Real.sq_sqrt hκω.le
  have ht4 : C ^ 2 * ε ≤ C ^ 4 * ε := mul_le_mul_of_nonneg_right (pow_le_pow_right₀ hC1 (by norm_num)) hε0
  have hC2 : 1 ≤ C ^ 2 := one_le_pow₀ hC1
  set τ := √(E.kappa * (g ⬝ᵥ E.Q *ᵥ g)) with hτ
  set t := C ^ 2 * ε with ht
  have hεt : ε ≤ t := le_mul_of_one_le_left hε0 hC2
  have ht0 : 0 ≤ t := hε0.trans hεt
  have hθ4 : θ ^ 4 ≤ 1 := pow_le_one₀ hθ.le hθ1
  have ht1 : t ≤ 1 / 100000000 := by linarith
  obtain ⟨-, hω'⟩ := qg_err (g := g) hQ hdot hε0 (by linarith) hC1 hC
  rw [← ht] at hω'
  have htsq := ((hω'.mul_left E.kappa).round hfl hu0 (by linarith)).mono (by linarith : _ ≤ 41 / 10 * t)
  rw [← hτ2] at htsq
  obtain ⟨ρ', σ', δ', hc, hρ', hσ', hδ'⟩ := calcDcF_shallow hn hfl hu0 (hu.trans hεt) hτ0 hβ0
    (le_trans (neg_le_neg (mul_le_mul_of_nonneg_right hεt hτ0.le)) hβ) (by linarith) htsq
  set tsq := fl (E.kappa * dot g fun i => dot (E.Q i) g) with htsqd
  have htq : |tsq - E.kappa * (g ⬝ᵥ E.Q *ᵥ g)| ≤ 5 * t * (E.kappa * (g ⬝ᵥ E.Q *ᵥ g)) := by
    have := htsq.absn (by positivity)
    rw [hτ2] at this
    exact this.trans (mul_le_mul_of_nonneg_right (by linarith) hκω.le)
  obtain ⟨r0, r1, s0, s1, d0, d1, -⟩ := deep_bounds hn hτ0 (le_refl (0 : ℝ)) one_pos (by simp)
  set ρ := rhoD n τ 0 with hρ
  set σ := sigmaD n τ 0 with hσ
  set δ := deltaD n τ 0 with hδ
  have hσ1 : σ < 1 := by linarith
  set w := C ^ 4 * ε / θ ^ 4 with hwd
  have hw0 : 0 ≤ w := by positivity
  have hw1 : w ≤ 1 / 100000000 := by rw [hwd, div_le_iff₀ (by positivity)]; linarith
  have hCw : C ^ 4 * ε ≤ w := by
    rw [hwd, le_div_iff₀ (by positivity)]
    have := mul_le_mul_of_nonneg_left hθ4 (show 0 ≤ C ^ 4 * ε by positivity)
    linarith
  have hxe : C ^ 2 * (60 * t) / (1 / 6) = 360 * (C ^ 4 * ε) := by rw [ht]; ring
  obtain ⟨E', h1, h2, h3, h4, h5⟩ := updateF_err hE hfl hu0 hu hdot hC1 hC hg (be := .scalar β) (e := 60 * t) (a := 1 / 6)
    (ρ := ρ) (σ := σ) (δ := δ) (ρ' := ρ') (σ' := σ') (δ' := δ') (tsq := tsq) (by simp only [calcLlF]; exact hc) (by linarith) (by norm_num) (by norm_num)
    (by rw [hxe]; linarith) (by rw [abs_of_pos r0]; exact r1) s0.le s1 d0 (by linarith)
    (by
      have := hρ'.absn r0.le
      exact this.trans (mul_le_mul_of_nonneg_left r1 (by positivity)))
    (by
      have := hσ'.absn s0.le
      exact this.trans (by have := mul_le_mul_of_nonneg_left hσ1.le (show 0 ≤ 60 * t by positivity); linarith)) hδ'
  rw [hxe] at h3 h4 h5
  refine ⟨E', tsq, h1, h2, htq, fun z hz v => ?_, fun y => ?_, fun y => ?_, ?_⟩
  · have hz2 : g ⬝ᵥ (z - E.xc) + 0 ≤ 0 := hz.2
    have hkeep : KeepsAt (τ ^ 2) ρ σ δ (g ⬝ᵥ (z - E.xc)) := keeps_deep hn hτ0 (by linarith) (by simpa using hτ0) (u := g ⬝ᵥ (z - E.xc)) (by rw [hτ2]; exact hz.1 g) hz2
    have hrange : Range σ δ := (range_deep hn hτ0 (β := 0) (by linarith) (by simpa using hτ0)).2
    rw [hτ2] at hkeep
    refine (h3 z (fun w => mem_step hQ hκ.le hω.ne' hz.1 hrange hkeep w) v).trans ?_
    gcongr ?_ * _ + _
    linarith
  · have hq : 0 ≤ E.kappa * (y ⬝ᵥ E.Q *ᵥ y) := mul_nonneg hκ.le ((psd_iff.1 hQ).2 y)
    have k1 := mul_le_mul_of_nonneg_left (shape_lower hQ hω s0.le y).1 (show 0 ≤ E.kappa * δ by positivity)
    have k2 := mul_le_mul_of_nonneg_right (show 1 / 6 ≤ δ * (1 - σ) by linarith) hq
    have k3 : 1 / 6 * (E.kappa * (y ⬝ᵥ E.Q *ᵥ y)) ≤ E.kappa * δ * (y ⬝ᵥ (shape E.Q g σ) *ᵥ y) := by linarith
    have k4 := mul_le_mul_of_nonneg_left k3 (show 0 ≤ 1 - 60 * (360 * (C ^ 4 * ε)) by linarith)
    refine le_trans ?_ ((k4).trans (h4 y))
    have k6 : θ ^ 2 ≤ 1 := pow_le_one₀ hθ.le hθ1
    have k7 := mul_le_mul_of_nonneg_right (show θ ^ 2 / 36 ≤ (1 - 60 * (360 * (C ^ 4 * ε))) * (1 / 6) by linarith) hq
    linarith
  · refine (h5 y).trans ?_
    have hq : 0 ≤ E.kappa * (y ⬝ᵥ E.Q *ᵥ y) := mul_nonneg hκ.le ((psd_iff.1 hQ).2 y)
    have hn' : (2 : ℝ) ≤ n := by exact_mod_cast hn
    have hc1 : c1 n ≤ 4 / 3 := by unfold c1; rw [div_le_iff₀ (by nlinarith)]; nlinarith
    have d3 : δ ≤ 3 := by
      have : δ = c1 n := by simp [hδ, deltaD]
      linarith
    have k1 := mul_le_mul_of_nonneg_left (shape_lower hQ hω s0.le y).2 (show 0 ≤ E.kappa * δ by positivity)
    have k2 := mul_le_mul_of_nonneg_right d3 hq
    have k3 : E.kappa * δ * (y ⬝ᵥ (shape E.Q g σ) *ᵥ y) ≤ 3 * (E.kappa * (y ⬝ᵥ E.Q *ᵥ y)) := by linarith
    have k4 := mul_le_mul_of_nonneg_left k3 (show 0 ≤ 1 + 60 * (360 * (C ^ 4 * ε)) by positivity)
    have k5 := mul_le_mul_of_nonneg_right (show (1 + 60 * (360 * (C ^ 4 * ε))) * 3 ≤ 4 by linarith) hq
    linarith
  · refine (shrink_vol hE hg le_rfl hτ0 (show 0 < 1 + 60 * (360 * (C ^ 4 * ε)) by positivity) h5).trans
      (mul_le_mul_of_nonneg_right (mul_le_mul_of_nonneg_right ?_ (Real.exp_pos _).le) measureReal_nonneg)
    exact Real.sqrt_le_sqrt (pow_le_pow_left₀ (by positivity) (by linarith) n)

end Verif
