import Verif.Props.EllVolume

/-! # Concrete cases meeting the hypotheses of C16–C24 -/
namespace Verif
open Matrix MeasureTheory Ell

private theorem quad2 (g : Fin 2 → ℝ) : g ⬝ᵥ (1 : Matrix (Fin 2) (Fin 2) ℝ) *ᵥ g = g 0 ^ 2 + g 1 ^ 2 := by
  rw [one_mulVec]; simp [dotProduct, Fin.sum_univ_two, sq]

/-- The disc of squared radius `κ` in the plane. -/
noncomputable def exDisc (κ : ℝ) : Ell 2 := ⟨true, false, 0, 1, κ⟩

theorem exDisc_init (κ : ℝ) : Ell.init (.scalar κ) (0 : Fin 2 → ℝ) = .ok (exDisc κ) := by
  unfold Ell.init c1? pyDiv exDisc; norm_num

theorem exDisc_proper {κ : ℝ} (h : 0 < κ) : (exDisc κ).Proper :=
  ⟨le_rfl, Matrix.PosDef.one, h⟩

/-- A deep cut `x₀ + 1 ≤ 0` of the disc of radius 2: the result is a flatter, shifted ellipse. -/
theorem ex_deep : update (![1, 0], .scalar 1) (exDisc 4) =
    .ok (⟨true, false, ![-4 / 3, 0], !![1 / 9, 0; 0, 1], 4⟩, .success, 4) := by
  have h2 : √(4 : ℝ) = 2 := by rw [show (4 : ℝ) = 2 ^ 2 by norm_num]; exact Real.sqrt_sq (by norm_num)
  have hs : pySqrt 4 = .ok 2 := by unfold pySqrt; rw [if_neg (by norm_num), h2]
  have hc : calcLl 2 true 4 (.scalar 1) = .ok (.accept (4 / 3) (8 / 9) 1, 4) := by
    simp only [calcLl, calcDc, hs, pyDiv, c1, bind, Except.bind, pure, Except.pure]
    norm_num
  simp only [update, exDisc, quad2]
  norm_num [hc, pyDiv]
  ext i j; fin_cases i <;> fin_cases j <;> simp <;> norm_num

/-- A cut beyond the disc: `nosoln`. -/
theorem ex_nosoln : update (![1, 0], .scalar 3) (exDisc 4) = .ok (exDisc 4, .nosoln, 4) := by
  have h2 : √(4 : ℝ) = 2 := by rw [show (4 : ℝ) = 2 ^ 2 by norm_num]; exact Real.sqrt_sq (by norm_num)
  have hs : pySqrt 4 = .ok 2 := by unfold pySqrt; rw [if_neg (by norm_num), h2]
  have hc : calcLl 2 true 4 (.scalar 3) = .ok (.reject .nosoln, 4) := by
    simp only [calcLl, calcDc, hs]; norm_num
  simp only [update, exDisc, quad2]
  norm_num [hc]

/-- A shallow cut: `noeffect`. -/
theorem ex_noeffect : update (![1, 0], .scalar (-(3 / 2))) (exDisc 4) = .ok (exDisc 4, .noeffect, 4) := by
  have h2 : √(4 : ℝ) = 2 := by rw [show (4 : ℝ) = 2 ^ 2 by norm_num]; exact Real.sqrt_sq (by norm_num)
  have hs : pySqrt 4 = .ok 2 := by unfold pySqrt; rw [if_neg (by norm_num), h2]
  have hc : calcLl 2 true 4 (.scalar (-(3 / 2))) = .ok (.reject .noeffect, 4) := by
    simp only [calcLl, calcDc, hs]; norm_num
  simp only [update, exDisc, quad2]
  norm_num [hc]

/-- The slab `x₀ ≤ 0 ≤ x₀ + 1` of the disc with `κ = 15/8`: a genuinely two-sided cut. -/
theorem ex_parallel : update (![1, 0], .seq [0, 1]) (exDisc (15 / 8)) =
    .ok (⟨true, false, ![-5 / 12, 0], !![1 / 6, 0; 0, 1], 35 / 12⟩, .success, 15 / 8) := by
  have h2 : √((13 / 15 : ℝ) ^ 2) = 13 / 15 := Real.sqrt_sq (by norm_num)
  have hs : pySqrt ((13 / 15 : ℝ) ^ 2) = .ok (13 / 15) := by
    unfold pySqrt; rw [if_neg (by norm_num), h2]
  have hcc : calcLlCc 2 1 (8 / 15) = .ok (.accept (5 / 12) (5 / 6) (14 / 9)) := by
    have e : 1 - 8 / 15 + (halfN 2 * (8 / 15)) ^ 2 = (13 / 15 : ℝ) ^ 2 := by unfold halfN; norm_num
    simp only [calcLlCc, e, hs, pyDiv, c1, c2, c3, bind, Except.bind, pure, Except.pure]
    norm_num
  have hc : calcLl 2 true (15 / 8) (.seq [0, 1]) = .ok (.accept (5 / 12) (5 / 6) (14 / 9), 15 / 8) := by
    have e : pyDiv (1 : ℝ) (15 / 8) = .ok (8 / 15) := by unfold pyDiv; norm_num
    simp only [calcLl, calcLlCore, e, bind, Except.bind, one_mul, hcc, pure, Except.pure]
    norm_num
  simp only [update, exDisc, quad2]
  norm_num [hc, pyDiv]
  ext i j; fin_cases i <;> fin_cases j <;> simp <;> norm_num

/-- C16, C21 apply: the point `(-2, 0)` satisfies the cut and is kept; the volume strictly drops, at the
stated rate. -/
example : (![-2, 0] : Fin 2 → ℝ) ∈ (⟨true, false, ![-4 / 3, 0], !![1 / 9, 0; 0, 1], 4⟩ : Ell 2).pts := by
  refine C16_ell_deep_sound (exDisc_proper (by norm_num)).wf ex_deep _ ?_ ?_
  · rw [(C24_ell_init_ball le_rfl (by norm_num) (exDisc_init 4)).2.2.2.2]
    simp [Fin.sum_univ_two]; try norm_num
  · simp [exDisc]; try norm_num

example : volume (⟨true, false, ![-4 / 3, 0], !![1 / 9, 0; 0, 1], 4⟩ : Ell 2).pts < volume (exDisc 4).pts :=
  C21_ell_volume_lt (exDisc_proper (by norm_num)) ex_deep (by simp [neutralBeta])

example : volume (⟨true, false, ![-5 / 12, 0], !![1 / 6, 0; 0, 1], 35 / 12⟩ : Ell 2).pts ≤
    ENNReal.ofReal (Real.exp (-(1 / (2 * (((2 : ℕ) : ℝ) + 1))))) * volume (exDisc (15 / 8)).pts :=
  C21_ell_volume_rate (exDisc_proper (by norm_num)).wf (by simp [deepBeta]) ex_parallel

/-- C17 applies to the two-sided cut. -/
example : (![-1, 0] : Fin 2 → ℝ) ∈ (⟨true, false, ![-5 / 12, 0], !![1 / 6, 0; 0, 1], 35 / 12⟩ : Ell 2).pts := by
  refine C17_ell_parallel_sound (exDisc_proper (by norm_num)).wf ex_parallel _ ?_ ?_ ?_
  · rw [(C24_ell_init_ball le_rfl (by norm_num) (exDisc_init _)).2.2.2.2]
    simp [Fin.sum_univ_two]; try norm_num
  · simp [exDisc]
  · simp [exDisc]

/-- C18 applies. -/
example : ∀ x ∈ (exDisc 4).pts, x ∉ cutSet (exDisc 4).xc (![1, 0], .scalar 3) :=
  C18_ell_nosoln (exDisc_proper (by norm_num)).wf ex_nosoln

/-- C20 applies: the result of the deep cut is proper. -/
example : (⟨true, false, ![-4 / 3, 0], !![1 / 9, 0; 0, 1], 4⟩ : Ell 2).Proper := by
  have h2 : √(4 : ℝ) = 2 := by rw [show (4 : ℝ) = 2 ^ 2 by norm_num]; exact Real.sqrt_sq (by norm_num)
  refine C20_ell_proper (exDisc_proper (by norm_num)) (by simp) ?_ ex_deep
  simp only [exDisc, quad2, nondegenerate]
  norm_num [h2]

/-- C20: the failing right-hand side `β = -τ/n` does fail. -/
example : update (![1, 0], .scalar (-1)) (exDisc 4) = .error .zeroDivision := by
  have h2 : √(4 : ℝ) = 2 := by rw [show (4 : ℝ) = 2 ^ 2 by norm_num]; exact Real.sqrt_sq (by norm_num)
  rw [C20_ell_deep_fails_iff (exDisc_proper (by norm_num)) (by simp)]
  simp only [exDisc, quad2]
  norm_num [h2]

/-- C20: a thin symmetric slab fails (0/0). -/
example : update (![1, 0], .seq [-1, 1]) (exDisc 4) = .error .zeroDivision := by
  rw [C20_ell_parallel_fails_iff (exDisc_proper (by norm_num)) (by simp)]
  simp only [exDisc, quad2]
  norm_num

/-- C23 applies. -/
example : IsGreatest ((fun x => ((![1, 0] : Fin 2 → ℝ) ⬝ᵥ (x - (exDisc 4).xc)) ^ 2) '' (exDisc 4).pts) 4 :=
  C23_ell_tsq (exDisc_proper (by norm_num)).wf ex_deep

end Verif
