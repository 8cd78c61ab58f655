import Verif.Props.EllMinimal
import Verif.Props.EllExamples

/-! # C127 at work -/
namespace Verif
open Matrix MeasureTheory Ell

private theorem quad2 (g : Fin 2 → ℝ) : g ⬝ᵥ (1 : Matrix (Fin 2) (Fin 2) ℝ) *ᵥ g = g 0 ^ 2 + g 1 ^ 2 := by
  rw [one_mulVec]; simp [dotProduct, Fin.sum_univ_two, sq]

/-- C127 applies to the deep cut of `ex_deep`: every other ellipsoid around the cap is larger. -/
example {F : Ell 2} (hF : F.Proper) (hsub : (exDisc 4).pts ∩ cutSet (exDisc 4).xc (![1, 0], .scalar 1) ⊆ F.pts) :
    volume (⟨true, false, ![-4 / 3, 0], !![1 / 9, 0; 0, 1], 4⟩ : Ell 2).pts ≤ volume F.pts :=
  (C127_ell_minimal (exDisc_proper (by norm_num)) ex_deep trivial hF hsub).1

/-- The disc itself is such an ellipsoid; it is strictly larger. -/
example : volume (⟨true, false, ![-4 / 3, 0], !![1 / 9, 0; 0, 1], 4⟩ : Ell 2).pts < volume (exDisc 4).pts := by
  refine (C127_ell_minimal (exDisc_proper (by norm_num)) ex_deep trivial (exDisc_proper (by norm_num))
    Set.inter_subset_left).2 fun h => ?_
  have h1 : (![2, 0] : Fin 2 → ℝ) ∈ (exDisc 4).pts := by
    intro y
    simp [exDisc, dotProduct, Fin.sum_univ_two]
    nlinarith [sq_nonneg (y 1)]
  rw [h] at h1
  have := h1 ![1, 0]
  norm_num [dotProduct, mulVec, Fin.sum_univ_two] at this

/-- C127 applies to the parallel cut of `ex_parallel`. -/
example {F : Ell 2} (hF : F.Proper)
    (hsub : (exDisc (15 / 8)).pts ∩ cutSet (exDisc (15 / 8)).xc (![1, 0], .seq [0, 1]) ⊆ F.pts) :
    volume (⟨true, false, ![-5 / 12, 0], !![1 / 6, 0; 0, 1], 35 / 12⟩ : Ell 2).pts ≤ volume F.pts := by
  refine (C127_ell_minimal (exDisc_proper (by norm_num)) ex_parallel (fun _ => ?_) hF hsub).1
  have := Real.sqrt_nonneg (15 / 8)
  constructor <;> linarith

/-- The half disc `x₀ ≥ 0` given as the parallel cut `(-2, 0)` of the disc with `κ = 5/2`: the first
hyperplane `x₀ = 2` misses the disc. -/
theorem ex_beyond : update (![1, 0], .seq [-2, 0]) (exDisc (5 / 2)) =
    .ok (⟨true, false, ![1 / 2, 0], !![1 / 2, 0; 0, 1], 3⟩, .success, 5 / 2) := by
  have h2 : √((7 / 5 : ℝ) ^ 2) = 7 / 5 := Real.sqrt_sq (by norm_num)
  have hs : pySqrt ((7 / 5 : ℝ) ^ 2) = .ok (7 / 5) := by
    unfold pySqrt; rw [if_neg (by norm_num), h2]
  have hs' : pySqrt (49 / 25) = .ok (7 / 5) := by rw [← hs]; norm_num
  have hc : calcLl 2 true (5 / 2) (.seq [-2, 0]) = .ok (.accept (-1 / 2) (1 / 2) (6 / 5), 5 / 2) := by
    simp only [calcLl, calcLlCore, pyDiv, halfN, c1, c3, bind, Except.bind, pure, Except.pure]
    norm_num [hs']
  simp only [update, exDisc, quad2]
  norm_num [hc, pyDiv]
  ext i j; fin_cases i <;> fin_cases j <;> simp <;> norm_num

/-- The finding at work: a smaller ellipsoid contains the half disc. -/
example : ∃ F : Ell 2, F.Proper ∧
    (exDisc (5 / 2)).pts ∩ cutSet (exDisc (5 / 2)).xc (![1, 0], .seq [-2, 0]) ⊆ F.pts ∧
    volume F.pts < volume (⟨true, false, ![1 / 2, 0], !![1 / 2, 0; 0, 1], 3⟩ : Ell 2).pts := by
  refine C127_not_minimal_beyond (exDisc_proper (by norm_num)) ex_beyond ?_ ?_ (by norm_num)
  · refine ⟨le_rfl, ?_, by norm_num⟩
    refine pd_iff.2 ⟨?_, fun x hx => ?_⟩
    · ext i j; fin_cases i <;> fin_cases j <;> rfl
    · have : x ⬝ᵥ !![1 / 2, 0; 0, 1] *ᵥ x = 1 / 2 * x 0 ^ 2 + x 1 ^ 2 := by
        simp [dotProduct, mulVec, Fin.sum_univ_two]; ring
      rw [this]
      by_contra hc
      apply hx
      have h0 : x 0 = 0 := by nlinarith [sq_nonneg (x 0), sq_nonneg (x 1)]
      have h1 : x 1 = 0 := by nlinarith [sq_nonneg (x 0), sq_nonneg (x 1)]
      funext i; fin_cases i
      · exact h0
      · exact h1
  · have : √(5 / 2) < 2 := by rw [Real.sqrt_lt' (by norm_num)]; norm_num
    linarith

end Verif
