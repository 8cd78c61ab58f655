import Verif.Spec.ProfitSpec

/-! # Room of a point in the (robust) profit problem -/
namespace Verif

/-- The (logarithms of the) quantities `z` respect every limit within the uncertainty by a factor `e^δ`, and for all data within the
uncertainty the revenue exceeds `t +` cost by a factor `e^δ`. -/
def ProfitRoom (e : Unc) (p A k : ℝ) (a v : Fin 2 → ℝ) (t : ℝ) (z : Fin 2 → ℝ) (δ : ℝ) : Prop :=
  (∀ k', |k' - k| ≤ e.e4 → qty z 0 * Real.exp δ ≤ k') ∧
  ∀ p' a' v', e.Within p a v p' a' v' →
    (t + (v' 0 * qty z 0 + v' 1 * qty z 1)) * Real.exp δ ≤ p' * (A * qty z 0 ^ a' 0 * qty z 1 ^ a' 1)

/-- `z` respects every limit within the uncertainty and `s` is the largest profit guaranteed there. -/
def ProfitHit (e : Unc) (p A k : ℝ) (a v : Fin 2 → ℝ) (z : Fin 2 → ℝ) (s : ℝ) : Prop :=
  (∀ k', |k' - k| ≤ e.e4 → qty z 0 ≤ k') ∧ Guaranteed e p A a v (qty z) s ∧ ∀ s', Guaranteed e p A a v (qty z) s' → s' ≤ s

/-- No uncertainty. -/
def Unc.none : Unc := ⟨0, 0, 0, 0, 0⟩

end Verif
