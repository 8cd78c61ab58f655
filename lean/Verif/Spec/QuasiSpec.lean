import Mathlib.Analysis.SpecialFunctions.Log.Basic
import Mathlib.Analysis.Real.Sqrt
import Verif.Model.Ell

/-! # Oracles for quasi-convex programs -/
namespace Verif
open Matrix
variable {n : ℕ} {W T : Type _}

/-- The contract of an oracle for a program whose level sets are convex.  `Room t z δ`: "`z` is feasible and at least as good as
level `t`, with room `δ`".  `Lvl` says which levels occur.  The oracle answers every query; the cut has room `δ` at every
point that has room `δ` at the new level; an improved level is attained at the query point (`Hit`), occurs, and is better than
the old one. -/
def QuasiOracle (Lvl : T → Prop) (Room : T → (Fin n → ℝ) → ℝ → Prop) (Hit : (Fin n → ℝ) → T → Prop) (Inv : W → Prop)
    (Ω : (Fin n → ℝ) → T → W → Except PyErr (W × ((Fin n → ℝ) × Beta) × Option T)) : Prop :=
  ∀ x t w, Inv w → Lvl t → ∃ w' g β t1, Ω x t w = .ok (w', (g, .scalar β), t1) ∧ Inv w' ∧ 0 ≤ β ∧
    (∀ s, t1 = some s → Lvl s ∧ Hit x s ∧ ∀ z δ, 0 ≤ δ → Room s z δ → Room t z δ) ∧
    ∀ z δ, 0 ≤ δ → Room (t1.getD t) z δ → g ⬝ᵥ (z - x) + β ≤ -δ

/-- The program of `tests/test_quasicvx.py` and `test_quasicvx2.py`: maximise `√x / y` subject to `exp(x) ≤ y`, `x ≥ 0`. -/
noncomputable def quasiValue (x y : ℝ) : ℝ := √x / y

def quasiFeasible (x y : ℝ) : Prop := Real.exp x ≤ y ∧ 0 ≤ x

/-- Its optimal value `1/√(2e)`. -/
noncomputable def quasiOpt : ℝ := √(1 / 2) * Real.exp (-(1 / 2))

end Verif
