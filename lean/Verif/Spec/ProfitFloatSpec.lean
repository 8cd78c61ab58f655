import Mathlib.Analysis.SpecialFunctions.Log.Basic
import Mathlib.LinearAlgebra.Matrix.DotProduct
import Mathlib.Data.Fin.VecNotation
import Verif.Spec.ProfitRoom

/-! # Accuracy of the computed logarithm and exponential, and of the answers of the profit oracles -/
namespace Verif
open Matrix

/-- The computed logarithm has the relative error `ζ`. -/
def LogErr (ζ : ℝ) (ln : ℝ → ℝ) : Prop := ∀ x, 0 < x → |ln x - Real.log x| ≤ ζ * |Real.log x|

/-- The computed exponential has the relative error `ζ`. -/
def ExpErr (ζ : ℝ) (ex : ℝ → ℝ) : Prop := ∀ x, |ex x - Real.exp x| ≤ ζ * Real.exp x

/-- Uncertainty of the elasticities. -/
def Unc.elas (e : Unc) : Fin 2 → ℝ := ![e.e1, e.e2]

/-- The largest cost, within the uncertainty, of the logarithmic quantities `y`. -/
noncomputable def Unc.cost (e : Unc) (v y : Fin 2 → ℝ) : ℝ := ∑ i, (v i + e.e5) * qty y i

/-- `M` bounds the logarithms that occur at the logarithmic quantities `y`: `|y₀|`, that of the limit, of the revenue, and of the revenue `t⁺ + cost` that level `t` asks for. -/
structure ProfitSizes (e : Unc) (p A k : ℝ) (a v y : Fin 2 → ℝ) (t M : ℝ) : Prop where
  one : 1 ≤ M
  y0 : |y 0| ≤ M
  k : |Real.log (k - e.e4)| ≤ M
  cobb : |Real.log ((p - e.e3) * A)| + ∑ i, (|a i| + e.elas i) * |y i| ≤ M
  level : |Real.log (max t 0 + e.cost v y)| ≤ M

/-- What an answer `(cut, t1)` to the query `y` at level `t` is worth when the relative errors, `x` in all, are taken into account. -/
structure ProfitAnswer (e : Unc) (p A k : ℝ) (a v y : Fin 2 → ℝ) (t x : ℝ) (cut : (Fin 2 → ℝ) × ℝ) (t1 : Option ℝ) : Prop where
  /-- The cut is never shallow. -/
  deep : 0 ≤ cut.2
  /-- A value is reported only within the limit, up to a factor `exp (4x)`. -/
  limit : ∀ s, t1 = some s → ∀ k', |k' - k| ≤ e.e4 → qty y 0 ≤ k' * Real.exp (4 * x)
  /-- It is the largest profit guaranteed at `y`, up to `14x` times the sum of revenue and cost. -/
  value : ∀ s, t1 = some s → ∃ w, (∀ r, Guaranteed e p A a v (qty y) r ↔ r ≤ w) ∧ |s - w| ≤ 14 * x * (w + 2 * e.cost v y)
  /-- It may be smaller than the level, but by no more than `26x` times the revenue the level asks for. -/
  drift : ∀ s, t1 = some s → t - 26 * x * (max t 0 + e.cost v y) ≤ s
  /-- A value is reported wherever there is room of more than `20x`. -/
  hit : ∀ δ, 20 * x < δ → ProfitRoom e p A k a v (max t 0) y δ → t1.isSome
  /-- Points with room at the new level satisfy the cut, with that room up to an error in proportion to the distance. -/
  cut : ∀ z δ, ProfitRoom e p A k a v (max (t1.getD t) 0) z δ →
    cut.1 ⬝ᵥ (z - y) + cut.2 ≤ -δ + 31 * x * (1 + ∑ i, (1 + (|a i| + e.elas i)) * |z i - y i|)

/-- What the user wants of a reported pair `(y, s)`: the quantities are within the limit and `s` is the largest profit guaranteed there, up to `ν`. -/
def ProfitFound (e : Unc) (p A k : ℝ) (a v : Fin 2 → ℝ) (ν : ℝ) (y : Fin 2 → ℝ) (s : ℝ) : Prop :=
  (∀ k', |k' - k| ≤ e.e4 → qty y 0 ≤ k' * Real.exp ν) ∧ ∃ w, (∀ r, Guaranteed e p A a v (qty y) r ↔ r ≤ w) ∧ |s - w| ≤ ν

end Verif
