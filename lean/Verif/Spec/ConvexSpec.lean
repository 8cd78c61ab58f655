import Mathlib.Analysis.Convex.Function
import Verif.Model.Ell

/-! # Oracles for convex programs `minimise f(x) subject to h(x) ≤ 0` -/
namespace Verif
open Matrix
variable {n : ℕ} {W T : Type _}

/-- What a user's oracle has to deliver: it answers every query `(x, t)`, and with `t'` the level after the answer the
cut is a minorant of `max(h, f - t')`, nonnegative at `x`; an improved level is the objective at a feasible
query point. -/
def ConvexOracle (h f : (Fin n → ℝ) → ℝ) (Inv : W → Prop)
    (Ω : (Fin n → ℝ) → ℝ → W → Except PyErr (W × ((Fin n → ℝ) × Beta) × Option ℝ)) : Prop :=
  ∀ x t w, Inv w → ∃ w' g β t1, Ω x t w = .ok (w', (g, .scalar β), t1) ∧ Inv w' ∧ 0 ≤ β ∧
    (∀ s, t1 = some s → h x ≤ 0 ∧ f x = s ∧ s ≤ t) ∧ ∀ z, g ⬝ᵥ (z - x) + β ≤ max (h z) (f z - t1.getD t)

/-- The same for programs whose constraints are given by a predicate `Room z δ`: "`z` is feasible with room `δ`".  A
point with room `δ` that beats the new level by `δ` satisfies the cut with room `δ`.  Levels are of any type `T`; `ι` says which
number or `inf` a level stands for. -/
def RoomOracle (ι : T → WithTop ℝ) (Room : (Fin n → ℝ) → ℝ → Prop) (f : (Fin n → ℝ) → ℝ) (Inv : W → Prop)
    (Ω : (Fin n → ℝ) → T → W → Except PyErr (W × ((Fin n → ℝ) × Beta) × Option T)) : Prop :=
  ∀ x t w, Inv w → ∃ w' g β t1, Ω x t w = .ok (w', (g, .scalar β), t1) ∧ Inv w' ∧ 0 ≤ β ∧
    (∀ s, t1 = some s → Room x 0 ∧ ι s = f x ∧ ι s ≤ ι t) ∧
    ∀ z δ, 0 ≤ δ → Room z δ → ((f z + δ : ℝ) : WithTop ℝ) ≤ ι (t1.getD t) → g ⬝ᵥ (z - x) + β ≤ -δ

/-- Convexity of such a program: between a feasible point and a point with room `δ` there is proportional room, and the
objective is below the chord. -/
def RoomConvex (Room : (Fin n → ℝ) → ℝ → Prop) (f : (Fin n → ℝ) → ℝ) : Prop :=
  ∀ u v δ θ, 0 ≤ δ → 0 ≤ θ → θ ≤ 1 → Room u 0 → Room v δ → Room ((1 - θ) • u + θ • v) (θ * δ) ∧
    f ((1 - θ) • u + θ • v) ≤ (1 - θ) * f u + θ * f v

end Verif
