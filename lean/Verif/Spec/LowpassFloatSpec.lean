import Verif.Spec.EllSpec
import Verif.Spec.LowpassSpec

/-! # The low-pass specification and its cuts up to an error -/
namespace Verif
open Matrix
variable {n p s r : ℕ}

/-- `MeetsSpec` with every bound on a row `a` loosened by `e a` (tightened when `e a` is negative). -/
structure MeetsSpecUpTo [NeZero n] (e : (Fin n → ℝ) → ℝ) (Ap : Fin p → Fin n → ℝ) (As : Fin s → Fin n → ℝ)
    (Anr : Fin r → Fin n → ℝ) (L U S : ℝ) (z : Fin n → ℝ) : Prop where
  pass : ∀ k, L - e (Ap k) ≤ Ap k ⬝ᵥ z ∧ Ap k ⬝ᵥ z ≤ U + e (Ap k)
  stop : ∀ k, -e (As k) ≤ As k ⬝ᵥ z ∧ As k ⬝ᵥ z ≤ S + e (As k)
  nonneg : ∀ k, -e (Anr k) ≤ Anr k ⬝ᵥ z
  first : 0 ≤ z 0

/-- `z` satisfies the cut `g·(z - x) + β ≤ 0` (and `0 ≤ g·(z - x) + β₁` for a parallel one) up to `e` and a relative error
`ε` in the right-hand sides. -/
def NearCut (e ε : ℝ) (x : Fin n → ℝ) (cut : (Fin n → ℝ) × Beta) (z : Fin n → ℝ) : Prop :=
  match cut.2 with
  | .scalar b => cut.1 ⬝ᵥ (z - x) + b ≤ e
  | .seq [b0, b1] => cut.1 ⬝ᵥ (z - x) + b0 ≤ e + ε * b0 ∧ -(e + ε * b1) ≤ cut.1 ⬝ᵥ (z - x) + b1
  | .seq _ => False

/-- `g` is one of the vectors that a cut of the specification may have: a row or its negative, or `-e₀`. -/
def SpecRow [NeZero n] (Ap : Fin p → Fin n → ℝ) (As : Fin s → Fin n → ℝ) (Anr : Fin r → Fin n → ℝ) (g : Fin n → ℝ) : Prop :=
  (∃ k, g = Ap k ∨ g = -Ap k) ∨ (∃ k, g = As k ∨ g = -As k) ∨ (∃ k, g = -Anr k) ∨ g = fun i => if i = 0 then -1 else 0

end Verif
