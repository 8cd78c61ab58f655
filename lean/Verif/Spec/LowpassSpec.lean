import Mathlib.Data.Real.Basic
import Mathlib.LinearAlgebra.Matrix.DotProduct
import Mathlib.Data.List.Perm.Basic

/-! # Low-pass filter specification on autocorrelation coefficients -/
namespace Verif
open Matrix
variable {n p s r : ℕ}

/-- `z` meets the design specification with stopband level `S`: passband rows within `[L, U]`, stopband
rows within `[0, S]`, the other rows nonnegative, and `z[0] ≥ 0`. -/
structure MeetsSpec [NeZero n] (Ap : Fin p → Fin n → ℝ) (As : Fin s → Fin n → ℝ) (Anr : Fin r → Fin n → ℝ)
    (L U S : ℝ) (z : Fin n → ℝ) : Prop where
  pass : ∀ k, L ≤ Ap k ⬝ᵥ z ∧ Ap k ⬝ᵥ z ≤ U
  stop : ∀ k, 0 ≤ As k ⬝ᵥ z ∧ As k ⬝ᵥ z ≤ S
  nonneg : ∀ k, 0 ≤ Anr k ⬝ᵥ z
  first : 0 ≤ z 0

/-- `z` meets the specification with room `δ` to every bound. -/
structure MeetsSpecBy [NeZero n] (Ap : Fin p → Fin n → ℝ) (As : Fin s → Fin n → ℝ) (Anr : Fin r → Fin n → ℝ)
    (L U S δ : ℝ) (z : Fin n → ℝ) : Prop where
  pass : ∀ k, L + δ ≤ Ap k ⬝ᵥ z ∧ Ap k ⬝ᵥ z ≤ U - δ
  stop : ∀ k, δ ≤ As k ⬝ᵥ z ∧ As k ⬝ᵥ z ≤ S - δ
  nonneg : ∀ k, δ ≤ Anr k ⬝ᵥ z
  first : δ ≤ z 0

/-- `k` is the first element of `ks` that is not `ok`. -/
def FirstBad (ok : ℕ → Prop) (ks : List ℕ) (k : ℕ) : Prop :=
  ∃ pre post, ks = pre ++ k :: post ∧ (∀ j ∈ pre, ok j) ∧ ¬ ok k

end Verif
