import Mathlib.Data.Real.Basic
import Mathlib.Data.Fin.Tuple.Basic
import Mathlib.Order.WithBot
import Mathlib.LinearAlgebra.Matrix.DotProduct
import Verif.Spec.PdSpec

/-!
# What a rounded answer of the least-squares problem means

`min t` subject to `Σ x_q F_q ⪰ 0` and `t·I - F(x)'F(x) ⪰ 0`, `F(x) = F0 - Σ x_q F_q`; the last entry of the point is `t`.
-/
namespace Verif
open Finset Matrix

/-- Both matrix inequalities hold at `x` up to `ν`. -/
structure LsqFound {k : ℕ} (F : Fin k → ℕ → ℕ → ℝ) (F0 : ℕ → ℕ → ℝ) (m : ℕ) (ν : ℝ) (x : Fin (k + 1) → ℝ) : Prop where
  psd : AtLeast (-ν) (combo F (Fin.init x)) m
  fit : AtLeast (-ν) (tiMinusGram m (x (Fin.last k)) (pencil F F0 (Fin.init x))) m

/-- An answer `(cut, t1)` of the oracle at `x` with level `t`, up to `ν`: the cut is central or deep; a point that satisfies both inequalities with the margin `μ ≥ ν` and is better than the
new level by `μ` is kept, with room `μ - ν`; a new level is the last entry of `x`, no worse than the old one, and the inequalities hold at `x` up to `ν`. -/
structure LsqAnswer {k : ℕ} (F : Fin k → ℕ → ℕ → ℝ) (F0 : ℕ → ℕ → ℝ) (m : ℕ) (R ν : ℝ) (x : Fin (k + 1) → ℝ) (t : WithTop ℝ) (cut : (Fin (k + 1) → ℝ) × ℝ) (t1 : Option (WithTop ℝ)) : Prop where
  deep : 0 ≤ cut.2
  keeps : ∀ (z : Fin (k + 1) → ℝ) μ, (∀ q, |z q| ≤ R) → ν ≤ μ → AtLeast μ (combo F (Fin.init z)) m → AtLeast μ (tiMinusGram m (z (Fin.last k)) (pencil F F0 (Fin.init z))) m →
    ((z (Fin.last k) + μ : ℝ) : WithTop ℝ) ≤ t1.getD t → cut.1 ⬝ᵥ (z - x) + cut.2 ≤ -(μ - ν)
  found : ∀ s, t1 = some s → s = ((x (Fin.last k) : ℝ) : WithTop ℝ) ∧ s ≤ t ∧ LsqFound F F0 m ν x

/-- The sum of the absolute values of all entries. -/
def entrySum {k : ℕ} (F : Fin k → ℕ → ℕ → ℝ) (F0 : ℕ → ℕ → ℝ) (m : ℕ) : ℝ := ∑ i ∈ range m, ∑ j ∈ range m, (|F0 i j| + ∑ q, |F q i j|)

/-- A bound of the numbers that occur when all parameters are at most `R`. -/
def lsqSize {k : ℕ} (F : Fin k → ℕ → ℕ → ℝ) (F0 : ℕ → ℕ → ℝ) (m : ℕ) (R : ℝ) : ℝ :=
  R + entrySum F F0 m * (1 + R) + m * (entrySum F F0 m * (1 + R)) ^ 2

/-- The error of one answer: relative errors `u` of an operation, `γ` of a dot product, `δ` of an entry of the matrix, `ζ` of an entry of the gradient. -/
def lsqUnit {k : ℕ} (F : Fin k → ℕ → ℕ → ℝ) (F0 : ℕ → ℕ → ℝ) (m : ℕ) (R u γ δ ζ : ℝ) : ℝ :=
  (26 * (3 * u + 2 * γ) + 2 * δ + 4 * ζ + 6 * γ + 2 * u) * ((m + 1) * lsqSize F F0 m R)

end Verif
