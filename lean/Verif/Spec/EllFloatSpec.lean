import Verif.Spec.EllSpec

/-! # Rounding errors and conditioning for ellipsoids -/
namespace Verif
open Matrix
variable {n : ℕ}

/-- Dot products are accurate to `γ` times the sum of the absolute products; no order of summation is prescribed. -/
def VecDotErr (γ : ℝ) (dot : (Fin n → ℝ) → (Fin n → ℝ) → ℝ) : Prop :=
  ∀ x y, |dot x y - x ⬝ᵥ y| ≤ γ * ∑ i, |x i * y i|

/-- How far the form of `Q` is from that of its own diagonal: `(∑ √Qᵢᵢ |yᵢ|)² ≤ C² · y'Qy`.  For a diagonal matrix `C² = n`
does; rescaling the coordinates changes nothing. -/
def CondBound (C : ℝ) (Q : Matrix (Fin n) (Fin n) ℝ) : Prop :=
  ∀ y, (∑ i, √(Q i i) * |y i|) ^ 2 ≤ C ^ 2 * (y ⬝ᵥ Q *ᵥ y)

end Verif
