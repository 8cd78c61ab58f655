import Mathlib.Algebra.BigOperators.Group.List.Basic
import Mathlib.Data.List.OfFn
import Mathlib.Algebra.Ring.Defs

/-! # `inverse_spectral_fact` (`spectral_fact.py:62-75`) -/
namespace Verif
variable {α : Type _} {n : ℕ}

/-- `h[t:] @ h[: n - t]` of `spectral_fact.py:74` for a list `h`. -/
def lagDot [Mul α] [AddMonoid α] (h : List α) (t : ℕ) : α :=
  (List.zipWith (· * ·) (h.drop t) (h.take (h.length - t))).sum

/-- `inverse_spectral_fact`, `spectral_fact.py:62-75`. -/
def inverseSpectralFact [Mul α] [AddMonoid α] (h : Fin n → α) : Fin n → α := fun t => lagDot (List.ofFn h) t

end Verif
