import Mathlib.Analysis.SpecialFunctions.Trigonometric.Basic
import Verif.Model.Ell
import Verif.Model.LowpassCase

/-!
# The Chebyshev FIR design oracle of `tests/test_firfilter.py:54-82`

The matrices are data; `m` rows.
-/
namespace Verif
open Matrix
variable {n m : ℕ}

/-- `A_R, A_I, Hdes_r, Hdes_i`, `test_firfilter.py:38-50`. -/
structure FirData (n m : ℕ) where
  aR : Fin m → Fin n → ℝ
  aI : Fin m → Fin n → ℝ
  Hr : Fin m → ℝ
  Hi : Fin m → ℝ

namespace FirData
variable (D : FirData n m)

/-- `fj`, `test_firfilter.py:71-73`. -/
noncomputable def err (h : Fin n → ℝ) (i : Fin m) : ℝ := (D.aR i ⬝ᵥ h - D.Hr i) ^ 2 + (D.aI i ⬝ᵥ h - D.Hi i) ^ 2

/-- `2 * (t_r * a_R + t_i * a_I)`, `test_firfilter.py:75, 79`. -/
noncomputable def grad (h : Fin n → ℝ) (i : Fin m) : Fin n → ℝ :=
  (2 : ℝ) • ((D.aR i ⬝ᵥ h - D.Hr i) • D.aR i + (D.aI i ⬝ᵥ h - D.Hi i) • D.aI i)

/-- The loop, `test_firfilter.py:65-80`; `best` holds `fmax` and `gmax` once they are set. -/
noncomputable def loop (h : Fin n → ℝ) (t : ℝ) :
    Option (ℝ × (Fin n → ℝ)) → List (Fin m) → Except PyErr (((Fin n → ℝ) × Beta) × Option ℝ)
  | none, [] => .error .unboundLocal                                      -- 80: `gmax` unbound
  | some (fmax, gmax), [] => .ok ((gmax, .scalar 0), some fmax)           -- 80
  | best, i :: is =>
    let fj := D.err h i                                                   -- 66-73
    if t ≤ fj then .ok ((D.grad h i, .scalar (fj - t)), none)             -- 74-76
    else match best with
      | none => loop h t (some (fj, D.grad h i)) is                       -- 77-79 (`-inf < fj`)
      | some (fmax, gmax) =>
        if fmax < fj then loop h t (some (fj, D.grad h i)) is             -- 77-79
        else loop h t (some (fmax, gmax)) is

/-- `my_oracle.__call__`, `test_firfilter.py:55-80`. -/
noncomputable def call (h : Fin n → ℝ) (t : ℝ) : Except PyErr (((Fin n → ℝ) × Beta) × Option ℝ) :=
  D.loop h t none (List.finRange m)

/-- As the `Omega` of `cutting_plane_dc`; the object has no state. -/
noncomputable def omega (h : Fin n → ℝ) (t : ℝ) (w : Unit) : Except PyErr (Unit × ((Fin n → ℝ) × Beta) × Option ℝ) :=
  (D.call h t).map fun r => (w, r)

end FirData

/-- The data of `test_firfilter.py:18-50` for a desired response `Hdes`: `w = np.linspace(0, np.pi, m)` and
`A = np.exp(-1j * np.outer(w, np.arange(n)))`, split into real and imaginary parts. -/
noncomputable def firData (n m : ℕ) (Hdes : Fin m → ℂ) : FirData n m where
  aR i k := (Complex.exp (-Complex.I * (freq m i * (k.val : ℝ) : ℝ))).re      -- 38, 49
  aI i k := (Complex.exp (-Complex.I * (freq m i * (k.val : ℝ) : ℝ))).im      -- 38, 50
  Hr i := (Hdes i).re                                                         -- 45
  Hi i := (Hdes i).im                                                         -- 46

end Verif
