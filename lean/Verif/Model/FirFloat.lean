import Verif.Model.Fir

/-!
# The Chebyshev FIR design oracle of `tests/test_firfilter.py:54-82` in floating point

`Model/Fir.lean` again, with a rounding `fl` after every operation and `@` left open as `vdot`.  The arrays `A_R, A_I, Hdes_r, Hdes_i` are data: the numbers numpy stored.
-/
namespace Verif
variable {n m : ℕ}

namespace FirData
variable (fl : ℝ → ℝ) (vdot : (Fin n → ℝ) → (Fin n → ℝ) → ℝ) (D : FirData n m)

/-- `t_r`, `test_firfilter.py:71`. -/
def trF (h : Fin n → ℝ) (i : Fin m) : ℝ := fl (vdot (D.aR i) h - D.Hr i)

/-- `t_i`, `test_firfilter.py:72`. -/
def tiF (h : Fin n → ℝ) (i : Fin m) : ℝ := fl (vdot (D.aI i) h - D.Hi i)

/-- `fj`, `test_firfilter.py:73`; `t_r**2` is taken to be a rounded product. -/
def errF (h : Fin n → ℝ) (i : Fin m) : ℝ :=
  fl (fl (D.trF fl vdot h i * D.trF fl vdot h i) + fl (D.tiF fl vdot h i * D.tiF fl vdot h i))

/-- `2 * (t_r * a_R + t_i * a_I)`, `test_firfilter.py:75, 79`. -/
def gradF (h : Fin n → ℝ) (i : Fin m) : Fin n → ℝ := fun k =>
  fl (2 * fl (fl (D.trF fl vdot h i * D.aR i k) + fl (D.tiF fl vdot h i * D.aI i k)))

/-- The loop, `test_firfilter.py:65-80`; `best` holds `fmax` and `gmax` once they are set. -/
noncomputable def loopF (h : Fin n → ℝ) (t : ℝ) :
    Option (ℝ × (Fin n → ℝ)) → List (Fin m) → Except PyErr (((Fin n → ℝ) × Beta) × Option ℝ)
  | none, [] => .error .unboundLocal                                      -- 80: `gmax` unbound
  | some (fmax, gmax), [] => .ok ((gmax, .scalar 0), some fmax)           -- 80
  | best, i :: is =>
    let fj := D.errF fl vdot h i                                          -- 66-73
    if t ≤ fj then .ok ((D.gradF fl vdot h i, .scalar (fl (fj - t))), none)   -- 74-76
    else match best with
      | none => loopF h t (some (fj, D.gradF fl vdot h i)) is             -- 77-79 (`-inf < fj`)
      | some (fmax, gmax) =>
        if fmax < fj then loopF h t (some (fj, D.gradF fl vdot h i)) is   -- 77-79
        else loopF h t (some (fmax, gmax)) is

/-- `my_oracle.__call__`, `test_firfilter.py:55-80`. -/
noncomputable def callF (h : Fin n → ℝ) (t : ℝ) : Except PyErr (((Fin n → ℝ) × Beta) × Option ℝ) :=
  D.loopF fl vdot h t none (List.finRange m)

/-- As the `Omega` of `cutting_plane_dc`; the object has no state. -/
noncomputable def omegaF (h : Fin n → ℝ) (t : ℝ) (w : Unit) : Except PyErr (Unit × ((Fin n → ℝ) × Beta) × Option ℝ) :=
  (D.callF fl vdot h t).map fun r => (w, r)

end FirData
end Verif
