import Verif.Model.EllFloat
import Verif.Model.QmiFloat
import Verif.Model.CuttingPlane
import Verif.Model.Ell1d

/-!
# Whole runs in floating point

The drivers of `src/ellpy/cutting_plane.py` do arithmetic on nothing but the iteration counter and compare floats, so the
model of the drivers is also the model of the drivers in floating point.  Here the rounded search space (`Ell.updateF`) and
the rounded oracles (`lmiCallF`, `lmi0CallF`, `lsqCallF`) are put in the form the drivers call.
-/
namespace Verif
variable {n : ℕ}

/-- A search space object next to an oracle object of type `W`: two objects of a program that share no array. -/
def Space.beside {V X C α : Type _} (W : Type _) (S : Space V X C α) : Space (W × V) X C α where
  xc w := S.xc w.2
  update c w :=
    match S.update c w.2 with
    | .error e => .error e
    | .ok (v, st, tsq) => .ok ((w.1, v), st, tsq)

/-- An `ell` whose `update` rounds after every operation, `ell.py:105-147`. -/
noncomputable def Ell.spaceF (fl : ℝ → ℝ) (vdot : (Fin n → ℝ) → (Fin n → ℝ) → ℝ) :
    Space (Ell n) (Fin n → ℝ) ((Fin n → ℝ) × Beta) ℝ where
  xc E := E.xc
  update := Ell.updateF fl vdot

/-- The answer `(g, ep)` or `None` of an oracle called by `cutting_plane_feas`, `cutting_plane.py:63`; `conv` is how the search
space reads a cut. -/
def feasAnswer {W G C : Type _} (conv : G → C) (r : Except PyErr (W × Option G)) : Except PyErr (W × Option C) :=
  r.map fun r => (r.1, r.2.map conv)

/-- The answer `cut, t1` of an oracle called by `cutting_plane_dc`, `cutting_plane.py:100`. -/
def dcAnswer {W G C T : Type _} (conv : G → C) (r : Except PyErr (W × G × Option T)) : Except PyErr (W × C × Option T) :=
  r.map fun r => (r.1, conv r.2.1, r.2.2)

end Verif
