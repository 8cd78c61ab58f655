import Verif.Model.CuttingPlane
import Mathlib.Algebra.Order.Field.Basic

/-! # Model of class `ell1d`, `src/ellpy/ell.py:268-338` -/
namespace Verif

/-- Python division with the zero-division branch explicit. -/
def pyDiv {α : Type _} [Field α] [DecidableEq α] (a b : α) : Except PyErr α :=
  if b = 0 then .error .zeroDivision else .ok (a / b)

/-- `ell.py:269`, attributes `_r` and `_xc`. -/
structure Ell1d (α : Type _) where
  r : α
  xc : α
  deriving DecidableEq

namespace Ell1d
variable {α : Type _} [Field α] [LinearOrder α]

/-- `__init__`, `ell.py:271-279`. -/
def init (l u : α) : Ell1d α :=
  let r := (u - l) / 2
  ⟨r, l + r⟩

/-- `copy`, `ell.py:281-288`. -/
def copy (E : Ell1d α) : Ell1d α := init (E.xc - E.r) (E.xc + E.r)

/-- `xc` setter, `ell.py:299-306`. -/
def setXc (E : Ell1d α) (x : α) : Ell1d α := { E with xc := x }

/-- `update`, `ell.py:308-338`; the cut is `(g, beta)`; returns `(self, status, tsq)`. -/
def update (cut : α × α) (E : Ell1d α) : Except PyErr (Ell1d α × CUTStatus × α) :=
  let g := cut.1; let beta := cut.2                             -- 320
  let tau := |E.r * g|                                          -- 322
  let tsq := tau ^ 2                                            -- 323
  if beta = 0 then                                              -- 324-327
    let r := E.r / 2
    .ok (⟨r, E.xc + (if g > 0 then -r else r)⟩, .success, tsq)
  else if beta > tau then .ok (E, .nosoln, tsq)                 -- 328-329
  else if beta < -tau then .ok (E, .noeffect, tsq)              -- 330-331
  else
    match pyDiv beta g with                                     -- 333
    | .error e => .error e
    | .ok q =>
      let bound := E.xc - q
      let upper := if g > 0 then bound else E.xc + E.r          -- 334
      let lower := if g > 0 then E.xc - E.r else bound          -- 335
      let r := (upper - lower) / 2                              -- 336
      .ok (⟨r, lower + r⟩, .success, tsq)                       -- 337-338

/-- The search-space interface of an `ell1d`, next to an arbitrary oracle state `W`. -/
def space (W α : Type _) [Field α] [LinearOrder α] : Space (W × Ell1d α) α (α × α) α where
  xc w := w.2.xc
  update c w :=
    match update c w.2 with
    | .error e => .error e
    | .ok (E, st, tsq) => .ok ((w.1, E), st, tsq)

end Ell1d

/-- An oracle with its own state `W` that does not touch the search space object `E`. -/
def liftOracle {W E A : Type _} (f : W → Except PyErr (W × A)) (w : W × E) :
    Except PyErr ((W × E) × A) :=
  match f w.1 with
  | .error e => .error e
  | .ok (w', a) => .ok ((w', w.2), a)

end Verif
