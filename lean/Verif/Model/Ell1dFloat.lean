import Verif.Model.Ell1d

/-! # Class `ell1d` with rounded operations, `src/ellpy/ell.py:268-338`

`fl` is applied after every product, quotient, sum and difference; `abs` and negation are exact, `tau**2` is `tau * tau` rounded. -/
namespace Verif
namespace Ell1d
variable {α : Type _} [Field α] [LinearOrder α]

/-- `__init__`, `ell.py:271-279`. -/
def initF (fl : α → α) (l u : α) : Ell1d α :=
  let r := fl (fl (u - l) / 2)                                  -- 278
  ⟨r, fl (l + r)⟩                                               -- 279

/-- `copy`, `ell.py:281-288`. -/
def copyF (fl : α → α) (E : Ell1d α) : Ell1d α := initF fl (fl (E.xc - E.r)) (fl (E.xc + E.r))

/-- `update`, `ell.py:308-338`. -/
def updateF (fl : α → α) (cut : α × α) (E : Ell1d α) : Except PyErr (Ell1d α × CUTStatus × α) :=
  let g := cut.1; let beta := cut.2                             -- 320
  let tau := |fl (E.r * g)|                                     -- 322
  let tsq := fl (tau * tau)                                     -- 323
  if beta = 0 then                                              -- 324-327
    let r := fl (E.r / 2)
    .ok (⟨r, fl (E.xc + (if g > 0 then -r else r))⟩, .success, tsq)
  else if beta > tau then .ok (E, .nosoln, tsq)                 -- 328-329
  else if beta < -tau then .ok (E, .noeffect, tsq)              -- 330-331
  else
    match pyDiv beta g with                                     -- 333
    | .error e => .error e
    | .ok q =>
      let bound := fl (E.xc - fl q)
      let upper := if g > 0 then bound else fl (E.xc + E.r)     -- 334
      let lower := if g > 0 then fl (E.xc - E.r) else bound     -- 335
      let r := fl (fl (upper - lower) / 2)                      -- 336
      .ok (⟨r, fl (lower + r)⟩, .success, tsq)                  -- 337-338

/-- The rounded `ell1d` as a search space of the drivers. -/
def spaceF (fl : α → α) : Space (Ell1d α) α (α × α) α where
  xc E := E.xc
  update := updateF fl

end Ell1d
end Verif
