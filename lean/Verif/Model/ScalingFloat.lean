import Verif.Model.NetworkFloat

/-!
# `optscaling_oracle` with rounded operations

`fl` is applied after every sum and difference.  `sum` is the built-in `sum` of Python on floats as in `Model/NetworkFloat.lean`; on a list of arrays it adds from the left in
every version.
-/
namespace Verif
variable {V α : Type _} [CommRing α] [LinearOrder α]

/-- `sum` on a list of arrays, `network_oracle.py:62`. -/
def gradSumF (fl : α → α) (l : List (Fin 2 → α)) : Fin 2 → α := fun i => leftSum fl (l.map fun a => a i)

variable [LinearOrder V]

/-- `Ratio.eval`, `optscaling_oracle.py:34-47` (the assertion is in `scaleNetF`). -/
def scaleEvalF (fl : α → α) (cost : V × V → α) (e : V × V) (x : Fin 2 → α) : α :=
  if e.1 < e.2 then fl (x 0 - cost e) else fl (cost e - x 1)

/-- `optscaling_oracle.__call__`, the part after the test on `t`, `optscaling_oracle.py:90-94`; see `scaleNet`. -/
def scaleNetF (fl : α → α) (sum : List α → α) (find : Finder V α) (edges : List (V × V)) (cost : V × V → α) (x : Fin 2 → α) (u : V → α) :
    Except PyErr ((V → α) × ((Fin 2 → α) × α) × Option (WithTop α)) :=
  if edges.any (fun e => e.1 = e.2) then .error .assertion else         -- 46
  match networkCallF sum (gradSumF fl) find (scaleEvalF fl cost) scaleGrad x u with  -- 90
  | .error e => .error e
  | .ok (u', some cut) => .ok (u', cut, none)                           -- 91-92
  | .ok (u', none) => .ok (u', (![1, -1], 0), some ((fl (x 0 - x 1) : α) : WithTop α))  -- 94

/-- `optscaling_oracle.__call__`, `optscaling_oracle.py:71-94`; `edges` are the edges of `self._G`.  `t` may be `float("inf")` (`⊤`). -/
def optscalingCallF (fl : α → α) (sum : List α → α) (find : Finder V α) (edges : List (V × V)) (cost : V × V → α) (x : Fin 2 → α)
    (t : WithTop α) (u : V → α) : Except PyErr ((V → α) × ((Fin 2 → α) × α) × Option (WithTop α)) :=
  let s := fl (x 0 - x 1)                                               -- 84
  let g : Fin 2 → α := ![1, -1]                                         -- 86
  match t with
  | ⊤ => scaleNetF fl sum find edges cost x u
  | WithTop.some t =>
    let fj := fl (s - t)                                                -- 85
    if 0 ≤ fj then .ok (u, (g, fj), none) else scaleNetF fl sum find edges cost x u  -- 87-88

end Verif
