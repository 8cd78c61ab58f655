import Verif.Model.Network
import Verif.Model.NegCycleFloat
import Verif.Model.Ell1dFloat
import Verif.Model.FloatRuns

/-!
# `network_oracle` and `cycle_ratio_oracle` with rounded operations

`fl` is applied after every product, sum and difference; negation is exact.  `sum` is the built-in `sum` of Python on floats: CPython adds from
the left up to version 3.11 (`leftSum`) and compensates the rounding errors from 3.12 on, so it is a parameter.
-/
namespace Verif
variable {V α X Γ : Type _}

/-- `sum(l)`, added from the left starting with 0. -/
def leftSum [Add α] [Zero α] (fl : α → α) (l : List α) : α := l.foldl (fun a b => fl (a + b)) 0

/-- `network_oracle.__call__`, `network_oracle.py:39-64`. -/
def networkCallF [Neg Γ] [Neg α] (sum : List α → α) (gsum : List Γ → Γ) (find : Finder V α)
    (eval : V × V → X → α) (grad : V × V → X → Γ) (x : X) (u : V → α) :
    Except PyErr ((V → α) × Option (Γ × α)) :=
  match find u (fun e => eval e x) with                                 -- 49-60
  | .error e => .error e
  | .ok (u', none) => .ok (u', none)                                    -- 64
  | .ok (u', some c) =>
    let f := -sum (c.map fun e => eval e x)                             -- 61
    let g := -gsum (c.map fun e => grad e x)                            -- 62
    .ok (u', some (g, f))                                               -- 63

/-- The finder of the repository (`neg_cycle.tpy`) with a computed addition; see `repoFinder`. -/
def repoFinderF [DecidableEq V] [LinearOrder α] (add : α → α → α) (G : Graph V) : Finder V α := fun d w =>
  match findNegCycleF add G w (max G.nodes.length 1) d with
  | none => .error .oracle
  | some (_, .error e) => .error e
  | some (d', .ok []) => .ok (d', none)
  | some (d', .ok (e :: c)) => .ok (d', some (e :: c))

variable [CommRing α] [LinearOrder α]

/-- `ratio.eval`, `cycle_ratio_oracle.py:35-48`. -/
def ratioEvalF (fl : α → α) (cost time : V × V → α) (e : V × V) (x : α) : α := fl (cost e - fl (time e * x))

/-- `cycle_ratio_oracle.__call__`, the part after the test on `t`, `cycle_ratio_oracle.py:89-93`. -/
def ratioNetF (fl : α → α) (sum : List α → α) (find : Finder V α) (cost time : V × V → α) (x : α) (u : V → α) :
    Except PyErr ((V → α) × (α × α) × Option (WithBot α)) :=
  match networkCallF sum sum find (ratioEvalF fl cost time) (ratioGrad time) x u with      -- 89
  | .error e => .error e
  | .ok (u', some cut) => .ok (u', cut, none)                           -- 90-91
  | .ok (u', none) => .ok (u', (-1, 0), some (x : WithBot α))           -- 93

/-- `cycle_ratio_oracle.__call__`, `cycle_ratio_oracle.py:72-93`.  `t` may be `float("-inf")` (`⊥`). -/
def cycleRatioCallF (fl : α → α) (sum : List α → α) (find : Finder V α) (cost time : V × V → α) (x : α) (t : WithBot α) (u : V → α) :
    Except PyErr ((V → α) × (α × α) × Option (WithBot α)) :=
  match t with
  | ⊥ => ratioNetF fl sum find cost time x u
  | WithBot.some t =>
    let fj := fl (t - x)                                                -- 85
    if 0 ≤ fj then .ok (u, (-1, fj), none) else ratioNetF fl sum find cost time x u  -- 86-87

end Verif
