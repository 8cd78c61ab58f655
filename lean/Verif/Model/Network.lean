import Mathlib.Algebra.BigOperators.Group.List.Basic
import Mathlib.Algebra.Order.WithTop.Untop0
import Mathlib.Data.Fin.VecNotation
import Verif.Model.NegCycle

/-!
# `network_oracle`, `cycle_ratio_oracle`, `optscaling_oracle`

The cycle finder of `network_oracle` is the external `netoptim.negCycleFinder`, whose
`find_neg_cycle(u, get_weight)` is a generator of cycles that updates `u` in place; the oracle uses only
the first cycle it yields.  The model takes that as a parameter `find`: new `u`, and the first cycle, if
any.  `repoFinder` builds such a `find` from the copy in this repository (`neg_cycle.tpy`).
-/
namespace Verif

variable {V α X Γ : Type _}

/-- First result of `find_neg_cycle(u, get_weight)`. -/
abbrev Finder (V α : Type _) := (V → α) → (V × V → α) → Except PyErr ((V → α) × Option (List (V × V)))

/-- `network_oracle.__call__`, `network_oracle.py:39-64`.  The state is the list `self._u`. -/
def networkCall [Neg Γ] [Add Γ] [Zero Γ] [Neg α] [Add α] [Zero α] (find : Finder V α)
    (eval : V × V → X → α) (grad : V × V → X → Γ) (x : X) (u : V → α) :
    Except PyErr ((V → α) × Option (Γ × α)) :=
  match find u (fun e => eval e x) with                                 -- 49-60
  | .error e => .error e
  | .ok (u', none) => .ok (u', none)                                    -- 64
  | .ok (u', some c) =>
    let f := -(c.map fun e => eval e x).sum                             -- 61
    let g := -(c.map fun e => grad e x).sum                             -- 62
    .ok (u', some (g, f))                                               -- 63

/-- The repository's finder as a generator of at most one cycle.  `G.nodes.length` passes (at least one)
are enough (`C67_neg_cycle`); running out of them stands for an endless loop. -/
def repoFinder [DecidableEq V] [CommRing α] [LinearOrder α] (G : Graph V) : Finder V α := fun d w =>
  match findNegCycle G w (max G.nodes.length 1) d with
  | none => .error .oracle
  | some (.error e) => .error e
  | some (.ok (d', [])) => .ok (d', none)
  | some (.ok (d', e :: c)) => .ok (d', some (e :: c))

section
variable [CommRing α] [LinearOrder α]

/-- `ratio.eval`, `cycle_ratio_oracle.py:35-48`. -/
def ratioEval (cost time : V × V → α) (e : V × V) (x : α) : α := cost e - time e * x

/-- `ratio.grad`, `cycle_ratio_oracle.py:50-62`. -/
def ratioGrad (time : V × V → α) (e : V × V) (_x : α) : α := -time e

/-- `cycle_ratio_oracle.__call__`, the part after the test on `t`, `cycle_ratio_oracle.py:89-93`. -/
def ratioNet (find : Finder V α) (cost time : V × V → α) (x : α) (u : V → α) :
    Except PyErr ((V → α) × (α × α) × Option (WithBot α)) :=
  match networkCall find (ratioEval cost time) (ratioGrad time) x u with      -- 89
  | .error e => .error e
  | .ok (u', some cut) => .ok (u', cut, none)                           -- 90-91
  | .ok (u', none) => .ok (u', (-1, 0), some (x : WithBot α))           -- 93

/-- `cycle_ratio_oracle.__call__`, `cycle_ratio_oracle.py:72-93`.  `t` may be `float("-inf")` (`⊥`), for
which `t - x >= 0` is false. -/
def cycleRatioCall (find : Finder V α) (cost time : V × V → α) (x : α) (t : WithBot α) (u : V → α) :
    Except PyErr ((V → α) × (α × α) × Option (WithBot α)) :=
  match t with
  | ⊥ => ratioNet find cost time x u
  | WithBot.some t =>
    let fj := t - x                                                     -- 85
    if 0 ≤ fj then .ok (u, (-1, fj), none) else ratioNet find cost time x u  -- 86-87

variable [LinearOrder V]

/-- `Ratio.eval`, `optscaling_oracle.py:34-47` (the assertion is in `optscalingCall`). -/
def scaleEval (cost : V × V → α) (e : V × V) (x : Fin 2 → α) : α :=
  if e.1 < e.2 then x 0 - cost e else cost e - x 1

/-- `Ratio.grad`, `optscaling_oracle.py:49-61`. -/
def scaleGrad (e : V × V) (_x : Fin 2 → α) : Fin 2 → α :=
  if e.1 < e.2 then ![1, 0] else ![0, -1]

/-- `optscaling_oracle.__call__`, the part after the test on `t`, `optscaling_oracle.py:90-94`.  The finder
evaluates the weight of every edge, so the assertion `u != v` in `Ratio.eval` fails exactly when there is a
self-loop. -/
def scaleNet (find : Finder V α) (edges : List (V × V)) (cost : V × V → α) (x : Fin 2 → α) (u : V → α) :
    Except PyErr ((V → α) × ((Fin 2 → α) × α) × Option (WithTop α)) :=
  if edges.any (fun e => e.1 = e.2) then .error .assertion else         -- 46
  match networkCall find (scaleEval cost) scaleGrad x u with            -- 90
  | .error e => .error e
  | .ok (u', some cut) => .ok (u', cut, none)                           -- 91-92
  | .ok (u', none) => .ok (u', (![1, -1], 0), some ((x 0 - x 1 : α) : WithTop α))  -- 94

/-- `optscaling_oracle.__call__`, `optscaling_oracle.py:71-94`; `edges` are the edges of `self._G`.
`t` may be `float("inf")` (`⊤`), for which `s - t >= 0` is false. -/
def optscalingCall (find : Finder V α) (edges : List (V × V)) (cost : V × V → α) (x : Fin 2 → α)
    (t : WithTop α) (u : V → α) : Except PyErr ((V → α) × ((Fin 2 → α) × α) × Option (WithTop α)) :=
  let s := x 0 - x 1                                                    -- 84
  let g : Fin 2 → α := ![1, -1]                                         -- 86
  match t with
  | ⊤ => scaleNet find edges cost x u
  | WithTop.some t =>
    let fj := s - t                                                     -- 85
    if 0 ≤ fj then .ok (u, (g, fj), none) else scaleNet find edges cost x u  -- 87-88

end
end Verif
