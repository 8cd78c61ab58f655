import Mathlib.Logic.Function.Basic
import Mathlib.Algebra.Order.Ring.Defs
import Verif.Model.Py

/-!
# `negCycleFinder`, `src/ellpy/oracles/neg_cycle.tpy`

A graph is its list of nodes (`for v in self.G`) and its list of edges (`self.G.edges()`), in iteration
order.  `dist` is a total function on the nodes; `pred`, `visited` are dictionaries (`Option`).
`get_weight` is a function of the edge (`network_oracle` evaluates it at a fixed `x`).
Each `while True` carries an explicit number of rounds; the outer `none` means "not finished within
that many rounds" (that this never happens is a theorem).
-/
namespace Verif

variable {V α : Type _} [DecidableEq V] [CommRing α] [LinearOrder α]

/-- A directed graph as iterated by the finder. -/
structure Graph (V : Type _) where
  nodes : List V
  edges : List (V × V)

/-- `dist` and `self.pred`. -/
structure NcSt (V α : Type _) where
  dist : V → α
  pred : V → Option V

/-- Body of the loop in `_relax`, `neg_cycle.tpy:101-108`. -/
def relaxEdge (w : V × V → α) (s : NcSt V α × Bool) (e : V × V) : NcSt V α × Bool :=
  let d := s.1.dist e.1 + w e
  if d < s.1.dist e.2 then
    (⟨Function.update s.1.dist e.2 d, Function.update s.1.pred e.2 (some e.1)⟩, true)
  else s

/-- `_relax`, `neg_cycle.tpy:86-109`. -/
def relax (G : Graph V) (w : V × V → α) (s : NcSt V α) : NcSt V α × Bool :=
  G.edges.foldl (relaxEdge w) (s, false)

/-- The inner `while True` of `_find_cycle`, `neg_cycle.tpy:72-83`, at node `u`, started from `v`. -/
def walkPred (pred : V → Option V) (v : V) :
    ℕ → (V → Option V) → V → Option ((V → Option V) × Option V)
  | 0, _, _ => none
  | n + 1, visited, u =>
    let visited := Function.update visited u (some v)                   -- 73
    match pred u with
    | none => some (visited, none)                                      -- 74-75
    | some u' =>                                                        -- 76
      match visited u' with
      | some l => if l = v then some (visited, some u') else some (visited, none)   -- 79-83
      | none => walkPred pred v n visited u'

/-- The outer loop of `_find_cycle`, `neg_cycle.tpy:68-84`. -/
def findCycleLoop (pred : V → Option V) (fuel : ℕ) :
    List V → (V → Option V) → Option (Option V)
  | [], _ => some none                                                  -- 84
  | v :: vs, visited =>
    if (visited v).isSome then findCycleLoop pred fuel vs visited       -- 69-70
    else match walkPred pred v fuel visited v with                      -- 71-83
      | none => none
      | some (_, some u) => some (some u)
      | some (visited', none) => findCycleLoop pred fuel vs visited'

/-- `_find_cycle`, `neg_cycle.tpy:53-84`; the inner loop gets as many rounds as there are nodes. -/
def findCycle (G : Graph V) (pred : V → Option V) : Option (Option V) :=
  findCycleLoop pred G.nodes.length G.nodes fun _ => none

/-- `_cycle_list`, `neg_cycle.tpy:111-128`.  A missing key of `pred` raises `KeyError`. -/
def cycleList (pred : V → Option V) (handle : V) :
    ℕ → V → List (V × V) → Option (Except PyErr (List (V × V)))
  | 0, _, _ => none
  | n + 1, v, cycle =>
    match pred v with                                                   -- 122
    | none => some (.error .indexError)
    | some u =>
      let cycle := cycle ++ [(u, v)]                                    -- 123
      if u = handle then some (.ok cycle) else cycleList pred handle n u cycle  -- 124-128

/-- `_is_negative`, `neg_cycle.tpy:130-150`. -/
def isNegative (pred : V → Option V) (dist : V → α) (w : V × V → α) (handle : V) :
    ℕ → V → Option (Except PyErr Bool)
  | 0, _ => none
  | n + 1, v =>
    match pred v with                                                   -- 142
    | none => some (.error .indexError)
    | some u =>
      if dist u + w (u, v) < dist v then some (.ok true)                -- 143-145
      else if u = handle then some (.ok false)                          -- 146-150
      else isNegative pred dist w handle n u

/-- The loop of `find_neg_cycle`, `neg_cycle.tpy:43-50`. -/
def ncLoop (G : Graph V) (w : V × V → α) : ℕ → NcSt V α → Option (Except PyErr (NcSt V α × List (V × V)))
  | 0, _ => none
  | n + 1, s =>
    let (s', changed) := relax G w s                                    -- 43
    if changed = false then some (.ok (s', [])) else
    match findCycle G s'.pred with                                      -- 44
    | none => none
    | some none => ncLoop G w n s'
    | some (some v) =>                                                  -- 45
      match isNegative s'.pred s'.dist w v G.nodes.length v with        -- 47
      | none => none
      | some (.error e) => some (.error e)
      | some (.ok false) => some (.error .assertion)
      | some (.ok true) =>
        match cycleList s'.pred v G.nodes.length v [] with              -- 48
        | none => none
        | some (.error e) => some (.error e)
        | some (.ok c) => some (.ok (s', c))                            -- 49-50

/-- `find_neg_cycle`, `neg_cycle.tpy:31-50`: `pred` is reset, `dist` is the caller's (and is modified in
place: the final `dist` is part of the result). -/
def findNegCycle (G : Graph V) (w : V × V → α) (rounds : ℕ) (dist : V → α) :
    Option (Except PyErr ((V → α) × List (V × V))) :=
  (ncLoop G w rounds ⟨dist, fun _ => none⟩).map fun r => r.map fun p => (p.1.dist, p.2)

end Verif
