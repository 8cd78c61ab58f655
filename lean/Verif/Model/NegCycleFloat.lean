import Verif.Model.NegCycle

/-!
# `negCycleFinder` with a computed addition

`src/ellpy/oracles/neg_cycle.tpy` again, where `dist[u] + wt` is whatever the machine computes: `add (dist u) wt`.  The parts that do no
arithmetic (`_find_cycle`, `_cycle_list`) are those of `Verif/Model/NegCycle.lean`.
-/
namespace Verif

variable {V α : Type _} [DecidableEq V] [LinearOrder α]

/-- Body of the loop in `_relax`, `neg_cycle.tpy:101-108`. -/
def relaxEdgeF (add : α → α → α) (w : V × V → α) (s : NcSt V α × Bool) (e : V × V) : NcSt V α × Bool :=
  let d := add (s.1.dist e.1) (w e)
  if d < s.1.dist e.2 then
    (⟨Function.update s.1.dist e.2 d, Function.update s.1.pred e.2 (some e.1)⟩, true)
  else s

/-- `_relax`, `neg_cycle.tpy:86-109`. -/
def relaxF (add : α → α → α) (G : Graph V) (w : V × V → α) (s : NcSt V α) : NcSt V α × Bool :=
  G.edges.foldl (relaxEdgeF add w) (s, false)

/-- `_is_negative`, `neg_cycle.tpy:130-150`. -/
def isNegativeF (add : α → α → α) (pred : V → Option V) (dist : V → α) (w : V × V → α) (handle : V) :
    ℕ → V → Option (Except PyErr Bool)
  | 0, _ => none
  | n + 1, v =>
    match pred v with                                                   -- 142
    | none => some (.error .indexError)
    | some u =>
      if add (dist u) (w (u, v)) < dist v then some (.ok true)          -- 143-145
      else if u = handle then some (.ok false)                          -- 146-150
      else isNegativeF add pred dist w handle n u

/-- The loop of `find_neg_cycle`, `neg_cycle.tpy:43-50`.  The state in which the assertion fails is kept in the result (the caller
can see `dist`, which is modified in place, and `self.pred`). -/
def ncLoopF (add : α → α → α) (G : Graph V) (w : V × V → α) :
    ℕ → NcSt V α → Option (NcSt V α × Except PyErr (List (V × V)))
  | 0, _ => none
  | n + 1, s =>
    let (s', changed) := relaxF add G w s                               -- 43
    if changed = false then some (s', .ok []) else
    match findCycle G s'.pred with                                      -- 44
    | none => none
    | some none => ncLoopF add G w n s'
    | some (some v) =>                                                  -- 45
      match isNegativeF add s'.pred s'.dist w v G.nodes.length v with   -- 47
      | none => none
      | some (.error e) => some (s', .error e)
      | some (.ok false) => some (s', .error .assertion)
      | some (.ok true) =>
        match cycleList s'.pred v G.nodes.length v [] with              -- 48
        | none => none
        | some (.error e) => some (s', .error e)
        | some (.ok c) => some (s', .ok c)                              -- 49-50

/-- `find_neg_cycle`, `neg_cycle.tpy:31-50`: the final `dist`, and what is returned or raised. -/
def findNegCycleF (add : α → α → α) (G : Graph V) (w : V × V → α) (rounds : ℕ) (dist : V → α) :
    Option ((V → α) × Except PyErr (List (V × V))) :=
  (ncLoopF add G w rounds ⟨dist, fun _ => none⟩).map fun p => (p.1.dist, p.2)

end Verif
