import Verif.Model.Network
import Mathlib.Algebra.Field.Defs

/-! # The graphs of `tests/test_cycle_ratio.py` -/
namespace Verif
variable {α : Type _} [Field α]

/-- `create_test_case1`, `tests/test_cycle_ratio.py:28-37`: `nx.cycle_graph(5)`, then node 5 with an edge to each of the others. -/
def cycleCase1 : Graph (Fin 6) :=
  ⟨[0, 1, 2, 3, 4, 5], [(0, 1), (1, 2), (2, 3), (3, 4), (4, 0), (5, 0), (5, 1), (5, 2), (5, 3), (5, 4)]⟩

/-- The costs, lines 65-66: 1, but 5 on the edge `(1, 2)`. -/
def cycleCost1 (e : Fin 6 × Fin 6) : α := if e = (1, 2) then 5 else 1

/-- `create_test_case_timing`, lines 40-59; `a1`, `a2`, `a3` are 0, 1, 2. -/
def cycleCase2 : Graph (Fin 3) := ⟨[0, 1, 2], [(0, 1), (0, 2), (1, 0), (1, 2), (2, 1), (2, 0)]⟩

/-- The costs, lines 84-89. -/
def cycleCost2 (e : Fin 3 × Fin 3) : α := (![![0, 7, 4], ![-1, 0, 3], ![2, 0, 0]] : Fin 3 → Fin 3 → α) e.1 e.2

/-- The times, lines 64 and 83 (`set_default(G, "time", 1)`). -/
def cycleTime {V : Type _} (_ : V × V) : α := 1

end Verif
