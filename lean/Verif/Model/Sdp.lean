import Verif.Model.MatOracle
import Verif.Model.Ell
import Mathlib.Data.Real.Basic
import Mathlib.Order.WithBot

/-!
# The semidefinite program of `tests/test_lmi.py`

The class `my_oracle` with arbitrary data: two LMI oracles and a linear objective.  Its state is that of the two factorisers.
`T = WithTop ℝ`; `⊤` is `float("inf")`.
-/
namespace Verif
variable {k : ℕ}

/-- What `self.lmi1(x)` and `self.lmi2(x)` are: calls of `lmi_oracle` or of `lmi_old_oracle`. -/
abbrev LmiCall (k : ℕ) := (Fin k → ℝ) → CholExt ℝ → Except PyErr (CholExt ℝ × Option ((Fin k → ℝ) × ℝ))

/-- `my_oracle.__call__`, `tests/test_lmi.py:45-68`. -/
noncomputable def sdpCall (l1 l2 : LmiCall k) (c : Fin k → ℝ) (x : Fin k → ℝ) (t : WithTop ℝ) (Q : CholExt ℝ × CholExt ℝ) :
    Except PyErr ((CholExt ℝ × CholExt ℝ) × ((Fin k → ℝ) × Beta) × Option (WithTop ℝ)) :=
  match l1 x Q.1 with                                                   -- 55
  | .error e => .error e
  | .ok (Q1, some cut) => .ok ((Q1, Q.2), (cut.1, .scalar cut.2), none) -- 56-57
  | .ok (Q1, none) =>
    match l2 x Q.2 with                                                 -- 59
    | .error e => .error e
    | .ok (Q2, some cut) => .ok ((Q1, Q2), (cut.1, .scalar cut.2), none)  -- 60-61
    | .ok (Q2, none) =>
      let f0 := ∑ q, c q * x q                                          -- 63
      match t with                                                      -- 64-67: `fj = f0 - t`
      | ⊤ => .ok ((Q1, Q2), (c, .scalar 0), some (f0 : ℝ))
      | (t : ℝ) =>
        if 0 < f0 - t then .ok ((Q1, Q2), (c, .scalar (f0 - t)), none)
        else .ok ((Q1, Q2), (c, .scalar 0), some (f0 : ℝ))

/-- The data, `tests/test_lmi.py:25-43`. -/
def sdpC : Fin 3 → ℝ := ![1, -1, 1]

/-- `F1`, lines 26-32. -/
def sdpF1 (q : Fin 3) (i j : ℕ) : ℝ :=
  (![![![-7, -11], ![-11, 3]], ![![7, -18], ![-18, 8]], ![![-2, -8], ![-8, 1]]] : Fin 3 → Fin 2 → Fin 2 → ℝ) q (Fin.ofNat 2 i) (Fin.ofNat 2 j)

/-- `B1`, line 33. -/
def sdpB1 (i j : ℕ) : ℝ := (![![33, -9], ![-9, 26]] : Fin 2 → Fin 2 → ℝ) (Fin.ofNat 2 i) (Fin.ofNat 2 j)

/-- `F2`, lines 34-40. -/
def sdpF2 (q : Fin 3) (i j : ℕ) : ℝ :=
  (![![![-21, -11, 0], ![-11, 10, 8], ![0, 8, 5]],
     ![![0, 10, 16], ![10, -10, -10], ![16, -10, 3]],
     ![![-5, 2, -17], ![2, -6, 8], ![-17, 8, 6]]] : Fin 3 → Fin 3 → Fin 3 → ℝ) q (Fin.ofNat 3 i) (Fin.ofNat 3 j)

/-- `B2`, line 41. -/
def sdpB2 (i j : ℕ) : ℝ :=
  (![![14, 9, 40], ![9, 91, 10], ![40, 10, 15]] : Fin 3 → Fin 3 → ℝ) (Fin.ofNat 3 i) (Fin.ofNat 3 j)

end Verif
