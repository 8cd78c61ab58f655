import Verif.Model.CholFloat
import Verif.Model.MatOracle

/-!
# The linear matrix inequality oracles in floating point

`lmi_oracle`, `lmi0_oracle` and `lmi_old_oracle` again (`Verif/Model/MatOracle.lean`), with a rounding `fl` after every
operation and numpy's vector products left open as in `Verif/Model/CholFloat.lean`.
-/
namespace Verif
open Finset
variable {α : Type _} [Field α] [LinearOrder α] {k : ℕ}

/-- `sum(F[k][i, j] * x[k] for k in range(n))`: the builtin adds from left to right, starting at 0. -/
def linEntryF (fl : α → α) (F : Fin k → ℕ → ℕ → α) (x : Fin k → α) (i j : ℕ) : α :=
  (List.finRange k).foldl (fun a q => fl (a + fl (F q i j * x q))) 0

/-- `F0[i, j] - sum(F[k][i, j] * x[k] for k in range(n))`. -/
def affEntryF (fl : α → α) (F : Fin k → ℕ → ℕ → α) (F0 : ℕ → ℕ → α) (x : Fin k → α) (i j : ℕ) : α :=
  fl (F0 i j - linEntryF fl F x i j)

/-- `chol_ext.py:107-119`, `sym_quad`: `(v @ A[s:n, s:n]) @ v`. -/
def CholExt.symQuadF (dot : ℕ → ℕ → (ℕ → α) → (ℕ → α) → α) (c : CholExt α) (A : ℕ → ℕ → α) : α :=
  let s := c.p.1
  let n := c.p.2
  dot s n (fun j => dot s n c.v (fun i => A i j)) c.v

/-- `lmi_oracle.__call__`, `lmi_oracle.py:33-52`, on `m × m` arrays. -/
def lmiCallF (fl : α → α) (dot : ℕ → ℕ → (ℕ → α) → (ℕ → α) → α) (F : Fin k → ℕ → ℕ → α) (F0 : ℕ → ℕ → α) (m : ℕ)
    (x : Fin k → α) (Q : CholExt α) : Except PyErr (CholExt α × Option ((Fin k → α) × α)) :=
  match Q.factorF fl dot (W := Unit) (readAt m (affEntryF fl F F0 x)) () with   -- 43-47
  | .error e => .error e
  | .ok (_, Q1, true) => .ok (Q1, none)                                 -- 48
  | .ok (_, Q1, false) =>
    match Q1.witnessF dot with                                          -- 50
    | .error e => .error e
    | .ok (Q2, ep) => .ok (Q2, some (fun q => Q2.symQuadF dot (F q), ep))   -- 51-52

/-- `lmi0_oracle.__call__`, `lmi0_oracle.py:29-47`. -/
def lmi0CallF (fl : α → α) (dot : ℕ → ℕ → (ℕ → α) → (ℕ → α) → α) (F : Fin k → ℕ → ℕ → α) (m : ℕ) (x : Fin k → α)
    (Q : CholExt α) : Except PyErr (CholExt α × Option ((Fin k → α) × α)) :=
  match Q.factorF fl dot (W := Unit) (readAt m (linEntryF fl F x)) () with   -- 39-43
  | .error e => .error e
  | .ok (_, Q1, true) => .ok (Q1, none)                                 -- 47
  | .ok (_, Q1, false) =>
    match Q1.witnessF dot with                                          -- 44
    | .error e => .error e
    | .ok (Q2, ep) => .ok (Q2, some (fun q => -Q2.symQuadF dot (F q), ep))   -- 45-46

/-- `lmi_old_oracle.__call__`, `lmi_old_oracle.py:34-50`: builds the whole matrix first. -/
def lmiOldCallF (fl : α → α) (dot : ℕ → ℕ → (ℕ → α) → (ℕ → α) → α) (F : Fin k → ℕ → ℕ → α) (F0 : ℕ → ℕ → α) (m : ℕ)
    (x : Fin k → α) (Q : CholExt α) : Except PyErr (CholExt α × Option ((Fin k → α) × α)) :=
  let S : ℕ → ℕ → α := (List.finRange k).foldl (fun S q => fun i j => fl (S i j + fl (F q i j * x q))) fun _ _ => 0   -- 45
  let A : ℕ → ℕ → α := fun i j => fl (F0 i j - S i j)                   -- 44-45
  match Q.factorF fl dot (W := Unit) (readAt m A) () with               -- 46
  | .error e => .error e
  | .ok (_, Q1, b) =>
    if b = false then
      match Q1.witnessF dot with                                        -- 47
      | .error e => .error e
      | .ok (Q2, ep) => .ok (Q2, some (fun q => Q2.symQuadF dot (F q), ep))   -- 48-49
    else .ok (Q1, none)                                                 -- 50

end Verif
