import Verif.Model.Chol

/-!
# Model of the matrix-inequality oracles

`lmi_oracle.py`, `lmi0_oracle.py`, `lmi_old_oracle.py`, `gmi_oracle.py`, `qmi_oracle.py`,
`lsq_corr_oracle.py`.

The data (`F`, `F0`, `B`) never change; the mutable part is the `chol_ext` object `Q` and, for the QMI,
`t`, `count`, `Fx`.  `F` has as many matrices as `x` has entries; matrices are arrays of the shape given.
-/
namespace Verif
open Finset

variable {α : Type _} [Field α] [LinearOrder α] {k : ℕ}

/-- Entry of `F0 - sum(F[k] * x[k])`. -/
def affEntry (F : Fin k → ℕ → ℕ → α) (F0 : ℕ → ℕ → α) (x : Fin k → α) (i j : ℕ) : α :=
  F0 i j - ∑ q, F q i j * x q

/-- Entry of `sum(F[k] * x[k])`. -/
def linEntry (F : Fin k → ℕ → ℕ → α) (x : Fin k → α) (i j : ℕ) : α := ∑ q, F q i j * x q

/-- `lmi_oracle.__init__`, `lmi_oracle.py:22-31`: the fresh factoriser (`m = len(B)`). -/
def lmiInit (m : ℕ) : CholExt α := CholExt.init m

/-- `lmi_oracle.__call__`, `lmi_oracle.py:33-52`, on `m × m` arrays. -/
def lmiCall (F : Fin k → ℕ → ℕ → α) (F0 : ℕ → ℕ → α) (m : ℕ) (x : Fin k → α) (Q : CholExt α) :
    Except PyErr (CholExt α × Option ((Fin k → α) × α)) :=
  match Q.factor (W := Unit) (readAt m (affEntry F F0 x)) () with       -- 43-47
  | .error e => .error e
  | .ok (_, Q1, true) => .ok (Q1, none)                                 -- 48
  | .ok (_, Q1, false) =>
    match Q1.witness with                                               -- 50
    | .error e => .error e
    | .ok (Q2, ep) => .ok (Q2, some (fun q => Q2.symQuad (F q), ep))    -- 51-52

/-- `lmi0_oracle.__call__`, `lmi0_oracle.py:29-47`. -/
def lmi0Call (F : Fin k → ℕ → ℕ → α) (m : ℕ) (x : Fin k → α) (Q : CholExt α) :
    Except PyErr (CholExt α × Option ((Fin k → α) × α)) :=
  match Q.factor (W := Unit) (readAt m (linEntry F x)) () with          -- 39-43
  | .error e => .error e
  | .ok (_, Q1, true) => .ok (Q1, none)                                 -- 47
  | .ok (_, Q1, false) =>
    match Q1.witness with                                               -- 44
    | .error e => .error e
    | .ok (Q2, ep) => .ok (Q2, some (fun q => -Q2.symQuad (F q), ep))   -- 45-46

/-- `lmi_old_oracle.__call__`, `lmi_old_oracle.py:34-50`: builds the whole matrix first. -/
def lmiOldCall (F : Fin k → ℕ → ℕ → α) (F0 : ℕ → ℕ → α) (m : ℕ) (x : Fin k → α) (Q : CholExt α) :
    Except PyErr (CholExt α × Option ((Fin k → α) × α)) :=
  let S : ℕ → ℕ → α := fun i j => (List.finRange k).foldl (fun a q => a + F q i j * x q) 0   -- 45
  let A : ℕ → ℕ → α := fun i j => F0 i j - S i j                        -- 44-45
  match Q.factorize m A with                                            -- 46
  | .error e => .error e
  | .ok (Q1, b) =>
    if b = false then
      match Q1.witness with                                             -- 47
      | .error e => .error e
      | .ok (Q2, ep) => .ok (Q2, some (fun q => Q2.symQuad (F q), ep))  -- 48-49
    else .ok (Q1, none)                                                 -- 50

/-- Attributes of `qmi_oracle.QMI`, `qmi_oracle.py:26-39` (`Fx[i]` is a row of length `nr`). -/
structure QmiSt (α : Type _) where
  t : α
  count : ℕ
  Fx : ℕ → ℕ → α

/-- `QMI.eval`, `qmi_oracle.py:49-60`; `F0` has `nr` rows.  Before any `update`, `t` is `None` and line
59 raises `TypeError`; the model starts after `update`. -/
def qmiEval (F : Fin k → ℕ → ℕ → α) (F0 : ℕ → ℕ → α) (nr : ℕ) (x : Fin k → α) (i j : ℕ) (s : QmiSt α) :
    Except PyErr (QmiSt α × α) :=
  if i < j then .error .assertion                                       -- 50-51
  else
    let s1 : QmiSt α := if s.count < i + 1 then                         -- 52
        { s with
          count := i + 1                                                -- 54
          Fx := Function.update s.Fx i fun l => F0 l i - ∑ q, F q l i * x q }   -- 55-56
      else s
    let a := -(∑ l ∈ range nr, s1.Fx i l * s1.Fx j l)                   -- 57
    .ok (s1, if i = j then s1.t + a else a)                             -- 58-60

/-- `QMI.neg_grad_sym_quad`, `qmi_oracle.py:62-67`, arrays of shape `(nr, nc)`.  For `nr ≠ nc` the inner
products are between vectors of different lengths and numpy raises `ValueError` (as soon as `F` is
non-empty). -/
def qmiNegGrad (F : Fin k → ℕ → ℕ → α) (nr nc : ℕ) (Q : CholExt α) (s : QmiSt α) :
    Except PyErr (Fin k → α) :=
  if nr ≠ nc ∧ k ≠ 0 then .error .valueError
  else
    let lo := Q.p.1                                                     -- 63
    let hi := Q.p.2
    let Av : ℕ → α := fun l => ∑ i ∈ Ico lo hi, Q.v i * s.Fx i l        -- 65
    .ok fun q => -2 * ∑ l ∈ range nr, (∑ i ∈ Ico lo hi, Q.v i * F q i l) * Av l   -- 66

/-- Mutable state of a `qmi_oracle`: the QMI and the `chol_ext` shared with its `gmi_oracle`. -/
structure QmiOracle (α : Type _) where
  qmi : QmiSt α
  Q : CholExt α

/-- `qmi_oracle.update`, `qmi_oracle.py:81-87`. -/
def QmiOracle.setT (o : QmiOracle α) (t : α) : QmiOracle α := { o with qmi := { o.qmi with t := t } }

/-- `qmi_oracle.__call__` with `gmi_oracle.__call__` inlined, `qmi_oracle.py:89-99`,
`gmi_oracle.py:35-52`. -/
def qmiCall (F : Fin k → ℕ → ℕ → α) (F0 : ℕ → ℕ → α) (nr nc : ℕ) (x : Fin k → α) (o : QmiOracle α) :
    Except PyErr (QmiOracle α × Option ((Fin k → α) × α)) :=
  let s0 : QmiSt α := { o.qmi with count := 0 }                         -- qmi 98
  match o.Q.factor (qmiEval F F0 nr x) s0 with                          -- gmi 45-48
  | .error e => .error e
  | .ok (s1, Q1, true) => .ok (⟨s1, Q1⟩, none)                          -- gmi 52
  | .ok (s1, Q1, false) =>
    match Q1.witness with                                               -- gmi 49
    | .error e => .error e
    | .ok (Q2, ep) =>
      match qmiNegGrad F nr nc Q2 s1 with                               -- gmi 50
      | .error e => .error e
      | .ok g => .ok (⟨s1, Q2⟩, some (g, ep))                           -- gmi 51

/-- Mutable state of an `lsq_oracle`. -/
structure LsqOracle (α : Type _) where
  qmi : QmiOracle α
  lmi0 : CholExt α

/-- `lsq_oracle.__call__`, `lsq_corr_oracle.py:44-81`; `x[:-1]`, `x[-1]` of a vector of length `k+1`;
arrays `m × m`.  `t` may be `float("inf")` (`⊤`), for which `tc - t > 0` is false. -/
def lsqCall (F : Fin k → ℕ → ℕ → α) (F0 : ℕ → ℕ → α) (m : ℕ) (x : Fin (k + 1) → α) (t : WithTop α)
    (o : LsqOracle α) : Except PyErr (LsqOracle α × ((Fin (k + 1) → α) × α) × Option (WithTop α)) :=
  let xi : Fin k → α := fun q => x q.castSucc
  match lmi0Call F m xi o.lmi0 with                                     -- 57
  | .error e => .error e
  | .ok (Q0, some (g1, fj)) =>
    .ok ({ o with lmi0 := Q0 }, (Fin.snoc g1 0, fj), none)              -- 58-62
  | .ok (Q0, none) =>
    match qmiCall F F0 m m xi (o.qmi.setT (x (Fin.last k))) with        -- 64-65
    | .error e => .error e
    | .ok (q1, some (g1, fj)) =>
      match q1.Q.witness with                                           -- 69
      | .error e => .error e
      | .ok (Q2, _) =>
        let vv := ∑ i ∈ Ico Q2.p.1 Q2.p.2, Q2.v i * Q2.v i              -- 71-73
        .ok (⟨{ q1 with Q := Q2 }, Q0⟩, (Fin.snoc g1 (-vv), fj), none)  -- 66-74
    | .ok (q1, none) =>
      let g : Fin (k + 1) → α := Fin.snoc (fun _ => 0) 1                -- 55, 76
      let tc := x (Fin.last k)                                          -- 77
      match t with
      | ⊤ => .ok (⟨q1, Q0⟩, (g, 0), some (tc : WithTop α))
      | WithTop.some t =>
        let fj := tc - t                                                -- 78
        if 0 < fj then .ok (⟨q1, Q0⟩, (g, fj), none)                    -- 79-80
        else .ok (⟨q1, Q0⟩, (g, 0), some (tc : WithTop α))              -- 81

end Verif
