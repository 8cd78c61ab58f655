import Verif.Model.MatOracleFloat

/-!
# The quadratic matrix inequality and least-squares oracles in floating point

`qmi_oracle` and `lsq_oracle` again (`Verif/Model/MatOracle.lean`), rounded as in `Verif/Model/MatOracleFloat.lean`.
-/
namespace Verif
open Finset
variable {α : Type _} [Field α] [LinearOrder α] {k : ℕ}

/-- `QMI.eval`, `qmi_oracle.py:49-60`.  Line 56 works on whole columns, entry by entry as `affEntryF`. -/
def qmiEvalF (fl : α → α) (dot : ℕ → ℕ → (ℕ → α) → (ℕ → α) → α) (F : Fin k → ℕ → ℕ → α) (F0 : ℕ → ℕ → α) (nr : ℕ)
    (x : Fin k → α) (i j : ℕ) (s : QmiSt α) : Except PyErr (QmiSt α × α) :=
  if i < j then .error .assertion                                       -- 50-51
  else
    let s1 : QmiSt α := if s.count < i + 1 then                         -- 52
        { s with
          count := i + 1                                                -- 54
          Fx := Function.update s.Fx i fun l => affEntryF fl F F0 x l i }   -- 55-56
      else s
    let a := -dot 0 nr (s1.Fx i) (s1.Fx j)                              -- 57
    .ok (s1, if i = j then fl (s1.t + a) else a)                        -- 58-60

/-- `QMI.neg_grad_sym_quad`, `qmi_oracle.py:62-67`. -/
def qmiNegGradF (fl : α → α) (dot : ℕ → ℕ → (ℕ → α) → (ℕ → α) → α) (F : Fin k → ℕ → ℕ → α) (nr nc : ℕ) (Q : CholExt α)
    (s : QmiSt α) : Except PyErr (Fin k → α) :=
  if nr ≠ nc ∧ k ≠ 0 then .error .valueError
  else
    let lo := Q.p.1                                                     -- 63
    let hi := Q.p.2
    let Av : ℕ → α := fun l => dot lo hi Q.v fun i => s.Fx i l          -- 65
    .ok fun q => fl (-2 * dot 0 nr (fun l => dot lo hi Q.v fun i => F q i l) Av)   -- 66

/-- `qmi_oracle.__call__` with `gmi_oracle.__call__` inlined, `qmi_oracle.py:89-99`, `gmi_oracle.py:35-52`. -/
def qmiCallF (fl : α → α) (dot : ℕ → ℕ → (ℕ → α) → (ℕ → α) → α) (F : Fin k → ℕ → ℕ → α) (F0 : ℕ → ℕ → α) (nr nc : ℕ)
    (x : Fin k → α) (o : QmiOracle α) : Except PyErr (QmiOracle α × Option ((Fin k → α) × α)) :=
  let s0 : QmiSt α := { o.qmi with count := 0 }                         -- qmi 98
  match o.Q.factorF fl dot (qmiEvalF fl dot F F0 nr x) s0 with          -- gmi 45-48
  | .error e => .error e
  | .ok (s1, Q1, true) => .ok (⟨s1, Q1⟩, none)                          -- gmi 52
  | .ok (s1, Q1, false) =>
    match Q1.witnessF dot with                                          -- gmi 49
    | .error e => .error e
    | .ok (Q2, ep) =>
      match qmiNegGradF fl dot F nr nc Q2 s1 with                       -- gmi 50
      | .error e => .error e
      | .ok g => .ok (⟨s1, Q2⟩, some (g, ep))                           -- gmi 51

/-- `lsq_oracle.__call__`, `lsq_corr_oracle.py:44-81`. -/
def lsqCallF (fl : α → α) (dot : ℕ → ℕ → (ℕ → α) → (ℕ → α) → α) (F : Fin k → ℕ → ℕ → α) (F0 : ℕ → ℕ → α) (m : ℕ)
    (x : Fin (k + 1) → α) (t : WithTop α) (o : LsqOracle α) :
    Except PyErr (LsqOracle α × ((Fin (k + 1) → α) × α) × Option (WithTop α)) :=
  let xi : Fin k → α := fun q => x q.castSucc
  match lmi0CallF fl dot F m xi o.lmi0 with                             -- 57
  | .error e => .error e
  | .ok (Q0, some (g1, fj)) =>
    .ok ({ o with lmi0 := Q0 }, (Fin.snoc g1 0, fj), none)              -- 58-62
  | .ok (Q0, none) =>
    match qmiCallF fl dot F F0 m m xi (o.qmi.setT (x (Fin.last k))) with   -- 64-65
    | .error e => .error e
    | .ok (q1, some (g1, fj)) =>
      match q1.Q.witnessF dot with                                      -- 69
      | .error e => .error e
      | .ok (Q2, _) =>
        let vv := dot Q2.p.1 Q2.p.2 Q2.v Q2.v                           -- 71-73
        .ok (⟨{ q1 with Q := Q2 }, Q0⟩, (Fin.snoc g1 (-vv), fj), none)  -- 66-74
    | .ok (q1, none) =>
      let g : Fin (k + 1) → α := Fin.snoc (fun _ => 0) 1                -- 55, 76
      let tc := x (Fin.last k)                                          -- 77
      match t with
      | ⊤ => .ok (⟨q1, Q0⟩, (g, 0), some (tc : WithTop α))
      | WithTop.some t =>
        let fj := fl (tc - t)                                           -- 78
        if 0 < fj then .ok (⟨q1, Q0⟩, (g, fj), none)                    -- 79-80
        else .ok (⟨q1, Q0⟩, (g, 0), some (tc : WithTop α))              -- 81

end Verif
