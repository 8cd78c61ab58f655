import Verif.Model.Lowpass

/-!
# `FIR_oracle2` (`experiments/FIR_oracle2.tpy`)

A Matlab class: `lowpass_oracle` before it was ported, without round robin and without the check `x[0] < 0`.  `Spsq` is argument and result, so a cut returned early leaves it as it was.
Rows are counted from 0 here.  Vectors of the wrong length are not represented; numbers are reals.
-/
namespace Verif
open Matrix
variable {n : ℕ}

/-- The properties, lines 2-8. -/
structure FirOracle2 (n : ℕ) where
  Ap : Band n
  As : Band n
  Anr : Band n
  Lpsq : ℝ
  Upsq : ℝ

namespace FirOracle2

/-- Passband loop, lines 22-35. -/
noncomputable def passLoop (A : Band n) (L U : ℝ) (x : Fin n → ℝ) : List (Fin A.N) → Option (LpCut n)
  | [] => none
  | k :: ks =>
    let v := A.row k ⬝ᵥ x                                               -- 23
    if U < v then some (A.row k, .seq [v - U, v - L])                   -- 24-29
    else if v < L then some (-A.row k, .seq [-v + L, -v + U])           -- 30-35
    else passLoop A L U x ks

/-- Stopband loop, lines 41-54. -/
noncomputable def stopLoop (A : Band n) (S : ℝ) (x : Fin n → ℝ) : List (Fin A.N) → Option (LpCut n)
  | [] => none
  | k :: ks =>
    let w := A.row k ⬝ᵥ x                                               -- 42
    if S < w then some (A.row k, .seq [w - S, w])                       -- 43-48
    else if w < 0 then some (-A.row k, .seq [-w, -w + S])               -- 49-54
    else stopLoop A S x ks

/-- Nonnegativity loop, lines 59-67. -/
noncomputable def nonnegLoop (A : Band n) (x : Fin n → ℝ) : List (Fin A.N) → Option (LpCut n)
  | [] => none
  | k :: ks =>
    let v := A.row k ⬝ᵥ x                                               -- 60
    if v < 0 then some (-A.row k, .scalar (-v))                         -- 61-66
    else nonnegLoop A x ks

/-- The index `max` returns, line 70: the first of the largest entries. -/
noncomputable def firstMax {N : ℕ} (w : Fin N → ℝ) : List (Fin N) → Option (Fin N)
  | [] => none
  | k :: ks =>
    match firstMax w ks with
    | none => some k
    | some j => if w k < w j then some j else some k

/-- `evaluate`, lines 19-73: `g`, `f` and `Spsq`.  Without stopband rows Matlab returns empty arrays; an error here. -/
noncomputable def evaluate (o : FirOracle2 n) (x : Fin n → ℝ) (S : ℝ) : Except PyErr (LpCut n × ℝ) :=
  match passLoop o.Ap o.Lpsq o.Upsq x (List.finRange _) with            -- 21-36
  | some cut => .ok (cut, S)
  | none =>
    match stopLoop o.As S x (List.finRange _) with                      -- 39-55
    | some cut => .ok (cut, S)
    | none =>
      match nonnegLoop o.Anr x (List.finRange _) with                   -- 58-67
      | some cut => .ok (cut, S)
      | none =>
        match firstMax (fun k => o.As.row k ⬝ᵥ x) (List.finRange _) with   -- 70
        | none => .error .indexError
        | some k => .ok ((o.As.row k, .seq [0, o.As.row k ⬝ᵥ x]), o.As.row k ⬝ᵥ x)   -- 70-72

end FirOracle2
end Verif
