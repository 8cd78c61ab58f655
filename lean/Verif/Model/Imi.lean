import Verif.Model.MatOracle

/-!
# Model of `src/ellpy/oracles/imi_oracle.tpy`

The file is not imported by the rest of the package and uses an interface of `chol_ext` that no longer exists: line 46 unpacks the result of `witness()`
into `v, f`, while `witness` of `chol_ext.py` returns one number.  The missing imports of `List` and `Optional` are ignored.
-/
namespace Verif
open Finset

variable {α : Type _} [Field α] [LinearOrder α] {n : ℕ}

/-- Which program: the file with the `chol_ext.py` of the repository; the file with a `chol_ext` whose `witness` returns the vector and the number; the latter without line 61. -/
inductive ImiVariant where
  | asWritten
  | oldApi
  | corrected
  deriving DecidableEq

/-- `getA`, `imi_oracle.tpy:30-42` (the array `A` only repeats the values); the two halves of `x` are `x1`, `x2`. -/
def imiEntry (F : Fin n → ℕ → ℕ → α) (N : ℕ) (x1 x2 : Fin n → α) (i j : ℕ) : α :=
  if i < N then linEntry F x1 i j                                       -- 31-33
  else if j < N then (if i - N = j then 1 else 0)                       -- 34-35
  else linEntry F x2 (i - N) (j - N)                                    -- 36-40

/-- `imi_oracle.__call__`, `imi_oracle.tpy:26-63`; `N = len(F[0])`; the gradient is returned as its two halves. -/
def imiCall (variant : ImiVariant) (F : Fin n → ℕ → ℕ → α) (N : ℕ) (x1 x2 : Fin n → α) (Q : CholExt α) :
    Except PyErr (CholExt α × Option (((Fin n → α) × (Fin n → α)) × α)) :=
  match Q.factor (W := Unit) (readAt (N + N) (imiEntry F N x1 x2)) () with   -- 44
  | .error e => .error e
  | .ok (_, Q1, true) => .ok (Q1, none)                                 -- 45
  | .ok (_, Q1, false) =>
    match Q1.witness with                                               -- 46
    | .error e => .error e
    | .ok (Q2, f) =>
      if variant = .asWritten then .error .oracle                       -- 46: `TypeError`, a number cannot be unpacked
      else
        let v := Q2.v
        let p := Q2.p.2                                                 -- 47
        if p < N then                                                   -- 48
          .ok (Q2, some ((fun q => -∑ i ∈ range p, v i * ∑ j ∈ range p, F q i j * v j, fun _ => 0), f))   -- 49-51
        else
          let p2 := p - N                                               -- 57
          let g1 : Fin n → α := fun q => -∑ i ∈ range N, v i * ∑ j ∈ range N, F q i j * v j               -- 53, 55-56
          let g2 : Fin n → α := fun q => -∑ i ∈ range p2, v (N + i) * ∑ j ∈ range p2, F q i j * v (N + j) -- 54, 58-59
          let s : α := if variant = .corrected then 0 else -2 * ∑ i ∈ range p2, v i * v (N + i)           -- 61
          .ok (Q2, some ((fun q => g1 q + s, fun q => g2 q + s), f))    -- 60-63

end Verif
