import Verif.Model.Ell1d
import Mathlib.Algebra.BigOperators.Intervals
import Mathlib.Order.Interval.Finset.Nat
import Mathlib.Analysis.Real.Sqrt

/-!
# Model of `src/ellpy/oracles/chol_ext.py`

numpy arrays are total functions on `ℕ`; every index the code uses is shown to be in range by C33
(`getA`) and by the frame lemmas (`_T`).  `getA` is an arbitrary stateful callable: it may change the
world `W` and may raise.
-/
namespace Verif
open Finset

/-- `chol_ext.py:22-35`: the slots `p`, `v`, `_n`, `_T`, `allow_semidefinite`. -/
structure CholExt (α : Type _) where
  n : ℕ
  allowSemidefinite : Bool
  p : ℕ × ℕ
  v : ℕ → α
  T : ℕ → ℕ → α

/-- `T[a, b] = x`. -/
def set2 {α : Type _} (T : ℕ → ℕ → α) (a b : ℕ) (x : α) : ℕ → ℕ → α :=
  fun i j => if i = a ∧ j = b then x else T i j

section
variable {W α : Type _} [Field α] [LinearOrder α]

/-- `chol_ext.py:24-35`, `__init__`. -/
def CholExt.init (N : ℕ) : CholExt α := ⟨N, false, (0, 0), fun _ => 0, fun _ _ => 0⟩

/-- Inner loop `for j in range(start, i)`, `chol_ext.py:63-67`; `r` rounds left, loop variable `j`. -/
def cholInner (getA : ℕ → ℕ → W → Except PyErr (W × α)) (start i : ℕ) :
    (r j : ℕ) → (ℕ → ℕ → α) → α → W → Except PyErr (W × (ℕ → ℕ → α) × α)
  | 0, _, T, d, w => .ok (w, T, d)
  | r + 1, j, T, d, w =>
    let T1 := set2 T j i d                                              -- 64
    match pyDiv d (T1 j j) with                                         -- 65
    | .error e => .error e
    | .ok l =>
      let T2 := set2 T1 i j l                                           -- 65
      let s := j + 1                                                    -- 66
      match getA i s w with                                             -- 67
      | .error e => .error e
      | .ok (w1, a) =>
        let d' := a - ∑ m ∈ Ico start s, T2 i m * T2 m s                -- 67
        cholInner getA start i r s T2 d' w1

/-- Outer loop `for i in range(self._n)`, `chol_ext.py:60-74`; `r` rounds left, loop variable `i`. -/
def cholRows (getA : ℕ → ℕ → W → Except PyErr (W × α)) (allow : Bool) :
    (r i start : ℕ) → (ℕ → ℕ → α) → W → Except PyErr (W × (ℕ → ℕ → α) × (ℕ × ℕ))
  | 0, _, _, T, w => .ok (w, T, (0, 0))                                 -- 59
  | r + 1, i, start, T, w =>
    match getA i start w with                                           -- 62
    | .error e => .error e
    | .ok (w1, d0) =>
      match cholInner getA start i (i - start) start T d0 w1 with       -- 63-67
      | .error e => .error e
      | .ok (w2, T1, d) =>
        let T2 := set2 T1 i i d                                         -- 68
        if 0 < d then cholRows getA allow r (i + 1) start T2 w2         -- 69-70
        else if d < 0 ∨ allow = false then .ok (w2, T2, (start, i + 1)) -- 71-73
        else cholRows getA allow r (i + 1) (i + 1) T2 w2                -- 74

/-- `chol_ext.py:77-83`, `is_spd`. -/
def CholExt.isSpd (c : CholExt α) : Bool := c.p.2 == 0

/-- `chol_ext.py:50-75`, `factor`. -/
def CholExt.factor (c : CholExt α) (getA : ℕ → ℕ → W → Except PyErr (W × α)) (w : W) :
    Except PyErr (W × CholExt α × Bool) :=
  match cholRows getA c.allowSemidefinite c.n 0 0 c.T w with
  | .error e => .error e
  | .ok (w', T', p') =>
    let c' : CholExt α := { c with p := p', T := T' }
    .ok (w', c', c'.isSpd)

/-- `A[i, j]` on an array of shape `(size, size)`. -/
def readAt (size : ℕ) (A : ℕ → ℕ → α) (i j : ℕ) (w : W) : Except PyErr (W × α) :=
  if i < size ∧ j < size then .ok (w, A i j) else .error .indexError

/-- `chol_ext.py:37-48`, `factorize`, on an array of shape `(size, size)`. -/
def CholExt.factorize (c : CholExt α) (size : ℕ) (A : ℕ → ℕ → α) :
    Except PyErr (CholExt α × Bool) :=
  match c.factor (readAt size A) () with
  | .error e => .error e
  | .ok (_, r) => .ok r

/-- Loop `for i in range(m, start, -1)`, `chol_ext.py:103-104`, with `i = start + k + 1`. -/
def witnessLoop (T : ℕ → ℕ → α) (start n : ℕ) : ℕ → (ℕ → α) → (ℕ → α)
  | 0, v => v
  | k + 1, v =>
    let i := start + (k + 1)
    witnessLoop T start n k
      (Function.update v (i - 1) (-(∑ m ∈ Ico i n, T m (i - 1) * v m)))   -- 104

/-- `chol_ext.py:85-105`, `witness`: returns `ep` and sets `self.v`. -/
def CholExt.witness (c : CholExt α) : Except PyErr (CholExt α × α) :=
  if c.isSpd then .error .assertion                                     -- 98-99
  else
    let start := c.p.1                                                  -- 100
    let n := c.p.2
    let m := n - 1                                                      -- 101
    let v1 := Function.update c.v m 1                                   -- 102
    let v2 := witnessLoop c.T start n (m - start) v1                    -- 103-104
    .ok ({ c with v := v2 }, -c.T m m)                                  -- 105

/-- `chol_ext.py:107-119`, `sym_quad`. -/
def CholExt.symQuad (c : CholExt α) (A : ℕ → ℕ → α) : α :=
  let s := c.p.1
  let n := c.p.2
  ∑ j ∈ Ico s n, (∑ i ∈ Ico s n, c.v i * A i j) * c.v j

end

/-- `chol_ext.py:121-137`, `sqrt`.  The double loop writes each `M[i, j]`, `i ≤ j < n`, once, from
`_T` and `M[i, i]` only, so the result is given entrywise; `math.sqrt` of a negative number raises. -/
noncomputable def CholExt.sqrt (c : CholExt ℝ) : Except PyErr (ℕ → ℕ → ℝ) :=
  if c.isSpd = false then .error .assertion                             -- 130-131
  else if ∃ i < c.n, c.T i i < 0 then .error .valueError                -- 134
  else .ok fun i j =>
    if i < c.n ∧ j < c.n then
      if i = j then √(c.T i i)                                          -- 134
      else if i < j then c.T j i * √(c.T i i)                           -- 135-136
      else 0                                                            -- 132
    else 0

end Verif
