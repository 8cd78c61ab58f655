import Verif.Model.Chol

/-!
# `chol_ext` in floating point

`factor` and `witness` (`chol_ext.py:50-105`) again, with a rounding `fl` after every division and subtraction and with
numpy's `x[s:e] @ y[s:e]` left open as `dot s e x y`: numpy fixes no order of summation.  With `fl x = x` and the exact
dot product these are the definitions of `Verif/Model/Chol.lean` (`factorF_exact`, `witnessF_exact`).
-/
namespace Verif
open Finset
variable {W α : Type _} [Field α] [LinearOrder α]

/-- Inner loop `for j in range(start, i)`, `chol_ext.py:63-67`; `r` rounds left, loop variable `j`. -/
def cholInnerF (fl : α → α) (dot : ℕ → ℕ → (ℕ → α) → (ℕ → α) → α) (getA : ℕ → ℕ → W → Except PyErr (W × α)) (start i : ℕ) :
    (r j : ℕ) → (ℕ → ℕ → α) → α → W → Except PyErr (W × (ℕ → ℕ → α) × α)
  | 0, _, T, d, w => .ok (w, T, d)
  | r + 1, j, T, d, w =>
    let T1 := set2 T j i d                                              -- 64
    match pyDiv d (T1 j j) with                                         -- 65
    | .error e => .error e
    | .ok l =>
      let T2 := set2 T1 i j (fl l)                                      -- 65
      let s := j + 1                                                    -- 66
      match getA i s w with                                             -- 67
      | .error e => .error e
      | .ok (w1, a) =>
        let d' := fl (a - dot start s (T2 i) (fun m => T2 m s))         -- 67
        cholInnerF fl dot getA start i r s T2 d' w1

/-- Outer loop `for i in range(self._n)`, `chol_ext.py:60-74`; `r` rounds left, loop variable `i`. -/
def cholRowsF (fl : α → α) (dot : ℕ → ℕ → (ℕ → α) → (ℕ → α) → α) (getA : ℕ → ℕ → W → Except PyErr (W × α)) (allow : Bool) :
    (r i start : ℕ) → (ℕ → ℕ → α) → W → Except PyErr (W × (ℕ → ℕ → α) × (ℕ × ℕ))
  | 0, _, _, T, w => .ok (w, T, (0, 0))                                 -- 59
  | r + 1, i, start, T, w =>
    match getA i start w with                                           -- 62
    | .error e => .error e
    | .ok (w1, d0) =>
      match cholInnerF fl dot getA start i (i - start) start T d0 w1 with   -- 63-67
      | .error e => .error e
      | .ok (w2, T1, d) =>
        let T2 := set2 T1 i i d                                         -- 68
        if 0 < d then cholRowsF fl dot getA allow r (i + 1) start T2 w2     -- 69-70
        else if d < 0 ∨ allow = false then .ok (w2, T2, (start, i + 1)) -- 71-73
        else cholRowsF fl dot getA allow r (i + 1) (i + 1) T2 w2        -- 74

/-- `chol_ext.py:50-75`, `factor`. -/
def CholExt.factorF (fl : α → α) (dot : ℕ → ℕ → (ℕ → α) → (ℕ → α) → α) (c : CholExt α)
    (getA : ℕ → ℕ → W → Except PyErr (W × α)) (w : W) : Except PyErr (W × CholExt α × Bool) :=
  match cholRowsF fl dot getA c.allowSemidefinite c.n 0 0 c.T w with
  | .error e => .error e
  | .ok (w', T', p') =>
    let c' : CholExt α := { c with p := p', T := T' }
    .ok (w', c', c'.isSpd)

/-- Loop `for i in range(m, start, -1)`, `chol_ext.py:103-104`, with `i = start + k + 1`; negation is exact. -/
def witnessLoopF (dot : ℕ → ℕ → (ℕ → α) → (ℕ → α) → α) (T : ℕ → ℕ → α) (start n : ℕ) : ℕ → (ℕ → α) → (ℕ → α)
  | 0, v => v
  | k + 1, v =>
    let i := start + (k + 1)
    witnessLoopF dot T start n k (Function.update v (i - 1) (-(dot i n (fun m => T m (i - 1)) v)))   -- 104

/-- `chol_ext.py:85-105`, `witness`: returns `ep` and sets `self.v`. -/
def CholExt.witnessF (dot : ℕ → ℕ → (ℕ → α) → (ℕ → α) → α) (c : CholExt α) : Except PyErr (CholExt α × α) :=
  if c.isSpd then .error .assertion                                     -- 98-99
  else
    let start := c.p.1                                                  -- 100
    let n := c.p.2
    let m := n - 1                                                      -- 101
    let v1 := Function.update c.v m 1                                   -- 102
    let v2 := witnessLoopF dot c.T start n (m - start) v1               -- 103-104
    .ok ({ c with v := v2 }, -c.T m m)                                  -- 105

/-- The exact dot product. -/
def exactDot (s e : ℕ) (x y : ℕ → α) : α := ∑ m ∈ Ico s e, x m * y m

/-- The dot product accumulated from left to right, every product and every sum rounded. -/
def seqDot (fl : α → α) (s e : ℕ) (x y : ℕ → α) : α :=
  (List.range (e - s)).foldl (fun acc k => fl (acc + fl (x (s + k) * y (s + k)))) 0

end Verif
