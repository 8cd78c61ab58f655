import Mathlib.Data.Int.Log
import Mathlib.Data.Rat.Floor
import Verif.Model.Py

/-!
# `pycsd/csd/csd.py`: `to_csd`, `to_decimal`, `to_csdfixed`

Numbers are elements of an ordered field (exact arithmetic; the constants `1.5`, `2.0` are exact).  Strings
are lists of characters.  `ceil(log(absnum * 1.5, 2))` is the exact ceiling logarithm `Int.clog`; the
floating-point `log` may be off by one ulp near powers of two, which is not modelled.
-/
namespace Verif
variable {α : Type _} [Field α] [LinearOrder α] [IsStrictOrderedRing α]

/-- The digit chosen by `d = 1.5 * dec_val; if d > pow2n: '+' elif d < -pow2n: '-' else '0'`,
`csd.py:68-76` and `171-181`. -/
def csdDigit (v p : α) : ℤ := if p < 3 / 2 * v then 1 else if 3 / 2 * v < -p then -1 else 0

/-- The character appended for a digit. -/
def digitChar (d : ℤ) : Char := if d = 1 then '+' else if d = -1 then '-' else '0'

/-- `while n > -places` of `to_csd`, `csd.py:58-77`.  The first argument bounds the number of rounds (see
`csdLoop_fuel`: it is no restriction). -/
def csdLoop (places : ℤ) : ℕ → ℤ → α → α → List Char → List Char
  | 0, _, _, _, s => s
  | fuel + 1, n, v, p, s =>
    if -places < n then                                                 -- 58
      let s := if n = 0 then s ++ ['.'] else s                          -- 63-64
      let n := n - 1                                                    -- 66
      let d := csdDigit v p                                             -- 68-76
      csdLoop places fuel n (v - d * p) (p / 2) (s ++ [digitChar d])    -- 70-71, 73-74, 76-77
    else s

/-- `n`, `csd.py:50` and `157`. -/
def csdLen [FloorSemiring α] (absnum : α) : ℤ := if absnum < 1 then 0 else Int.clog 2 (absnum * (3 / 2))

/-- `to_csd`, `csd.py:22-82` (without the debug output). -/
def toCsd [FloorSemiring α] (v : α) (places : ℤ) : List Char :=
  if v = 0 then ['0'] else                                              -- 46-47
  let absnum := |v|                                                     -- 49
  let n := csdLen absnum                                                -- 50
  let s := if absnum < 1 then ['0'] else []                             -- 51
  csdLoop places (n + places).toNat n v (2 ^ (n - 1)) s                 -- 57-82

/-- The loop of `to_decimal`, `csd.py:93-105`; `i` is the index, the result is `(dec_val, loc)`. -/
def decLoop : ℕ → α → ℕ → List Char → Except PyErr (α × ℕ)
  | _, v, loc, [] => .ok (v, loc)
  | i, v, loc, c :: cs =>
    let v := v * 2                                                      -- 94
    if c = '+' then decLoop (i + 1) (v + 1) loc cs                      -- 95-96
    else if c = '-' then decLoop (i + 1) (v - 1) loc cs                 -- 97-98
    else if c = '0' then decLoop (i + 1) v loc cs                       -- 99-100
    else if c = '.' then decLoop (i + 1) (v / 2) (i + 1) cs             -- 101-103
    else .error .valueError                                             -- 105

/-- `to_decimal`, `csd.py:85-108`. -/
def toDecimal (s : List Char) : Except PyErr α :=
  match decLoop 0 0 0 s with                                            -- 91-105
  | .error e => .error e
  | .ok (v, loc) => .ok (if loc ≠ 0 then v / 2 ^ (s.length - loc) else v)  -- 106-108

/-- `1e-100` of `csd.py:161`. -/
def tiny : α := 1 / 10 ^ 100

/-- `while n > 0 or (nnz > 0 and fabs(dec_val) > 1e-100)` of `to_csdfixed`, `csd.py:161-188`.  `none` when the
loop has not ended within the given number of rounds. -/
def fixedLoop : ℕ → ℤ → α → α → ℤ → List Char → Option (List Char)
  | 0, n, v, _, nnz, s => if 0 < n ∨ (0 < nnz ∧ tiny < |v|) then none else some s
  | fuel + 1, n, v, p, nnz, s =>
    if 0 < n ∨ (0 < nnz ∧ tiny < |v|) then                              -- 161
      let s := if n = 0 then s ++ ['.'] else s                          -- 166-167
      let n := n - 1                                                    -- 169
      let d := csdDigit v p                                             -- 171-181
      let nnz := if d = 0 then nnz else nnz - 1                         -- 175, 179
      let v := v - d * p                                                -- 174, 178
      fixedLoop fuel n (if nnz = 0 then 0 else v) (p / 2) nnz (s ++ [digitChar d])  -- 182-185
    else some s

/-- `to_csdfixed`, `csd.py:145-190`, allowing `fuel` rounds. -/
def toCsdFixed [FloorSemiring α] (fuel : ℕ) (v : α) (nnz : ℤ) : Option (List Char) :=
  if v = 0 then some ['0'] else                                         -- 154-155
  let absnum := |v|                                                     -- 156
  let n := csdLen absnum                                                -- 157
  let s := if absnum < 1 then ['0'] else []                             -- 158
  fixedLoop fuel n v (2 ^ (n - 1)) nnz s                                -- 160-190

/-- A number of rounds that always suffices (`C63_csdfixed_terminates`): the integer digits and 333 more. -/
def fixedRounds [FloorSemiring α] (v : α) : ℕ := (csdLen |v|).toNat + 333

end Verif
