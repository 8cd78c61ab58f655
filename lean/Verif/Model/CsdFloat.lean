import Verif.Model.Csd

/-!
# `pycsd/csd/csd.py` in floating point

The same three functions as in `Model/Csd.lean`, with every floating-point operation followed by a rounding `fl`.
`clog2 y` is what `ceil(log(y, 2))` computes for a float `y`; nothing is assumed about it here.  `pow(2.0, k)` is exact.
-/
namespace Verif

/-- `d = 1.5 * dec_val` and the comparisons, `csd.py:68-76` and `171-181`. -/
def csdDigitF (fl : ℚ → ℚ) (v p : ℚ) : ℤ :=
  let d := fl (3 / 2 * v)                                               -- 68
  if p < d then 1 else if d < -p then -1 else 0                         -- 69-75

/-- `dec_val -= pow2n`, `dec_val += pow2n` or nothing, `csd.py:71`, `74`. -/
def csdSubF (fl : ℚ → ℚ) (v p : ℚ) (d : ℤ) : ℚ :=
  if d = 1 then fl (v - p) else if d = -1 then fl (v + p) else v

/-- `while n > -places` of `to_csd`, `csd.py:58-77`. -/
def csdLoopF (fl : ℚ → ℚ) (places : ℤ) : ℕ → ℤ → ℚ → ℚ → List Char → List Char
  | 0, _, _, _, s => s
  | fuel + 1, n, v, p, s =>
    if -places < n then                                                 -- 58
      let s := if n = 0 then s ++ ['.'] else s                          -- 63-64
      let n := n - 1                                                    -- 66
      let d := csdDigitF fl v p                                         -- 68-76
      csdLoopF fl places fuel n (csdSubF fl v p d) (fl (p / 2)) (s ++ [digitChar d])    -- 70-77
    else s

/-- `n`, `csd.py:50` and `157`. -/
def csdLenF (fl : ℚ → ℚ) (clog2 : ℚ → ℤ) (absnum : ℚ) : ℤ := if absnum < 1 then 0 else clog2 (fl (absnum * (3 / 2)))

/-- `to_csd`, `csd.py:22-82`. -/
def toCsdF (fl : ℚ → ℚ) (clog2 : ℚ → ℤ) (v : ℚ) (places : ℤ) : List Char :=
  if v = 0 then ['0'] else                                              -- 46-47
  let absnum := |v|                                                     -- 49
  let n := csdLenF fl clog2 absnum                                      -- 50
  let s := if absnum < 1 then ['0'] else []                             -- 51
  csdLoopF fl places (n + places).toNat n v (2 ^ (n - 1)) s             -- 57-82

/-- The loop of `to_decimal`, `csd.py:93-105`. -/
def decLoopF (fl : ℚ → ℚ) : ℕ → ℚ → ℕ → List Char → Except PyErr (ℚ × ℕ)
  | _, v, loc, [] => .ok (v, loc)
  | i, v, loc, c :: cs =>
    let v := fl (v * 2)                                                 -- 94
    if c = '+' then decLoopF fl (i + 1) (fl (v + 1)) loc cs             -- 95-96
    else if c = '-' then decLoopF fl (i + 1) (fl (v - 1)) loc cs        -- 97-98
    else if c = '0' then decLoopF fl (i + 1) v loc cs                   -- 99-100
    else if c = '.' then decLoopF fl (i + 1) (fl (v / 2)) (i + 1) cs    -- 101-103
    else .error .valueError                                             -- 105

/-- `to_decimal`, `csd.py:85-108`. -/
def toDecimalF (fl : ℚ → ℚ) (s : List Char) : Except PyErr ℚ :=
  match decLoopF fl 0 0 0 s with                                        -- 91-105
  | .error e => .error e
  | .ok (v, loc) => .ok (if loc ≠ 0 then fl (v / 2 ^ (s.length - loc)) else v)  -- 106-108

/-- `while n > 0 or (nnz > 0 and fabs(dec_val) > 1e-100)` of `to_csdfixed`, `csd.py:161-188`; `eps` is the float written `1e-100`. -/
def fixedLoopF (fl : ℚ → ℚ) (eps : ℚ) : ℕ → ℤ → ℚ → ℚ → ℤ → List Char → Option (List Char)
  | 0, n, v, _, nnz, s => if 0 < n ∨ (0 < nnz ∧ eps < |v|) then none else some s
  | fuel + 1, n, v, p, nnz, s =>
    if 0 < n ∨ (0 < nnz ∧ eps < |v|) then                               -- 161
      let s := if n = 0 then s ++ ['.'] else s                          -- 166-167
      let n := n - 1                                                    -- 169
      let d := csdDigitF fl v p                                         -- 171-181
      let nnz := if d = 0 then nnz else nnz - 1                         -- 175, 179
      let v := csdSubF fl v p d                                         -- 174, 178
      fixedLoopF fl eps fuel n (if nnz = 0 then 0 else v) (fl (p / 2)) nnz (s ++ [digitChar d])  -- 182-185
    else some s

/-- `to_csdfixed`, `csd.py:145-190`, allowing `fuel` rounds. -/
def toCsdFixedF (fl : ℚ → ℚ) (clog2 : ℚ → ℤ) (eps : ℚ) (fuel : ℕ) (v : ℚ) (nnz : ℤ) : Option (List Char) :=
  if v = 0 then some ['0'] else                                         -- 154-155
  let absnum := |v|                                                     -- 156
  let n := csdLenF fl clog2 absnum                                      -- 157
  let s := if absnum < 1 then ['0'] else []                             -- 158
  fixedLoopF fl eps fuel n v (2 ^ (n - 1)) nnz s                        -- 160-190

end Verif
