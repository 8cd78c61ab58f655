import Mathlib.Algebra.Order.Field.Basic
import Mathlib.Algebra.Order.Floor.Ring
import Mathlib.Data.Int.Log
import Mathlib.Data.Nat.Size

/-!
# `src/csdigit.m`: the Octave canonical-signed-digit routine

Strings are lists of characters, most significant first; indices are counted from 0.  Numbers are elements of an ordered
field (exact arithmetic; `dec2bin`, `bin2dec` are exact on integers below 2^53).  The three-argument call with
`range, resolution ≥ 0` is modelled, and the default range separately (`defaultRange`).  The two `warning`s are Booleans
of the result.
-/
namespace Verif
namespace Csdigit

/-- The two `error` calls. -/
inductive Err
  | precision          -- 'Insufficient precision to represent this number!'
  | tooLarge           -- 'Input number is too large for the requested bit representation.'
  deriving DecidableEq, Repr

/-- `dec2bin(d, len)`: binary string, padded with leading zeros to `len`, at least one character. -/
def dec2bin (d len : ℕ) : List Char :=
  let w := max (max len d.size) 1
  (List.range w).map fun k => if d.testBit (w - 1 - k) then '1' else '0'

/-- `bin2dec(s)`. -/
def bin2dec : List Char → ℕ
  | [] => 0
  | c :: l => (if c = '1' then 2 ^ l.length else 0) + bin2dec l

/-- `findstr(binNum,'1')`, `csdigit.m:74`, `86`; `k` is the index of the first character. -/
def onesLoc (k : ℕ) : List Char → List ℕ
  | [] => []
  | c :: l => if c = '1' then k :: onesLoc (k + 1) l else onesLoc (k + 1) l

/-- `onesLoc(find(diff(onesLoc)==1)+1)`, `csdigit.m:76`, `78-79`, `87`: those positions whose predecessor in the list is
the position directly before. -/
def onesRun : List ℕ → List ℕ
  | a :: b :: l => if b = a + 1 then b :: onesRun (b :: l) else onesRun (b :: l)
  | _ => []

/-- The `while` loop, `csdigit.m:77-91`, on `binNum` and `digits`; `len` is `range + resolution`.  The first argument
bounds the number of rounds (`none`: not finished). -/
def loop (len : ℕ) : ℕ → List Char → List Char → Option (List Char × List Char)
  | fuel, binNum, digits =>
    match (onesRun (onesLoc 0 binNum)).getLast? with                    -- 77-79
    | none => some (binNum, digits)
    | some addIn =>
      match fuel with
      | 0 => none
      | fuel + 1 =>
        let adder := (List.replicate binNum.length '0').set addIn '1'   -- 80-81
        let digits := digits.set addIn '-'                              -- 83
        let binNum := dec2bin (bin2dec binNum + bin2dec adder) len      -- 84-85
        let digits := if digits.length < binNum.length then '0' :: digits else digits   -- 88-90
        loop len fuel binNum digits

/-- `strrep` chain of `csdigit.m:110-112`. -/
def flip (c : Char) : Char := if c = '+' then '-' else if c = '-' then '+' else c

/-- Results and warnings. -/
structure Res (α : Type _) where
  digits : List Char
  pos : α
  neg : α
  err : α
  truncated : Bool
  overflow : Bool

variable {α : Type _} [Field α] [LinearOrder α] [FloorSemiring α]

/-- `csdigit(num, range, resolution)`, `csdigit.m:58-115`. -/
def csdigit (fuel : ℕ) (num : α) (range resolution : ℕ) : Except Err (Option (Res α)) :=
  let scaled := |num| * 2 ^ resolution                                  -- 59
  let n := ⌊scaled⌋₊                                                    -- 60, 67
  if scaled ≠ n ∧ n = 0 then .error .precision                          -- 60-62
  else if 2 ^ (range + resolution) < n then .error .tooLarge            -- 68-70
  else
    let binNum := dec2bin n (range + resolution)                        -- 71
    let digits := List.replicate binNum.length '0'                      -- 72
    match loop (range + resolution) fuel binNum digits with             -- 74-92
    | none => .ok none
    | some (binNum, digits) =>
      let pos : α := bin2dec binNum / 2 ^ resolution                    -- 93
      let neg : α := bin2dec (digits.map fun c => if c = '-' then '1' else '0') / 2 ^ resolution   -- 94-97
      let digits := List.zipWith (fun b d => if b = '1' then '+' else d) binNum digits   -- 98
      let overflow := decide (range + resolution < digits.length)       -- 99-101
      let digits := if digits.length < resolution
        then digits ++ List.replicate (resolution - digits.length) '0' else digits       -- 102-104
      let digits := digits.take (digits.length - resolution) ++ '.' ::
        digits.drop (digits.length - resolution)                        -- 105
      let r : α × α × List Char := if num < 0 then (neg, pos, digits.map flip) else (pos, neg, digits)   -- 106-113
      .ok (some ⟨r.2.2, r.1, r.2.1, num - (r.1 - r.2.1), decide (scaled ≠ n), overflow⟩)   -- 115

/-- The default of `range`, `ceil(log(abs(num))/log(2))+1`, `csdigit.m:53`, cut off at 0 (it is negative for numbers
below 1/4, which this model does not cover). -/
def defaultRange [IsStrictOrderedRing α] (num : α) : ℕ := (Int.clog 2 |num| + 1).toNat

end Csdigit
end Verif
