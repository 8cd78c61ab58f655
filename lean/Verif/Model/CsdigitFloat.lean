import Verif.Model.Csdigit

/-!
# `src/csdigit.m` with a rounding after every operation

As in `Verif/Model/Csdigit.lean`; `fl` rounds the result of every arithmetic operation.  Powers of two, absolute values, `floor`, comparisons and `dec2bin` of an integer are exact.
-/
namespace Verif
namespace Csdigit
variable {α : Type _} [Field α] [LinearOrder α] [FloorSemiring α]

/-- `bin2dec(s)`: the sum of powers of two, every addition rounded. -/
def bin2decF (fl : α → α) : List Char → α
  | [] => 0
  | c :: l => fl ((if c = '1' then 2 ^ l.length else 0) + bin2decF fl l)

/-- The `while` loop, `csdigit.m:77-91`. -/
def loopF (fl : α → α) (len : ℕ) : ℕ → List Char → List Char → Option (List Char × List Char)
  | fuel, binNum, digits =>
    match (onesRun (onesLoc 0 binNum)).getLast? with                    -- 77-79
    | none => some (binNum, digits)
    | some addIn =>
      match fuel with
      | 0 => none
      | fuel + 1 =>
        let adder := (List.replicate binNum.length '0').set addIn '1'   -- 80-81
        let digits := digits.set addIn '-'                              -- 83
        let binNum := dec2bin ⌊fl (bin2decF fl binNum + bin2decF fl adder)⌋₊ len   -- 84-85
        let digits := if digits.length < binNum.length then '0' :: digits else digits   -- 88-90
        loopF fl len fuel binNum digits

/-- `csdigit(num, range, resolution)`, `csdigit.m:58-115`. -/
def csdigitF (fl : α → α) (fuel : ℕ) (num : α) (range resolution : ℕ) : Except Err (Option (Res α)) :=
  let scaled := fl (|num| / (2 ^ resolution)⁻¹)                         -- 59
  let n := ⌊scaled⌋₊                                                    -- 60, 67
  if scaled ≠ n ∧ n = 0 then .error .precision                          -- 60-62
  else if 2 ^ (range + resolution) < n then .error .tooLarge            -- 68-70
  else
    let binNum := dec2bin n (range + resolution)                        -- 71
    let digits := List.replicate binNum.length '0'                      -- 72
    match loopF fl (range + resolution) fuel binNum digits with         -- 74-92
    | none => .ok none
    | some (binNum, digits) =>
      let pos : α := fl (bin2decF fl binNum * (2 ^ resolution)⁻¹)       -- 93
      let neg : α := fl (bin2decF fl (digits.map fun c => if c = '-' then '1' else '0') * (2 ^ resolution)⁻¹)   -- 94-97
      let digits := List.zipWith (fun b d => if b = '1' then '+' else d) binNum digits   -- 98
      let overflow := decide (range + resolution < digits.length)       -- 99-101
      let digits := if digits.length < resolution
        then digits ++ List.replicate (resolution - digits.length) '0' else digits       -- 102-104
      let digits := digits.take (digits.length - resolution) ++ '.' ::
        digits.drop (digits.length - resolution)                        -- 105
      let r : α × α × List Char := if num < 0 then (neg, pos, digits.map flip) else (pos, neg, digits)   -- 106-113
      .ok (some ⟨r.2.2, r.1, r.2.1, fl (num - fl (r.1 - r.2.1)), decide (scaled ≠ n), overflow⟩)   -- 115

end Csdigit
end Verif
