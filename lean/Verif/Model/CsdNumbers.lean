import Verif.Model.Csd

/-!
# `pycsd/dev/csd_numbers.py`: `is_proper_csd`, `cycle_bits`

The module globals `csd_num`, `csd_dict` and `indent_` become a state that is passed along.  The dictionary is
a partial function from keys to strings (insertion order is not modelled).  `wiki_table` is not modelled: it
calls `sort` on a `dict_keys` object, which has no such method in Python 3.
-/
namespace Verif
variable {α : Type _} [Field α] [LinearOrder α] [IsStrictOrderedRing α]

/-- `is_proper_csd`, `csd_numbers.py:20-29`. -/
def isProperCsd (csd_num : List Char) : Bool :=
  (List.range' 1 (csd_num.length - 1)).all fun i =>                       -- 25
    !(csd_num.getD i '0' != '0' && csd_num.getD (i - 1) '0' != '0')       -- 26-27

/-- The globals `csd_num`, `indent_`, `csd_dict`, `csd_numbers.py:13-17`. -/
structure CsdTab (α : Type _) where
  num : List Char
  indent : ℤ
  dict : α → Option (List Char)

/-- `if is_proper_csd(csd_num): ... csd_dict[num] = csd_str`, `csd_numbers.py:43-46`. -/
def CsdTab.visit (st : CsdTab α) : Except PyErr (CsdTab α) :=
  if isProperCsd st.num then                                              -- 43
    match toDecimal st.num with                                           -- 44-45
    | .error e => .error e
    | .ok num => .ok { st with dict := Function.update st.dict num (some st.num) }  -- 46
  else .ok st

/-- `csd_num[i] = ch`, `csd_numbers.py:38`. -/
def CsdTab.store (st : CsdTab α) (i : ℕ) (ch : Char) : Except PyErr (CsdTab α) :=
  if i < st.num.length then .ok { st with num := st.num.set i ch } else .error .indexError

/-- The `for` loop of `cycle_bits` with a given body, `csd_numbers.py:37`. -/
def CsdTab.chars (i : ℕ) (body : CsdTab α → Except PyErr (CsdTab α)) :
    List Char → CsdTab α → Except PyErr (CsdTab α)
  | [], st => .ok st
  | ch :: l, st =>
    match st.store i ch with
    | .error e => .error e
    | .ok st =>
      match body st with
      | .error e => .error e
      | .ok st => CsdTab.chars i body l st

/-- `cycle_bits` around the `if` of line 40, `csd_numbers.py:33-48`. -/
def CsdTab.cycle (i : ℕ) (body : CsdTab α → Except PyErr (CsdTab α)) (st : CsdTab α) :
    Except PyErr (CsdTab α) :=
  let st := { st with indent := st.indent + 2 }                           -- 35
  match CsdTab.chars i body ['0', '-', '+'] st with                       -- 37
  | .error e => .error e
  | .ok st => .ok { st with indent := st.indent - 2 }                     -- 48

/-- `cycle_bits`, `csd_numbers.py:32-48`. -/
def CsdTab.cycleBits : ℕ → CsdTab α → Except PyErr (CsdTab α)
  | 0 => CsdTab.cycle 0 CsdTab.visit                                      -- 42-46
  | i + 1 => CsdTab.cycle (i + 1) (CsdTab.cycleBits i)                    -- 40-41

/-- The state after lines 10-17 for a given `num_digits`. -/
def CsdTab.fresh (numDigits : ℕ) : CsdTab α := ⟨List.replicate numDigits '0', 2, fun _ => none⟩

end Verif
