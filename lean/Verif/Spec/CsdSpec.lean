import Mathlib.Algebra.Order.Field.Basic
import Mathlib.Algebra.Order.Ring.Rat

/-!
# What a signed-digit string means

Written without reference to the model of `pycsd`.
-/
namespace Verif
namespace CsdSpec

/-- A digit character. -/
def IsDigit (c : Char) : Prop := c = '+' ∨ c = '-' ∨ c = '0'

instance (c : Char) : Decidable (IsDigit c) := by unfold IsDigit; infer_instance

/-- The digit written by a character. -/
def digVal (c : Char) : ℤ := if c = '+' then 1 else if c = '-' then -1 else 0

/-- Value of the digits left of the point, most significant first. -/
def intVal : List Char → ℤ
  | [] => 0
  | c :: l => digVal c * 2 ^ l.length + intVal l

/-- Value of the digits right of the point, most significant first. -/
def fracVal {α : Type _} [Field α] : List Char → α
  | [] => 0
  | c :: l => (digVal c + fracVal l) / 2

/-- `s` is a signed-digit string of value `q`: digits, or digits, a point and digits. -/
inductive Denotes {α : Type _} [Field α] : List Char → α → Prop
  | int (ip : List Char) (h : ∀ c ∈ ip, IsDigit c) : Denotes ip ((intVal ip : ℤ) : α)
  | point (ip fp : List Char) (h : ∀ c ∈ ip, IsDigit c) (h' : ∀ c ∈ fp, IsDigit c) :
      Denotes (ip ++ '.' :: fp) (((intVal ip : ℤ) : α) + fracVal fp)

/-- The digits of a string, without the point. -/
def digits (s : List Char) : List Char := s.filter (· ≠ '.')

/-- No two adjacent nonzero digits (ignoring the point). -/
def Canonical (s : List Char) : Prop := (digits s).IsChain (fun a b => a = '0' ∨ b = '0')

instance (s : List Char) : Decidable (Canonical s) := by unfold Canonical; infer_instance

/-- Number of nonzero digits. -/
def weight (s : List Char) : ℕ := s.countP (fun c => c = '+' ∨ c = '-')

end CsdSpec
end Verif
