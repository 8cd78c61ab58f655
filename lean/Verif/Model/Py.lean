/-!
# Python control flow used by the model

Exceptions as values, `for i in range(k)` with `break`, and the "possibly unbound" loop variable.
-/
namespace Verif

/-- Python exceptions (and, for `zeroDivision`, the numpy nan/inf outcome) that the modelled code can
produce. -/
inductive PyErr where
  | unboundLocal   -- `UnboundLocalError`: use of `niter` after an empty loop
  | zeroDivision   -- `ZeroDivisionError` (or numpy inf/nan with a warning)
  | valueError     -- `ValueError` (`math.sqrt` of a negative number, bad CSD character)
  | assertion      -- `AssertionError`
  | indexError     -- `IndexError`
  | oracle         -- any exception raised by user code (oracle)
  deriving DecidableEq, Repr

/-- Outcome of one round of a `for` body: fall through / `continue`, or `break`. -/
inductive Step (σ : Type _) where
  | cont : σ → Step σ
  | brk  : σ → Step σ

/-- `for i in range(i0, i0 + r): body` started with loop variable `last` (`none` = unbound).
Returns the final state and the final value of the loop variable. -/
def forLoop {σ : Type _} (body : Nat → σ → Except PyErr (Step σ)) :
    (r i : Nat) → (last : Option Nat) → σ → Except PyErr (σ × Option Nat)
  | 0, _, last, s => .ok (s, last)
  | r + 1, i, _, s =>
    match body i s with
    | .error e => .error e
    | .ok (.brk s') => .ok (s', some i)
    | .ok (.cont s') => forLoop body r (i + 1) (some i) s'

/-- `for i in range(maxIt): body` with `i` unbound before; `range` of a negative number is empty. -/
def forRange {σ : Type _} (maxIt : Int) (body : Nat → σ → Except PyErr (Step σ)) (s : σ) :
    Except PyErr (σ × Option Nat) :=
  forLoop body maxIt.toNat 0 none s

/-- Reading the loop variable after the loop: unbound if the range was empty. -/
def readVar : Option Nat → Except PyErr Nat
  | none => .error .unboundLocal
  | some i => .ok i

end Verif
