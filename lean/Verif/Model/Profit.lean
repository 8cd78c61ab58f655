import Mathlib.Analysis.SpecialFunctions.Log.Basic
import Mathlib.Data.Fin.VecNotation
import Mathlib.LinearAlgebra.Matrix.DotProduct
import Mathlib.Algebra.Order.Floor.Ring
import Verif.Model.Py

/-!
# `profit_oracle`, `profit_rb_oracle`, `profit_q_oracle`

Real arithmetic.  `np.log` of a nonpositive number is `-inf` or `nan` in numpy; the model follows the branch
the code then takes (`te = 0`), and represents the cut with a `nan` violation (`te < 0`) by `.error .oracle`.
-/
namespace Verif
open Matrix

/-- Attributes of `profit_oracle`. -/
structure Profit where
  logPA : ℝ
  logK : ℝ
  v : Fin 2 → ℝ
  a : Fin 2 → ℝ

namespace Profit

/-- `profit_oracle.__init__`, `profit_oracle.py:29-41`. -/
noncomputable def init (p A k : ℝ) (a v : Fin 2 → ℝ) : Profit := ⟨Real.log (p * A), Real.log k, v, a⟩

/-- `profit_oracle.__call__`, `profit_oracle.py:43-73`. -/
noncomputable def call (P : Profit) (y : Fin 2 → ℝ) (t : ℝ) : Except PyErr (((Fin 2 → ℝ) × ℝ) × Option ℝ) :=
  let fj := y 0 - P.logK                                                -- 56
  if 0 < fj then .ok ((![1, 0], fj), none) else                         -- 57-59
  let logCobb := P.logPA + P.a ⬝ᵥ y                                     -- 61
  let q : Fin 2 → ℝ := fun i => P.v i * Real.exp (y i)                  -- 62
  let vx := q 0 + q 1                                                   -- 63
  let te := t + vx                                                      -- 64
  if te < 0 then .error .oracle else                                    -- 65, `nan`
  if te = 0 ∨ Real.log te - logCobb < 0 then                            -- 65-67 (`log 0 = -inf`)
    let te := Real.exp logCobb                                          -- 68
    .ok ((fun i => q i / te - P.a i, 0), some (te - vx))                -- 69-70
  else .ok ((fun i => q i / te - P.a i, Real.log te - logCobb), none)   -- 72-73

end Profit

/-- Attributes of `profit_rb_oracle`. -/
structure ProfitRb where
  a : Fin 2 → ℝ
  e : Fin 2 → ℝ
  P : Profit

namespace ProfitRb

/-- `profit_rb_oracle.__init__`, `profit_oracle.py:96-116`. -/
noncomputable def init (p A k : ℝ) (a v : Fin 2 → ℝ) (e1 e2 e3 e4 e5 : ℝ) : ProfitRb :=
  ⟨a, ![e1, e2], Profit.init (p - e3) A (k - e4) a (fun i => v i + e5)⟩

/-- The elasticities `a_rb` of `profit_oracle.py:131-133`. -/
noncomputable def aRb (o : ProfitRb) (y : Fin 2 → ℝ) : Fin 2 → ℝ :=
  fun i => o.a i + if 0 < y i then -o.e i else o.e i

/-- `profit_rb_oracle.__call__`, `profit_oracle.py:118-135`; the state is the object (`self.P.a` is
overwritten). -/
noncomputable def call (y : Fin 2 → ℝ) (t : ℝ) (o : ProfitRb) :
    Except PyErr (ProfitRb × ((Fin 2 → ℝ) × ℝ) × Option ℝ) :=
  let o' : ProfitRb := ⟨o.a, o.e, ⟨o.P.logPA, o.P.logK, o.P.v, o.aRb y⟩⟩  -- 134
  match o'.P.call y t with                                              -- 135
  | .error e => .error e
  | .ok (cut, t1) => .ok (o', cut, t1)

end ProfitRb

/-- `np.round` of one number: to nearest, ties to even. -/
noncomputable def npRound (r : ℝ) : ℤ :=
  if r - ⌊r⌋ < 1 / 2 then ⌊r⌋ else if 1 / 2 < r - ⌊r⌋ then ⌊r⌋ + 1 else if Even ⌊r⌋ then ⌊r⌋ else ⌊r⌋ + 1

/-- Attributes of `profit_q_oracle` (`yd = None` at class level, line 161). -/
structure ProfitQ where
  yd : Option (Fin 2 → ℝ)
  P : Profit

namespace ProfitQ

/-- `profit_q_oracle.__init__`, `profit_oracle.py:161-171`. -/
noncomputable def init (p A k : ℝ) (a v : Fin 2 → ℝ) : ProfitQ := ⟨none, Profit.init p A k a v⟩

/-- The rounded point, `profit_oracle.py:191-195`. -/
noncomputable def roundPt (y : Fin 2 → ℝ) : Fin 2 → ℝ := fun i =>
  if npRound (Real.exp (y i)) = 0 then 1 else npRound (Real.exp (y i))

/-- `profit_q_oracle.__call__`, `profit_oracle.py:173-200`.  A first call with `retry=True` subscripts
`None` (`TypeError`), here `.oracle`. -/
noncomputable def call (y : Fin 2 → ℝ) (t : ℝ) (retry : Bool) (o : ProfitQ) :
    Except PyErr (ProfitQ × ((Fin 2 → ℝ) × ℝ) × (Fin 2 → ℝ) × Option ℝ × Bool) :=
  let o : ProfitQ := if retry then o else ⟨some fun i => Real.log (roundPt y i), o.P⟩  -- 190-196
  match o.yd with
  | none => .error .oracle
  | some yd =>
    match o.P.call yd t with                                            -- 198
    | .error e => .error e
    | .ok ((g, h), t1) => .ok (o, (g, h + g ⬝ᵥ (yd - y)), yd, t1, !retry)  -- 199-200

end ProfitQ
end Verif
