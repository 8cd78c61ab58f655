import Mathlib.Analysis.SpecialFunctions.Log.Basic
import Mathlib.Analysis.Real.Sqrt
import Verif.Model.Ell

/-!
# The oracles of `tests/test_quasicvx.py`, `test_quasicvx2.py`, `test_example1.py` and `test_example2.py`

They are functions without state; the world of the driver is `Unit`.
-/
namespace Verif

/-- `my_quasicvx_oracle`, `tests/test_quasicvx.py:14-44`; `z = (sqrtx, ly)`. -/
noncomputable def quasi1 (z : Fin 2 → ℝ) (t : ℝ) : ((Fin 2 → ℝ) × Beta) × Option ℝ :=
  let sqrtx := z 0                                                        -- 24
  let ly := z 1
  let fj := sqrtx * sqrtx - ly                                            -- 27
  if 0 < fj then ((![2 * sqrtx, -1], .scalar fj), none)                   -- 28-29
  else
    let tmp2 := Real.exp ly                                               -- 36
    let tmp3 := t * tmp2                                                  -- 37
    let fj := -sqrtx + tmp3                                               -- 38
    if fj < 0 then ((![-1, sqrtx], .scalar 0), some (sqrtx / tmp2))       -- 39-41
    else ((![-1, tmp3], .scalar fj), none)                                -- 43

/-- `my_quasicvx_oracle`, `tests/test_quasicvx2.py:14-48`; `z = (x, y)`.  The divisions are by `y > 0` and by `√x`, `x > 0`. -/
noncomputable def quasi2 (z : Fin 2 → ℝ) (t : ℝ) : ((Fin 2 → ℝ) × Beta) × Option ℝ :=
  let x := z 0                                                            -- 24
  let y := z 1
  let tmp := Real.exp x                                                   -- 27
  let fj := tmp - y                                                       -- 28
  if 0 < fj then ((![tmp, -1], .scalar fj), none)                         -- 29-30
  else if y ≤ 0 then ((![0, -1], .scalar (-y)), none)                     -- 33-34
  else if x ≤ 0 then ((![-1, 0], .scalar (-x)), none)                     -- 37-38
  else
    let tmp2 := √x                                                        -- 41
    let fj := -tmp2 - t * y                                               -- 42
    if fj < 0 then                                                        -- 43
      let t := -tmp2 / y                                                  -- 44
      ((![-0.5 / tmp2, -t], .scalar 0), some t)                           -- 45
    else ((![-0.5 / tmp2, -t], .scalar fj), none)                         -- 47

/-- `my_oracle2`, `tests/test_example1.py:10-29` and `tests/test_example2.py:10-29`. -/
noncomputable def lpCut (z : Fin 2 → ℝ) : Option ((Fin 2 → ℝ) × Beta) :=
  let x := z 0                                                            -- 19
  let y := z 1
  let fj := x + y - 3                                                     -- 22
  if 0 < fj then some (![1, 1], .scalar fj)                               -- 23-24
  else
    let fj := -x + y + 1                                                  -- 27
    if 0 < fj then some (![-1, 1], .scalar fj)                            -- 28-29
    else none

/-- `my_oracle`, `tests/test_example1.py:32-52`.  `⊥` is `float("-inf")`.  Note that it never returns `None` as second
component. -/
noncomputable def lpOracle (z : Fin 2 → ℝ) (t : WithBot ℝ) : ((Fin 2 → ℝ) × Beta) × Option (WithBot ℝ) :=
  match lpCut z with                                                      -- 42
  | some cut => (cut, some t)                                             -- 43-44
  | none =>
    let f0 := z 0 + z 1                                                   -- 45-47
    match t with                                                          -- 48-52
    | ⊥ => ((-1 • ![1, 1], .scalar 0), some f0)                           -- `-inf - f0 < 0`
    | (t : ℝ) =>
      let fj := t - f0
      if fj < 0 then ((-1 • ![1, 1], .scalar 0), some f0)
      else ((-1 • ![1, 1], .scalar fj), some t)

/-- A function as an oracle without state. -/
def pureOracle {X T A : Type _} (f : X → T → A) (x : X) (t : T) (w : Unit) : Except PyErr (Unit × A) := .ok (w, f x t)

end Verif
