import Verif.Model.Quasi

/-!
# The oracles of `tests/test_quasicvx.py`, `test_quasicvx2.py` and `test_example1.py` in floating point

`Model/Quasi.lean` again, every operation rounded by `fl`.  `ex` is `math.exp`; `math.sqrt` is the rounded square root.  Changing a sign, and the constants `0`, `±1`, `3` and `0.5`, are exact.
There is no overflow and no underflow.
-/
namespace Verif

/-- `my_quasicvx_oracle`, `tests/test_quasicvx.py:14-44`; `z = (sqrtx, ly)`. -/
noncomputable def quasi1F (fl ex : ℝ → ℝ) (z : Fin 2 → ℝ) (t : ℝ) : ((Fin 2 → ℝ) × Beta) × Option ℝ :=
  let sqrtx := z 0                                                        -- 24
  let ly := z 1
  let fj := fl (fl (sqrtx * sqrtx) - ly)                                  -- 27
  if 0 < fj then ((![fl (2 * sqrtx), -1], .scalar fj), none)              -- 28-29
  else
    let tmp2 := ex ly                                                     -- 36
    let tmp3 := fl (t * tmp2)                                             -- 37
    let fj := fl (-sqrtx + tmp3)                                          -- 38
    if fj < 0 then ((![-1, sqrtx], .scalar 0), some (fl (sqrtx / tmp2)))  -- 39-41
    else ((![-1, tmp3], .scalar fj), none)                                -- 43

/-- `my_quasicvx_oracle`, `tests/test_quasicvx2.py:14-48`; `z = (x, y)`. -/
noncomputable def quasi2F (fl ex : ℝ → ℝ) (z : Fin 2 → ℝ) (t : ℝ) : ((Fin 2 → ℝ) × Beta) × Option ℝ :=
  let x := z 0                                                            -- 24
  let y := z 1
  let tmp := ex x                                                         -- 27
  let fj := fl (tmp - y)                                                  -- 28
  if 0 < fj then ((![tmp, -1], .scalar fj), none)                         -- 29-30
  else if y ≤ 0 then ((![0, -1], .scalar (-y)), none)                     -- 33-34
  else if x ≤ 0 then ((![-1, 0], .scalar (-x)), none)                     -- 37-38
  else
    let tmp2 := fl (√x)                                                   -- 41
    let fj := fl (-tmp2 - fl (t * y))                                     -- 42
    if fj < 0 then                                                        -- 43
      let t := fl (-tmp2 / y)                                             -- 44
      ((![fl (-0.5 / tmp2), -t], .scalar 0), some t)                      -- 45
    else ((![fl (-0.5 / tmp2), -t], .scalar fj), none)                    -- 47

/-- `my_oracle2`, `tests/test_example1.py:10-29`. -/
noncomputable def lpCutF (fl : ℝ → ℝ) (z : Fin 2 → ℝ) : Option ((Fin 2 → ℝ) × Beta) :=
  let x := z 0                                                            -- 19
  let y := z 1
  let fj := fl (fl (x + y) - 3)                                           -- 22
  if 0 < fj then some (![1, 1], .scalar fj)                               -- 23-24
  else
    let fj := fl (fl (-x + y) + 1)                                        -- 27
    if 0 < fj then some (![-1, 1], .scalar fj)                            -- 28-29
    else none

/-- `my_oracle`, `tests/test_example1.py:32-52`. -/
noncomputable def lpOracleF (fl : ℝ → ℝ) (z : Fin 2 → ℝ) (t : WithBot ℝ) : ((Fin 2 → ℝ) × Beta) × Option (WithBot ℝ) :=
  match lpCutF fl z with                                                  -- 42
  | some cut => (cut, some t)                                             -- 43-44
  | none =>
    let f0 := fl (z 0 + z 1)                                              -- 45-47
    match t with                                                          -- 48-52
    | ⊥ => ((-1 • ![1, 1], .scalar 0), some f0)
    | (t : ℝ) =>
      let fj := fl (t - f0)
      if fj < 0 then ((-1 • ![1, 1], .scalar 0), some f0)
      else ((-1 • ![1, 1], .scalar fj), some t)

end Verif
