import Mathlib.Analysis.SpecialFunctions.Trigonometric.Basic
import Mathlib.Analysis.SpecialFunctions.Log.Base
import Mathlib.Analysis.SpecialFunctions.Pow.Real
import Verif.Model.Lowpass

/-!
# The low-pass design problem `create_lowpass_case` (`tests/test_lowpass.py:51-107`)

The only place in the repository where the matrices of `lowpass_oracle` are built.
-/
namespace Verif
/-- `np.linspace(0, np.pi, m)[i]`, `test_lowpass.py:74`. -/
noncomputable def freq (m i : ℕ) : ℝ := i * Real.pi / ((m : ℝ) - 1)

/-- The row of `A` for the frequency `w`: `[1, 2 cos w, 2 cos 2w, ..., 2 cos (N-1)w]`, `test_lowpass.py:78-79`. -/
noncomputable def gridRow (n : ℕ) (w : ℝ) : Fin n → ℝ := fun t => if t.val = 0 then 1 else 2 * Real.cos (w * t.val)

/-- `A[ind, :]`. -/
noncomputable def gridBand (n m : ℕ) (ind : List ℕ) : Band n := ⟨ind.length, fun k => gridRow n (freq m (ind.get k))⟩

open Classical in
/-- `create_lowpass_case(N)`, `test_lowpass.py:51-107`: the oracle and `Spsq`.  `IndexError` when one of
the index lists of line 98-99 is empty. -/
noncomputable def createLowpassCase (N : ℕ) : Except PyErr (Lowpass N × ℝ) :=
  let wpass := 0.12 * Real.pi                                             -- 60
  let wstop := 0.20 * Real.pi                                             -- 61
  let delta0_wpass : ℝ := 0.025                                           -- 62
  let delta0_wstop : ℝ := 0.125                                           -- 63
  let delta := 20 * Real.logb 10 (1 + delta0_wpass)                       -- 65
  let delta2 := 20 * Real.logb 10 delta0_wstop                            -- 67
  let m := 15 * N                                                         -- 73
  let ind_p := (List.range m).filter (fun i => decide (freq m i ≤ wpass)) -- 82
  let Lp : ℝ := 10 ^ (-delta / 20)                                        -- 83
  let Up : ℝ := 10 ^ (delta / 20)                                         -- 84
  let Ap := gridBand N m ind_p                                            -- 85
  let ind_s := (List.range m).filter (fun i => decide (wstop ≤ freq m i)) -- 88
  let Sp : ℝ := 10 ^ (delta2 / 20)                                        -- 89
  let As := gridBand N m ind_s                                            -- 90
  match ind_p.getLast?, ind_s.head? with                                  -- 98-99
  | some ind_beg, some ind_end =>
    let Anr := gridBand N m (List.range' (ind_beg + 1) (ind_end - (ind_beg + 1)))   -- 100
    .ok ({ Ap := Ap, As := As, Anr := Anr, Lpsq := Lp ^ 2, Upsq := Up ^ 2 }, Sp ^ 2)  -- 102-107
  | _, _ => .error .indexError

end Verif
