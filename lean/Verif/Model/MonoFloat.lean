import Verif.Model.CorrTest

/-!
# `mono_oracle` and `mono_decreasing_oracle2` with every operation rounded

`fl` rounds the difference.  As in `Verif/Model/Corr.lean` and `Verif/Model/CorrBsplineTest.lean` otherwise.
-/
namespace Verif

/-- The loop of `mono_oracle`, `corr_bspline_oracle.py:25-30`. -/
noncomputable def monoScanF (fl : ℝ → ℝ) (x : List ℝ) : List ℕ → Option (List ℝ × ℝ)
  | [] => none                                                            -- falls off the end: `None`
  | i :: is =>
    let fj := fl (x.getD (i + 1) 0 - x.getD i 0)                          -- 26
    if 0 < fj then                                                        -- 27
      let g := List.replicate x.length 0                                  -- 24
      some ((g.set i (-1)).set (i + 1) 1, fj)                             -- 28-30
    else monoScanF fl x is

/-- `mono_oracle`, `corr_bspline_oracle.py:13-30`. -/
noncomputable def monoOracleF (fl : ℝ → ℝ) (x : List ℝ) : Option (List ℝ × ℝ) := monoScanF fl x (List.range (x.length - 1))

/-- `mono_decreasing_oracle2.__call__`, `corr_bspline_oracle.py:48-67`, for `cutting_plane_dc`. -/
noncomputable def monoDecreasing2F {k : ℕ} {W : Type _} (fl : ℝ → ℝ) (basis : (Fin k → ℝ) → WithTop ℝ → W → Except PyErr (W × ((Fin k → ℝ) × Beta) × Option (WithTop ℝ)))
    (x : Fin k → ℝ) (t : WithTop ℝ) (w : W) : Except PyErr (W × ((Fin k → ℝ) × Beta) × Option (WithTop ℝ)) :=
  match monoOracleF fl (List.ofFn x).dropLast with                        -- 61
  | some (g1, fj) => .ok (w, (fun i => (g1 ++ [0]).getD i 0, .scalar fj), none)   -- 63-66
  | none => basis x t w                                                   -- 67

end Verif
