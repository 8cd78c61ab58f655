import Verif.Model.Bspline
import Verif.Model.CorrTest

/-!
# The fitting procedures of `tests/test_corr_bspline_fn.tpy`

`lsq_corr_core2` and `mle_corr_core` are those of `tests/test_corr_fn.py` (`Verif/Model/CorrTest.lean`); the flag `copied` is
explained there.
-/
namespace Verif

/-- `mono_decreasing_oracle2(P)`, `corr_bspline_oracle.py:40-67`, as an oracle object for `cutting_plane_dc`. -/
noncomputable def monoDcObj {k : ℕ} {W : Type _} (P : DcObj k W) : DcObj k W where
  state := P.state
  call x t w :=
    match monoOracle (List.ofFn x).dropLast with                           -- 61
    | some (g1, fj) => .ok (w, (fun i => (g1 ++ [0]).getD i 0, .scalar fj), none)   -- 63-66
    | none => P.call x t w                                                 -- 67

/-- `lsq_corr_bspline2`, `test_corr_bspline_fn.tpy:81-92`. -/
noncomputable def lsqCorrBspline2 {N d : ℕ} (copied : Bool) (opt : Options ℝ) (Y : Fin (N + 1) → Fin (N + 1) → ℝ)
    (s : Fin (N + 1) → Fin d → ℝ) (m : ℕ) : Except PyErr (((ℕ → ℝ) × (Fin m → ℝ)) × ℕ × Bool) :=
  corrBsplineSci Y s (fun Sig Y => lsqDcObj m (List.ofFn Sig) Y) monoDcObj
    fun Y _ P => (lsqCorrCore2 copied opt Y P).map fun r => ((fun i : Fin m => r.1.getD i 0), r.2)   -- 92

/-- `mle_corr_bspline`, `test_corr_bspline_fn.tpy:66-78`; for `np.linalg.cholesky` see `mleCorrPoly`. -/
noncomputable def mleCorrBspline {N d : ℕ} (copied : Bool) (opt : Options ℝ) (Y : Fin (N + 1) → Fin (N + 1) → ℝ)
    (s : Fin (N + 1) → Fin d → ℝ) (m : ℕ) : Except PyErr (((ℕ → ℝ) × (Fin m → ℝ)) × ℕ × Bool) :=
  open Classical in
  if ¬ (Matrix.of fun i j => if j ≤ i then Y i j else Y j i : Matrix (Fin (N + 1)) (Fin (N + 1)) ℝ).PosDef then .error .valueError else   -- 77
  corrBsplineSci Y s (fun Sig Y => mleDcObj m (List.ofFn Sig) Y) monoDcObj
    fun _ _ P => (mleCorrCore copied opt P).map fun r => ((fun i : Fin m => r.1.getD i 0), r.2)   -- 78

end Verif
