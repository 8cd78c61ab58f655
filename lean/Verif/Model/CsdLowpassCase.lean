import Verif.Model.CsdLowpass
import Verif.Model.LowpassCase

/-! # `create_csdlowpass_case` (`tests/test_lowpass.py:110-122`) -/
namespace Verif

/-- `create_csdlowpass_case(N, nnz)`, `test_lowpass.py:110-122`; `rcsd = None` is the class attribute (`csdlowpass_oracle.py:22`). -/
noncomputable def createCsdlowpassCase (N : ℕ) (nnz : ℤ) : Except PyErr (CsdLowpass N × ℝ) :=
  match createLowpassCase N with                                          -- 120
  | .error e => .error e
  | .ok (P, Spsq) => .ok (⟨nnz, P, none⟩, Spsq)                           -- 121-122

end Verif
