import Verif.Model.Fir

/-! # The desired response of `tests/test_firfilter.py` -/
namespace Verif

/-- `Hdes = exp(-1j * D * w)`, the fractional delay of `test_firfilter.py:28-29`. -/
noncomputable def delayResponse (D : ℝ) (m : ℕ) : Fin m → ℂ := fun i => Complex.exp (-Complex.I * D * freq m i)

end Verif
