import Mathlib.Analysis.SpecialFunctions.Complex.Circle
import Mathlib.Analysis.SpecialFunctions.Log.Basic
import Mathlib.Analysis.SpecialFunctions.Trigonometric.Basic
import Verif.Model.Py

/-!
# `spectral_fact` (`spectral_fact.py:5-59`)

Exact real and complex arithmetic; arrays of length `N` are functions on `ℕ` read below `N`.
Simplification: `log(abs(R))` at `R = 0` is `-inf` in numexpr and turns the whole result into `nan`; here
`Real.log 0 = 0`.  The theorems assume that `R` does not vanish where this matters.
-/
namespace Verif
open Finset

/-- `exp(2πi t / N)` -/
noncomputable def cis (N : ℕ) (t : ℤ) : ℂ := Complex.exp (2 * Real.pi * Complex.I * t / N)

/-- `np.fft.fft` of an array of length `N` (definition in the numpy documentation). -/
noncomputable def npFft (N : ℕ) (a : ℕ → ℂ) (l : ℕ) : ℂ := ∑ j ∈ range N, a j * cis N (-(j * l))

/-- `np.fft.ifft` of an array of length `N`. -/
noncomputable def npIfft (N : ℕ) (a : ℕ → ℂ) (k : ℕ) : ℂ := (∑ l ∈ range N, a l * cis N (l * k)) / N

namespace SpecFact
variable {n : ℕ}

/-- `mult_factor`, `spectral_fact.py:24` -/
def mult : ℕ := 100

/-- `w[k]`, `spectral_fact.py:33`: `np.linspace(0, 2π, m, endpoint=False)` -/
noncomputable def omega (m k : ℕ) : ℝ := 2 * Real.pi * k / m

/-- Row `k` of `[1, 2cos(w_k · [1..n-1])] @ r`, `spectral_fact.py:35-37`. -/
noncomputable def bigR (m : ℕ) (r : Fin n → ℝ) (k : ℕ) : ℝ :=
  ∑ j : Fin n, (if j.val = 0 then 1 else 2 * Real.cos (omega m k * j)) * r j

/-- `alpha`, `spectral_fact.py:39`. -/
noncomputable def alpha (m : ℕ) (r : Fin n → ℝ) (k : ℕ) : ℝ := 0.5 * Real.log |bigR m r k|

/-- `spectral_fact.py:44-47`: negate from `ind = int(m/2)` on, then clear entries `0` and `ind`. -/
noncomputable def mask (m : ℕ) (a : ℕ → ℂ) (l : ℕ) : ℂ :=
  if l = m / 2 then 0                                            -- 47
  else if l = 0 then 0                                           -- 46
  else if m / 2 ≤ l then -a l                                    -- 45
  else a l

/-- `phi`, `spectral_fact.py:42-48`: `real(ifft(1j * alphatmp))`. -/
noncomputable def hilbert (m : ℕ) (al : ℕ → ℝ) (k : ℕ) : ℝ :=
  (npIfft m (fun l => Complex.I * mask m (npFft m fun j => (al j : ℂ)) l) k).re

/-- `exp(alpha1 + 1j * phi1)`, `spectral_fact.py:52-57`; `alpha[index]` takes every `mult_factor`-th entry. -/
noncomputable def response (r : Fin n → ℝ) (k : ℕ) : ℂ :=
  let m := mult * n                                              -- 25
  let a := alpha m r                                             -- 39
  Complex.exp (a (mult * k) + Complex.I * hilbert m a (mult * k))

end SpecFact

/-- `spectral_fact`, `spectral_fact.py:5-59`.  An empty `r` fails in the matrix product of line 37. -/
noncomputable def spectralFact {n : ℕ} (r : Fin n → ℝ) : Except PyErr (Fin n → ℝ) :=
  if n = 0 then .error .valueError
  else .ok fun j => (npIfft n (SpecFact.response r) j).re        -- 57

end Verif
