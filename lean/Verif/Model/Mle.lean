import Mathlib.Analysis.SpecialFunctions.Log.Basic
import Mathlib.LinearAlgebra.Matrix.NonsingularInverse
import Verif.Model.MatOracle

/-!
# `mle_oracle`, `src/ellpy/oracles/mle_corr_oracle.py`

Exact real arithmetic.  `np.linalg.inv` is the matrix inverse and raises (`LinAlgError`, here
`valueError`) on a singular matrix; `np.log` of a nonpositive number (a nan or infinity) is `zeroDivision`.
-/
namespace Verif

open Matrix

/-- State of the two `chol_ext` objects inside `mle_oracle` (`mle_corr_oracle.py:27-28`). -/
structure MleOracle where
  lmi0 : CholExt ℝ
  lmi : CholExt ℝ

/-- The `m × m` numpy array as a matrix. -/
def toMat (m : ℕ) (A : ℕ → ℕ → ℝ) : Matrix (Fin m) (Fin m) ℝ := Matrix.of fun i j => A i j

/-- `mle_corr_oracle.py:48-63`: the value and the gradient from the factor `R`. -/
noncomputable def mleEval {k : ℕ} (Sig : Fin k → ℕ → ℕ → ℝ) (Y : ℕ → ℕ → ℝ) (m : ℕ) (R0 : ℕ → ℕ → ℝ) :
    Except PyErr ((Fin k → ℝ) × ℝ) :=
  let R := toMat m R0                                                   -- 48
  if R.det = 0 then .error .valueError else
  let invR := R⁻¹                                                       -- 49
  let S := invR * invRᵀ                                                 -- 50
  let SY := S * toMat m Y                                               -- 51
  if ∃ i, R i i ≤ 0 then .error .zeroDivision else                      -- 52
  let f1 := 2 * ∑ i, Real.log (R i i) + SY.trace                        -- 53
  let g := fun q =>                                                     -- 57-63
    let SFsi := S * toMat m (Sig q)
    SFsi.trace - ∑ l, ∑ j, SFsi l j * SY j l
  .ok (g, f1)

/-- `mle_corr_oracle.py:31-69`, `mle_oracle.__call__`.  `t` may be `float("inf")` (`⊤`), for which `f1 - t < 0`. -/
noncomputable def mleCall {k : ℕ} (Sig : Fin k → ℕ → ℕ → ℝ) (Y : ℕ → ℕ → ℝ) (m : ℕ) (x : Fin k → ℝ) (t : WithTop ℝ)
    (o : MleOracle) : Except PyErr (MleOracle × ((Fin k → ℝ) × ℝ) × Option (WithTop ℝ)) :=
  match lmiCall Sig (fun i j => 2 * Y i j) m x o.lmi with               -- 28, 40
  | .error e => .error e
  | .ok (Q, some cut) => .ok (⟨o.lmi0, Q⟩, cut, none)                   -- 41-42
  | .ok (Q, none) =>
    match lmi0Call Sig m x o.lmi0 with                                  -- 44
    | .error e => .error e
    | .ok (Q0, some cut) => .ok (⟨Q0, Q⟩, cut, none)                    -- 45-46
    | .ok (Q0, none) =>
      match Q0.sqrt with                                                -- 48
      | .error e => .error e
      | .ok R =>
        match mleEval Sig Y m R with
        | .error e => .error e
        | .ok (g, f1) =>
          match t with
          | ⊤ => .ok (⟨Q0, Q⟩, (g, 0), some (f1 : WithTop ℝ))           -- 66-67
          | WithTop.some t =>
            let f := f1 - t                                             -- 65
            if f < 0 then .ok (⟨Q0, Q⟩, (g, 0), some (f1 : WithTop ℝ))  -- 66-67
            else .ok (⟨Q0, Q⟩, (g, f), none)                            -- 69

end Verif
