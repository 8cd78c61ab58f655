import Verif.Model.LowDiscr

/-!
# `oracles/low_discr_seq.tpy` in floating point

The sequences again, with a rounding `fl` after every floating-point operation.
-/
namespace Verif
namespace LowDiscr

/-- The loop of `vdc`, `low_discr_seq.tpy:21-25`: `denom` and `vdc` are floats, `k`, `base` and `remainder` integers, converted where they meet
a float. -/
def vdcLoopF (fl : ℚ → ℚ) (base : ℕ) : (fuel : ℕ) → (k : ℤ) → (denom vdc : ℚ) → Except PyErr (Option ℚ)
  | fuel, k, denom, vdc =>
    if k = 0 then .ok (some vdc)                                                -- 21
    else match fuel with
      | 0 => .ok none
      | fuel + 1 =>
        let denom := fl (denom * fl base)                                       -- 22
        if base = 0 then .error .zeroDivision                                   -- 23
        else
          let remainder := Int.fmod k base                                      -- 23
          let k := Int.fdiv k base                                              -- 24
          vdcLoopF fl base fuel k denom (fl (vdc + fl (fl remainder / denom)))  -- 25

/-- `vdc(k, base)`, `low_discr_seq.tpy:7-26`, returns the float `v`. -/
def VdcFReturns (fl : ℚ → ℚ) (k : ℤ) (base : ℕ) (v : ℚ) : Prop := ∃ fuel, vdcLoopF fl base fuel k 1 0 = .ok (some v)

/-- The argument of `sqrt` in `sphere.__call__`, `low_discr_seq.tpy:128-129`, from the value `v` of its generator. -/
def sphereArgF (fl : ℚ → ℚ) (v : ℚ) : ℚ :=
  let cosphi := fl (fl (2 * v) - 1)                                             -- 128
  fl (1 - fl (cosphi * cosphi))                                                 -- 129

/-- The arguments of the two calls of `sqrt` in `sphere3_hopf.__call__`, `low_discr_seq.tpy:163-165`. -/
def hopfArgsF (fl : ℚ → ℚ) (vd : ℚ) : ℚ × ℚ := (vd, fl (1 - vd))

end LowDiscr
end Verif
