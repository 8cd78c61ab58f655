import Mathlib.Data.Rat.Defs
import Mathlib.Analysis.Real.Sqrt
import Mathlib.Analysis.SpecialFunctions.Trigonometric.Basic
import Verif.Model.Ell

/-!
# `oracles/low_discr_seq.tpy`, `oracles/vdcorput.tpy`, `oracles/halton_n.tpy`

Exact arithmetic (`ℚ` for the sequences, `ℝ` for the points on spheres).  A base is a natural number; an index
is a Python `int`, so it can be negative (after `reseed`).
-/
namespace Verif
namespace LowDiscr

/-- The loop of `vdc`, `low_discr_seq.tpy:21-25` (the same in `vdcorput.tpy:17-20`), with a bound on the number of rounds;
`none` when the bound is used up.  `//` and `%` on `int` are floor division and its remainder. -/
def vdcLoop (base : ℕ) : (fuel : ℕ) → (k : ℤ) → (denom vdc : ℚ) → Except PyErr (Option ℚ)
  | fuel, k, denom, vdc =>
    if k = 0 then .ok (some vdc)                                 -- 21
    else match fuel with
      | 0 => .ok none
      | fuel + 1 =>
        let denom := denom * base                                -- 22
        if base = 0 then .error .zeroDivision                    -- 23
        else
          let remainder := Int.fmod k base                       -- 23
          let k := Int.fdiv k base                               -- 24
          vdcLoop base fuel k denom (vdc + remainder / denom)    -- 25

/-- `vdc(k, base)`, `low_discr_seq.tpy:7-26`, cut off after `fuel` rounds. -/
def vdc (fuel : ℕ) (k : ℤ) (base : ℕ) : Except PyErr (Option ℚ) := vdcLoop base fuel k 1 0   -- 19-20

/-- `vdc(k, base)` returns `v`. -/
def VdcReturns (k : ℤ) (base : ℕ) (v : ℚ) : Prop := ∃ fuel, vdc fuel k base = .ok (some v)

/-- `vdc(k, base)` loops for ever. -/
def VdcDiverges (k : ℤ) (base : ℕ) : Prop := ∀ fuel, vdc fuel k base = .ok none

/-- Object of class `vdcorput`, `low_discr_seq.tpy:29-37`. -/
structure Vdcorput where
  base : ℕ
  count : ℤ

namespace Vdcorput
/-- `__init__`, `low_discr_seq.tpy:30-37` -/
def init (base : ℕ) : Vdcorput := ⟨base, 0⟩

/-- `reseed`, `low_discr_seq.tpy:48-49` -/
def reseed (g : Vdcorput) (seed : ℤ) : Vdcorput := { g with count := seed }

/-- `__call__`, `low_discr_seq.tpy:39-46`: the object afterwards. -/
def next (g : Vdcorput) : Vdcorput := { g with count := g.count + 1 }

/-- `__call__` returns `v`. -/
def Yields (g : Vdcorput) (v : ℚ) : Prop := VdcReturns (g.count + 1) g.base v
end Vdcorput

/-- `halton` (`low_discr_seq.tpy:52-70`) and `halton_n` (`179-204`): a list of generators, advanced
and reseeded together; `halton(base)` is the case of the first two bases. -/
structure Halton where
  gens : List Vdcorput

namespace Halton
/-- `halton_n.__init__`, `low_discr_seq.tpy:190-191`: `base[i] for i in range(n)`. -/
def init (n : ℕ) (base : List ℕ) : Except PyErr Halton :=
  if base.length < n then .error .indexError else .ok ⟨(base.take n).map Vdcorput.init⟩

/-- `__call__`, `low_discr_seq.tpy:193-199`: the object afterwards. -/
def next (g : Halton) : Halton := ⟨g.gens.map Vdcorput.next⟩

/-- `__call__` returns the list `vs`. -/
def Yields (g : Halton) (vs : List ℚ) : Prop := List.Forall₂ Vdcorput.Yields g.gens vs

/-- `reseed`, `low_discr_seq.tpy:201-203`. -/
def reseed (g : Halton) (seed : ℤ) : Halton := ⟨g.gens.map (·.reseed seed)⟩
end Halton

/-- `circle.__call__`, `low_discr_seq.tpy:88-98`, from the value `v` of its generator. -/
noncomputable def circlePt (v : ℝ) : Fin 2 → ℝ :=
  let theta := 2 * Real.pi * v                                   -- 97
  ![Real.sin theta, Real.cos theta]                              -- 98

/-- `sphere.__call__`, `low_discr_seq.tpy:122-131`, from the values of `_vdc` and of the circle's generator. -/
noncomputable def spherePt (v u : ℝ) : Except PyErr (Fin 3 → ℝ) :=
  let cosphi := 2 * v - 1                                        -- 128
  match pySqrt (1 - cosphi * cosphi) with                        -- 129
  | .error e => .error e
  | .ok sinphi =>
    let cc := circlePt u                                         -- 130
    .ok ![sinphi * cc 0, sinphi * cc 1, cosphi]                  -- 131

/-- `sphere3_hopf.__call__`, `low_discr_seq.tpy:151-171`, from the values of its three generators. -/
noncomputable def hopfPt (v0 v1 v2 : ℝ) : Except PyErr (Fin 4 → ℝ) :=
  let phi := v0 * (2 * Real.pi)                                  -- 157
  let psy := v1 * (2 * Real.pi)                                  -- 158
  match pySqrt v2, pySqrt (1 - v2) with                          -- 163-165
  | .ok ce, .ok se =>
    .ok ![ce * Real.cos psy, ce * Real.sin psy, se * Real.cos (phi + psy), se * Real.sin (phi + psy)]   -- 166-171
  | .error e, _ => .error e
  | _, .error e => .error e

end LowDiscr
end Verif
