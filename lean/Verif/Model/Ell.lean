import Verif.Model.Ell1d
import Mathlib.Analysis.Real.Sqrt
import Mathlib.Data.Matrix.Mul

/-!
# Model of class `ell`, `src/ellpy/ell.py:12-265` (value level)

Real arithmetic.  The centre is a value here; `Verif/Model/EllHeap.lean` adds the aliasing of the
centre array.  The attributes `_rho, _sigma, _delta` are written by the `_calc_*` methods immediately
before `update_core` reads them, so they are results of the calculation here; `_mu` is only written
(but its division is kept, since it can fail); `_tsq` is returned.
-/
namespace Verif
open Matrix

/-- `math.sqrt` -/
noncomputable def pySqrt (x : ℝ) : Except PyErr ℝ :=
  if x < 0 then .error .valueError else .ok (Real.sqrt x)

/-- The attributes of an `ell` that survive between calls. -/
structure Ell (n : ℕ) where
  usePar : Bool                       -- `use_parallel_cut`
  noDefer : Bool                      -- `no_defer_trick`
  xc : Fin n → ℝ                      -- `_xc`
  Q : Matrix (Fin n) (Fin n) ℝ        -- `_Q`
  kappa : ℝ                           -- `_kappa`

/-- First argument of the constructor: scalar or array. -/
inductive EllVal (n : ℕ) where
  | scalar (v : ℝ)
  | diag (v : Fin n → ℝ)

/-- Right-hand side of a cut: a scalar, or a sequence. -/
inductive Beta where
  | scalar (b : ℝ)
  | seq (bs : List ℝ)

/-- What a `_calc_*` method leaves behind: a rejection, or success with `_rho, _sigma, _delta`. -/
inductive Calc where
  | reject (st : CUTStatus)
  | accept (rho sigma delta : ℝ)

namespace Ell
variable {n : ℕ}

/-- `ell.py:41`: `_c1 = n² / (n² - 1)` (evaluated in the constructor, a Python float division). -/
noncomputable def c1? (n : ℕ) : Except PyErr ℝ := pyDiv ((n : ℝ) * n) ((n : ℝ) * n - 1)

/-- The value of `_c1` once the constructor has succeeded. -/
noncomputable def c1 (n : ℕ) : ℝ := (n : ℝ) * n / ((n : ℝ) * n - 1)
/-- `ell.py:42` -/
noncomputable def c2 (n : ℕ) : ℝ := 2 / ((n : ℝ) + 1)
/-- `ell.py:43` -/
noncomputable def c3 (n : ℕ) : ℝ := (n : ℝ) / ((n : ℝ) + 1)
/-- `ell.py:38` -/
noncomputable def halfN (n : ℕ) : ℝ := (n : ℝ) / 2
/-- `ell.py:40` -/
noncomputable def halfNminus1 (n : ℕ) : ℝ := ((n : ℝ) - 1) / 2

/-- `__init__`, `ell.py:24-54`.  `no_defer_trick` has just been set to `False` (line 32), so the branch
of line 50 is dead.  A scalar `val` goes to `_kappa`, an array to the diagonal of `_Q`. -/
noncomputable def init (val : EllVal n) (x : Fin n → ℝ) : Except PyErr (Ell n) :=
  match c1? n with                                              -- 41
  | .error e => .error e
  | .ok _ =>
    match val with
    | .scalar v => .ok ⟨true, false, x, 1, v⟩                   -- 47-52
    | .diag v => .ok ⟨true, false, x, Matrix.diagonal v, 1⟩     -- 46, 54

/-- `copy`, `ell.py:56-67`. -/
noncomputable def copy (E : Ell n) : Except PyErr (Ell n) :=
  match init (.scalar E.kappa) E.xc with                        -- 62
  | .error e => .error e
  | .ok E' => .ok { E' with Q := E.Q, usePar := E.usePar, noDefer := E.noDefer }   -- 63-67

/-- `xc` setter, `ell.py:78-85`. -/
def setXc (E : Ell n) (x : Fin n → ℝ) : Ell n := { E with xc := x }

/-- `_calc_cc`, `ell.py:256-265`. -/
noncomputable def calcCc (n : ℕ) (tau : ℝ) : Calc :=
  .accept (tau / ((n : ℝ) + 1)) (c2 n) (c1 n)                   -- 263-265

/-- `_calc_dc`, `ell.py:221-254`.  The second component is `_tsq` afterwards. -/
noncomputable def calcDc (n : ℕ) (tsq beta : ℝ) : Except PyErr (Calc × ℝ) :=
  -- 232-237: `math.sqrt` raising `ValueError` is caught
  let (tau, tsq) := match pySqrt tsq with
    | .ok tau => (tau, tsq)
    | .error _ => (0, 0)
  let bdiff := tau - beta                                       -- 239
  if bdiff < 0 then .ok (.reject .nosoln, tsq)                  -- 240-241
  else if beta = 0 then .ok (calcCc n tau, tsq)                 -- 242-244
  else
    let gamma := tau + n * beta                                 -- 246
    if gamma < 0 then .ok (.reject .noeffect, tsq)              -- 247-248
    else do
      let q ← pyDiv bdiff gamma                                 -- 250 (only for `_mu`)
      let _mu := q * halfNminus1 n
      let rho := gamma / ((n : ℝ) + 1)                          -- 251
      let sigma ← pyDiv (2 * rho) (tau + beta)                  -- 252
      let bt ← pyDiv beta tsq                                   -- 253
      let delta := c1 n * (1 - beta * bt)
      return (.accept rho sigma delta, tsq)

/-- `_calc_ll_cc`, `ell.py:205-219`. -/
noncomputable def calcLlCc (n : ℕ) (b1 b1sqn : ℝ) : Except PyErr Calc := do
  let xi ← pySqrt (1 - b1sqn + (halfN n * b1sqn) ^ 2)           -- 216
  let q ← pyDiv (c2 n * (1 - xi)) b1sqn                         -- 217
  let sigma := c3 n + q
  let rho := sigma * b1 / 2                                     -- 218
  let xn ← pyDiv xi n                                           -- 219
  let delta := c1 n * (1 - b1sqn / 2 + xn)
  return .accept rho sigma delta

/-- `_calc_ll_core`, `ell.py:164-203`. -/
noncomputable def calcLlCore (n : ℕ) (usePar : Bool) (tsq b0 b1 : ℝ) : Except PyErr (Calc × ℝ) := do
  let q1 ← pyDiv b1 tsq                                         -- 177
  let b1sqn := b1 * q1
  let t1n := 1 - b1sqn                                          -- 178
  if t1n < 0 ∨ usePar = false then calcDc n tsq b0              -- 179-180
  else
    let bdiff := b1 - b0                                        -- 181
    if bdiff < 0 then return (.reject .nosoln, tsq)             -- 182-183
    else if b0 = 0 then                                         -- 184-186
      let r ← calcLlCc n b1 b1sqn
      return (r, tsq)
    else
      let b0b1n := b0 * q1                                      -- 188
      if (n : ℝ) * b0b1n < -1 then return (.reject .noeffect, tsq)   -- 189-190
      else
        let q0 ← pyDiv b0 tsq                                   -- 193
        let t0n := 1 - b0 * q0
        let bsum := b0 + b1                                     -- 195
        let bsumn ← pyDiv bsum tsq                              -- 196
        let bav := bsum / 2                                     -- 197
        let tempn := halfN n * bsumn * bdiff                    -- 198
        let xi ← pySqrt (t0n * t1n + tempn * tempn)             -- 199
        let q ← pyDiv (1 + b0b1n - xi) (bsumn * bav * ((n : ℝ) + 1))   -- 200
        let sigma := c3 n + q
        let rho := sigma * bav                                  -- 201
        let xn ← pyDiv xi n                                     -- 202
        let delta := c1 n * ((t0n + t1n) / 2 + xn)
        return (.accept rho sigma delta, tsq)

/-- `_calc_ll`, `ell.py:149-162`. -/
noncomputable def calcLl (n : ℕ) (usePar : Bool) (tsq : ℝ) : Beta → Except PyErr (Calc × ℝ)
  | .scalar b => calcDc n tsq b                                 -- 158-159
  | .seq [] => .error .indexError                               -- 160-161: `beta[0]`
  | .seq [b0] => calcDc n tsq b0                                -- 160-161
  | .seq (b0 :: b1 :: _) => calcLlCore n usePar tsq b0 b1       -- 162

/-- `update` / `update_core`, `ell.py:105-147`. -/
noncomputable def update (cut : (Fin n → ℝ) × Beta) (E : Ell n) :
    Except PyErr (Ell n × CUTStatus × ℝ) :=
  let g := cut.1
  let Qg := E.Q *ᵥ g                                            -- 132
  let omega := g ⬝ᵥ Qg                                          -- 133
  let tsq := E.kappa * omega                                    -- 134
  match calcLl n E.usePar tsq cut.2 with                        -- 135
  | .error e => .error e
  | .ok (.reject st, tsq) => .ok (E, st, tsq)                   -- 136-137
  | .ok (.accept rho sigma delta, tsq) =>
    match pyDiv rho omega, pyDiv sigma omega with               -- 139, 140
    | .ok ro, .ok so =>
      let xc := E.xc - ro • Qg                                  -- 139
      let Q := E.Q - so • vecMulVec Qg Qg                       -- 140
      if E.noDefer then                                         -- 142-143
        .ok ({ E with xc := xc, Q := delta • Q }, .success, tsq)
      else                                                      -- 144-145
        .ok ({ E with xc := xc, Q := Q, kappa := E.kappa * delta }, .success, tsq)
    | _, _ => .error .zeroDivision

/-- The search-space interface of an `ell` at value level, next to an oracle state `W`. -/
noncomputable def space (W : Type _) (n : ℕ) :
    Space (W × Ell n) (Fin n → ℝ) ((Fin n → ℝ) × Beta) ℝ where
  xc w := w.2.xc
  update c w :=
    match update c w.2 with
    | .error e => .error e
    | .ok (E, st, tsq) => .ok ((w.1, E), st, tsq)

end Ell
end Verif
