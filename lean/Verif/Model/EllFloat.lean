import Verif.Model.Ell

/-!
# Class `ell` in floating point

`update` (`src/ellpy/ell.py:105-265`) again, with a rounding `fl` after every arithmetic operation and after `math.sqrt`, and
with numpy's `@` left open as `dot x y`: numpy fixes no order of summation.  Only the small integers `n`, `n + 1`, `n²` and
the halves `n / 2`, `(n - 1) / 2` are taken as exact.  With `fl x = x` and the exact dot product these are the definitions of
`Verif/Model/Ell.lean` (`C117_exact`).
-/
namespace Verif.Ell
open Matrix
variable {n : ℕ}

/-- `ell.py:41` -/
noncomputable def c1F (fl : ℝ → ℝ) (n : ℕ) : ℝ := fl ((n : ℝ) * n / fl ((n : ℝ) * n - 1))
/-- `ell.py:42` -/
noncomputable def c2F (fl : ℝ → ℝ) (n : ℕ) : ℝ := fl (2 / ((n : ℝ) + 1))
/-- `ell.py:43` -/
noncomputable def c3F (fl : ℝ → ℝ) (n : ℕ) : ℝ := fl ((n : ℝ) / ((n : ℝ) + 1))

/-- A rounded division. -/
noncomputable def divF (fl : ℝ → ℝ) (a b : ℝ) : Except PyErr ℝ := (pyDiv a b).map fl

/-- A rounded `math.sqrt`. -/
noncomputable def sqrtF (fl : ℝ → ℝ) (x : ℝ) : Except PyErr ℝ := (pySqrt x).map fl

/-- `_calc_cc`, `ell.py:256-265`. -/
noncomputable def calcCcF (fl : ℝ → ℝ) (n : ℕ) (tau : ℝ) : Calc :=
  .accept (fl (tau / ((n : ℝ) + 1))) (c2F fl n) (c1F fl n)            -- 263-265

/-- `_calc_dc`, `ell.py:221-254`. -/
noncomputable def calcDcF (fl : ℝ → ℝ) (n : ℕ) (tsq beta : ℝ) : Except PyErr (Calc × ℝ) :=
  let (tau, tsq) := match sqrtF fl tsq with                           -- 232-237
    | .ok tau => (tau, tsq)
    | .error _ => (0, 0)
  let bdiff := fl (tau - beta)                                        -- 239
  if bdiff < 0 then .ok (.reject .nosoln, tsq)                        -- 240-241
  else if beta = 0 then .ok (calcCcF fl n tau, tsq)                   -- 242-244
  else
    let gamma := fl (tau + fl (n * beta))                             -- 246
    if gamma < 0 then .ok (.reject .noeffect, tsq)                    -- 247-248
    else do
      let _q ← divF fl bdiff gamma                                    -- 250 (only for `_mu`)
      let rho := fl (gamma / ((n : ℝ) + 1))                           -- 251
      let sigma ← divF fl (fl (2 * rho)) (fl (tau + beta))            -- 252
      let bt ← divF fl beta tsq                                       -- 253
      let delta := fl (c1F fl n * fl (1 - fl (beta * bt)))
      return (.accept rho sigma delta, tsq)

/-- `_calc_ll_cc`, `ell.py:205-219`. -/
noncomputable def calcLlCcF (fl : ℝ → ℝ) (n : ℕ) (b1 b1sqn : ℝ) : Except PyErr Calc := do
  let xi ← sqrtF fl (fl (fl (1 - b1sqn) + fl (fl (halfN n * b1sqn) ^ 2)))   -- 216
  let q ← divF fl (fl (c2F fl n * fl (1 - xi))) b1sqn                 -- 217
  let sigma := fl (c3F fl n + q)
  let rho := fl (fl (sigma * b1) / 2)                                 -- 218
  let xn ← divF fl xi n                                               -- 219
  let delta := fl (c1F fl n * fl (fl (1 - fl (b1sqn / 2)) + xn))
  return .accept rho sigma delta

/-- `_calc_ll_core`, `ell.py:164-203`. -/
noncomputable def calcLlCoreF (fl : ℝ → ℝ) (n : ℕ) (usePar : Bool) (tsq b0 b1 : ℝ) : Except PyErr (Calc × ℝ) := do
  let q1 ← divF fl b1 tsq                                             -- 177
  let b1sqn := fl (b1 * q1)
  let t1n := fl (1 - b1sqn)                                           -- 178
  if t1n < 0 ∨ usePar = false then calcDcF fl n tsq b0                -- 179-180
  else
    let bdiff := fl (b1 - b0)                                         -- 181
    if bdiff < 0 then return (.reject .nosoln, tsq)                   -- 182-183
    else if b0 = 0 then                                               -- 184-186
      let r ← calcLlCcF fl n b1 b1sqn
      return (r, tsq)
    else
      let b0b1n := fl (b0 * q1)                                       -- 188
      if fl ((n : ℝ) * b0b1n) < -1 then return (.reject .noeffect, tsq)     -- 189-190
      else
        let q0 ← divF fl b0 tsq                                       -- 193
        let t0n := fl (1 - fl (b0 * q0))
        let bsum := fl (b0 + b1)                                      -- 195
        let bsumn ← divF fl bsum tsq                                  -- 196
        let bav := fl (bsum / 2)                                      -- 197
        let tempn := fl (fl (halfN n * bsumn) * bdiff)                -- 198
        let xi ← sqrtF fl (fl (fl (t0n * t1n) + fl (tempn * tempn)))  -- 199
        let q ← divF fl (fl (fl (1 + b0b1n) - xi)) (fl (fl (bsumn * bav) * ((n : ℝ) + 1)))   -- 200
        let sigma := fl (c3F fl n + q)
        let rho := fl (sigma * bav)                                   -- 201
        let xn ← divF fl xi n                                         -- 202
        let delta := fl (c1F fl n * fl (fl (fl (t0n + t1n) / 2) + xn))
        return (.accept rho sigma delta, tsq)

/-- `_calc_ll`, `ell.py:149-162`. -/
noncomputable def calcLlF (fl : ℝ → ℝ) (n : ℕ) (usePar : Bool) (tsq : ℝ) : Beta → Except PyErr (Calc × ℝ)
  | .scalar b => calcDcF fl n tsq b                                   -- 158-159
  | .seq [] => .error .indexError                                     -- 160-161
  | .seq [b0] => calcDcF fl n tsq b0                                  -- 160-161
  | .seq (b0 :: b1 :: _) => calcLlCoreF fl n usePar tsq b0 b1         -- 162

/-- `update` / `update_core`, `ell.py:105-147`. -/
noncomputable def updateF (fl : ℝ → ℝ) (dot : (Fin n → ℝ) → (Fin n → ℝ) → ℝ) (cut : (Fin n → ℝ) × Beta) (E : Ell n) :
    Except PyErr (Ell n × CUTStatus × ℝ) :=
  let g := cut.1
  let Qg := fun i => dot (E.Q i) g                                    -- 132
  let omega := dot g Qg                                               -- 133
  let tsq := fl (E.kappa * omega)                                     -- 134
  match calcLlF fl n E.usePar tsq cut.2 with                          -- 135
  | .error e => .error e
  | .ok (.reject st, tsq) => .ok (E, st, tsq)                         -- 136-137
  | .ok (.accept rho sigma delta, tsq) =>
    match divF fl rho omega, divF fl sigma omega with                 -- 139, 140
    | .ok ro, .ok so =>
      let xc := fun i => fl (E.xc i - fl (ro * Qg i))                 -- 139
      let Q : Matrix (Fin n) (Fin n) ℝ := fun i j => fl (E.Q i j - fl (so * fl (Qg i * Qg j)))   -- 140
      if E.noDefer then                                               -- 142-143
        .ok ({ E with xc := xc, Q := fun i j => fl (Q i j * delta) }, .success, tsq)
      else                                                            -- 144-145
        .ok ({ E with xc := xc, Q := Q, kappa := fl (E.kappa * delta) }, .success, tsq)
    | _, _ => .error .zeroDivision

/-- One order of summation: the dot product accumulated from left to right, every operation rounded. -/
def vecDot (fl : ℝ → ℝ) (x y : Fin n → ℝ) : ℝ := (List.finRange n).foldl (fun acc k => fl (acc + fl (x k * y k))) 0

end Verif.Ell
