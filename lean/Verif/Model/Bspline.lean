import Mathlib.Analysis.SpecialFunctions.Pow.Real
import Mathlib.Algebra.BigOperators.Fin
import Verif.Model.Corr

/-!
# `generate_bspline_info` and `corr_bspline` with the splines of scipy

`scipy.interpolate.BSpline` is a library class; its documented behaviour (and that of `_bspl.find_interval` and de Boor's
recursion) is written out here: degree `k`, knots `t`, `n = len(t) - k - 1` coefficients.  A point outside the base interval
`[t[k], t[n])` is served by the first or last polynomial piece (`extrapolate=True` is the default).
-/
namespace Verif

/-- `find_interval` of scipy: start at `k`, go up while `x >= t[l+1]` and `l != n-1`; `fuel` bounds the remaining steps. -/
def bsplIntervalFrom {α : Type _} [LE α] [DecidableLE α] (t : ℕ → α) (x : α) : ℕ → ℕ → ℕ
  | 0, l => l
  | fuel + 1, l => if t (l + 1) ≤ x then bsplIntervalFrom t x fuel (l + 1) else l

/-- The interval index used for `x`: between `k` and `n - 1`. -/
def bsplInterval {α : Type _} [LE α] [DecidableLE α] (t : ℕ → α) (k n : ℕ) (x : α) : ℕ := bsplIntervalFrom t x (n - 1 - k) k

/-- The Cox-de Boor recursion on the polynomial piece `l`: the piece of the basis spline `j` of degree `p`. -/
def coxDeBoor {α : Type _} [Field α] (t : ℕ → α) (l : ℕ) (x : α) : ℕ → ℕ → α
  | 0, j => if j = l then 1 else 0
  | p + 1, j => (x - t j) / (t (j + p + 1) - t j) * coxDeBoor t l x p j +
      (t (j + p + 2) - x) / (t (j + p + 2) - t (j + 1)) * coxDeBoor t l x p (j + 1)

/-- `BSpline(t, c, k)(x)`. -/
def bsplEval {α : Type _} [Field α] [LE α] [DecidableLE α] (k : ℕ) {n : ℕ} (t : ℕ → α) (c : Fin n → α) (x : α) : α :=
  ∑ j : Fin n, c j * coxDeBoor t (bsplInterval t k n x) x k j

/-- The checks of the constructor `BSpline(t, c, k)` with `n` coefficients: at least `k + 1` of them, knots sorted, at least
two distinct internal knots; all others raise `ValueError` too. -/
def bsplCheck {α : Type _} [LinearOrder α] (k n : ℕ) (t : ℕ → α) : Except PyErr Unit :=
  if n < k + 1 then .error .valueError
  else if ¬ ∀ i < n + k, t i ≤ t (i + 1) then .error .valueError
  else if ∀ i, k ≤ i → i ≤ n → t i = t k then .error .valueError
  else .ok ()

/-- The knots, `corr_bspline_oracle.py:101-103`: `np.linspace(0, d * 1.2, m + k + 1)` for `d` the distance of the first and
the last site, `k = 2`. -/
noncomputable def bsplKnots {N d : ℕ} (s : Fin (N + 1) → Fin d → ℝ) (m : ℕ) (j : ℕ) : ℝ :=
  j * (Real.sqrt (∑ q, (s (Fin.last N) q - s 0 q) ^ 2) * (12 / 10) / (m + 2 : ℕ))

/-- `generate_bspline_info`, `corr_bspline_oracle.py:90-113` (`m ≥ 0`, at least one site): the matrices and the knots. -/
noncomputable def generateBsplineInfo {N d : ℕ} (s : Fin (N + 1) → Fin d → ℝ) (m : ℕ) :
    Except PyErr ((Fin m → Fin (N + 1) → Fin (N + 1) → ℝ) × (ℕ → ℝ)) :=
  let t := bsplKnots s m                                                -- 100-103
  match (if m = 0 then .ok () else bsplCheck 2 m t) with                -- 105-108, constructors
  | .error e => .error e
  | .ok _ => .ok (bsplineSig (bsplEval 2) t s, t)                       -- 109-113

/-- `corr_bspline`, `corr_bspline_oracle.py:70-87`, with the splines of scipy; the spline returned is its knots and coefficients. -/
noncomputable def corrBsplineSci {N d m : ℕ} {O P Y I : Type _} (y : Y) (s : Fin (N + 1) → Fin d → ℝ)
    (oracle : (Fin m → Fin (N + 1) → Fin (N + 1) → ℝ) → Y → O) (mono : O → P)
    (corrCore : Y → ℕ → P → Except PyErr ((Fin m → ℝ) × I × Bool)) : Except PyErr (((ℕ → ℝ) × (Fin m → ℝ)) × I × Bool) :=
  match generateBsplineInfo s m with                                    -- 83
  | .error e => .error e
  | .ok (Sig, t) =>
    match corrCore y m (mono (oracle Sig y)) with                       -- 84-86
    | .error e => .error e
    | .ok (c, num_iters, feasible) =>
      match bsplCheck 2 m t with                                        -- 87
      | .error e => .error e
      | .ok _ => .ok ((t, c), num_iters, feasible)

end Verif
