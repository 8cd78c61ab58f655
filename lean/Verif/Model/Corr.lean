import Mathlib.Analysis.Real.Sqrt
import Mathlib.Data.Matrix.Basic
import Verif.Model.Py

/-!
# `corr_oracle.py` and `corr_bspline_oracle.py`

`create_2d_sites` and `create_2d_isotropic` are in `Verif/Model/Sites.lean`.  `np.poly1d` is represented by its
coefficient list, highest power first, evaluated by Horner's rule.  `scipy.interpolate.BSpline` is a parameter.
-/
namespace Verif

/-! ### Monotonicity -/
section mono
variable {α : Type _} [Field α] [LinearOrder α]

/-- The loop of `mono_oracle`, `corr_bspline_oracle.py:25-30`. -/
def monoScan (x : List α) : List ℕ → Option (List α × α)
  | [] => none                                                            -- falls off the end: `None`
  | i :: is =>
    let fj := x.getD (i + 1) 0 - x.getD i 0                               -- 26
    if 0 < fj then                                                        -- 27
      let g := List.replicate x.length 0                                  -- 24
      some ((g.set i (-1)).set (i + 1) 1, fj)                             -- 28-30
    else monoScan x is

/-- `mono_oracle`, `corr_bspline_oracle.py:13-30`. -/
def monoOracle (x : List α) : Option (List α × α) := monoScan x (List.range (x.length - 1))

/-- `mono_decreasing_oracle2.__call__`, `corr_bspline_oracle.py:48-67`.  The wrapped oracle `basis` may keep state
of type `W` and may raise. -/
def monoDecreasing2 {W : Type _} (basis : W → List α → α → Except PyErr (W × (List α × α) × Option α))
    (w : W) (x : List α) (t : α) : Except PyErr (W × (List α × α) × Option α) :=
  match monoOracle x.dropLast with                                        -- 61
  | some (g1, fj) => .ok (w, (g1 ++ [0], fj), none)                       -- 63-66
  | none => basis w x t                                                   -- 67

end mono

/-! ### Distance matrices -/
section dist
variable {n d : ℕ}

/-- `np.sqrt(h @ h)` with `h = s[j] - s[i]`, `corr_oracle.py:78-79`. -/
noncomputable def siteDist (s : Fin n → Fin d → ℝ) (i j : Fin n) : ℝ :=
  Real.sqrt (∑ k, (s j k - s i k) * (s j k - s i k))

/-- The two stores of `corr_oracle.py:80-81`. -/
noncomputable def storeDist (s : Fin n → Fin d → ℝ) (i : Fin n) (D : Fin n → Fin n → ℝ) (j : Fin n) :
    Fin n → Fin n → ℝ :=
  let v := siteDist s i j
  let D := Function.update D i (Function.update (D i) j v)                -- 80
  Function.update D j (Function.update (D j) i v)                         -- 81

/-- `construct_distance_matrix`, `corr_oracle.py:65-82`. -/
noncomputable def constructDistanceMatrix (s : Fin n → Fin d → ℝ) : Fin n → Fin n → ℝ :=
  (List.finRange n).foldl (fun D i =>                                     -- 76
    ((List.finRange n).filter (i < ·)).foldl (storeDist s i) D)           -- 77
    (fun _ _ => 0)                                                        -- 75

/-- The loop of `construct_poly_matrix`, `corr_oracle.py:99-101`. -/
def polyLoop (D1 : Fin n → Fin n → ℝ) : ℕ → (Fin n → Fin n → ℝ) → List (Fin n → Fin n → ℝ) →
    List (Fin n → Fin n → ℝ)
  | 0, _, Sig => Sig
  | k + 1, D, Sig =>
    let D := fun i j => D i j * D1 i j                                    -- 100
    polyLoop D1 k D (Sig ++ [D])                                          -- 101

/-- `construct_poly_matrix`, `corr_oracle.py:85-102`. -/
noncomputable def constructPolyMatrix (s : Fin n → Fin d → ℝ) (m : ℤ) : List (Fin n → Fin n → ℝ) :=
  let D1 := constructDistanceMatrix s                                     -- 96
  let D : Fin n → Fin n → ℝ := fun _ _ => 1                               -- 97
  polyLoop D1 (m - 1).toNat D [D]                                         -- 98-102

end dist

/-- `np.poly1d(pa)(x)`: Horner's rule, highest power first. -/
def poly1dEval (pa : List ℝ) (x : ℝ) : ℝ := pa.foldl (fun y c => y * x + c) 0

/-- `corr_poly`, `corr_oracle.py:105-122`: `oracle` builds an oracle from the matrices, `corr_core` runs the solver
and answers `(a, num_iters, feasible)`.  The result is the coefficient list given to `np.poly1d`. -/
noncomputable def corrPoly {n d : ℕ} {O Y I : Type _} (y : Y) (s : Fin n → Fin d → ℝ) (m : ℤ)
    (oracle : List (Fin n → Fin n → ℝ) → Y → O) (corrCore : Y → ℤ → O → Except PyErr (List ℝ × I × Bool)) :
    Except PyErr (List ℝ × I × Bool) :=
  let Sig := constructPolyMatrix s m                                      -- 118
  let P := oracle Sig y                                                   -- 119
  match corrCore y m P with                                               -- 120
  | .error e => .error e
  | .ok (a, num_iters, feasible) => .ok (a.reverse, num_iters, feasible)  -- 121-122

/-- `generate_bspline_info`, `corr_bspline_oracle.py:90-113`, for an evaluation function `bspl t c x` of splines with
knots `t` and coefficients `c` (the order `k = 2` is fixed).  `knots m` is the result of `np.linspace`. -/
noncomputable def bsplineSig {n d m : ℕ} {T : Type _} (bspl : T → (Fin m → ℝ) → ℝ → ℝ) (t : T)
    (s : Fin n → Fin d → ℝ) : Fin m → Fin n → Fin n → ℝ :=
  let D := constructDistanceMatrix s                                      -- 109
  fun i a b => bspl t (Pi.single i 1) (D a b)                             -- 104-108, 110-113

/-- `corr_bspline`, `corr_bspline_oracle.py:70-87`: the spline returned is given by its coefficients. -/
noncomputable def corrBspline {n d m : ℕ} {O P Y I T : Type _} (bspl : T → (Fin m → ℝ) → ℝ → ℝ)
    (knots : (Fin n → Fin d → ℝ) → ℕ → T) (y : Y) (s : Fin n → Fin d → ℝ)
    (oracle : (Fin m → Fin n → Fin n → ℝ) → Y → O) (mono : O → P)
    (corrCore : Y → ℕ → P → Except PyErr ((Fin m → ℝ) × I × Bool)) :
    Except PyErr ((T × (Fin m → ℝ)) × I × Bool) :=
  let t := knots s m                                                      -- 101-103
  let Sig := bsplineSig bspl t s                                          -- 83
  match corrCore y m (mono (oracle Sig y)) with                           -- 84-86
  | .error e => .error e
  | .ok (c, num_iters, feasible) => .ok ((t, c), num_iters, feasible)     -- 87

end Verif
