import Verif.Model.Corr
import Verif.Model.EllFloat

/-!
# `construct_distance_matrix`, `construct_poly_matrix` and `np.poly1d` with every operation rounded

`fl` rounds the result of one operation, `vdot` is `@` on vectors.  As in `Verif/Model/Corr.lean` otherwise.
-/
namespace Verif
variable {n d : ℕ}

/-- `np.sqrt(h @ h)` with `h = s[j] - s[i]`, `corr_oracle.py:78-79`. -/
noncomputable def siteDistF (fl : ℝ → ℝ) (vdot : (Fin d → ℝ) → (Fin d → ℝ) → ℝ) (s : Fin n → Fin d → ℝ) (i j : Fin n) : ℝ :=
  let h : Fin d → ℝ := fun k => fl (s j k - s i k)                        -- 78
  fl (Real.sqrt (vdot h h))                                               -- 79

/-- The two stores of `corr_oracle.py:80-81`. -/
noncomputable def storeDistF (fl : ℝ → ℝ) (vdot : (Fin d → ℝ) → (Fin d → ℝ) → ℝ) (s : Fin n → Fin d → ℝ) (i : Fin n) (D : Fin n → Fin n → ℝ) (j : Fin n) :
    Fin n → Fin n → ℝ :=
  let v := siteDistF fl vdot s i j
  let D := Function.update D i (Function.update (D i) j v)                -- 80
  Function.update D j (Function.update (D j) i v)                         -- 81

/-- `construct_distance_matrix`, `corr_oracle.py:65-82`. -/
noncomputable def distanceMatrixF (fl : ℝ → ℝ) (vdot : (Fin d → ℝ) → (Fin d → ℝ) → ℝ) (s : Fin n → Fin d → ℝ) : Fin n → Fin n → ℝ :=
  (List.finRange n).foldl (fun D i =>                                     -- 76
    ((List.finRange n).filter (i < ·)).foldl (storeDistF fl vdot s i) D)  -- 77
    (fun _ _ => 0)                                                        -- 75

/-- The loop of `construct_poly_matrix`, `corr_oracle.py:99-101`. -/
def polyLoopF (fl : ℝ → ℝ) (D1 : Fin n → Fin n → ℝ) : ℕ → (Fin n → Fin n → ℝ) → List (Fin n → Fin n → ℝ) → List (Fin n → Fin n → ℝ)
  | 0, _, Sig => Sig
  | k + 1, D, Sig =>
    let D := fun i j => fl (D i j * D1 i j)                               -- 100
    polyLoopF fl D1 k D (Sig ++ [D])                                      -- 101

/-- `construct_poly_matrix`, `corr_oracle.py:85-102`. -/
noncomputable def polyMatrixF (fl : ℝ → ℝ) (vdot : (Fin d → ℝ) → (Fin d → ℝ) → ℝ) (s : Fin n → Fin d → ℝ) (m : ℤ) : List (Fin n → Fin n → ℝ) :=
  let D1 := distanceMatrixF fl vdot s                                     -- 96
  let D : Fin n → Fin n → ℝ := fun _ _ => 1                               -- 97
  polyLoopF fl D1 (m - 1).toNat D [D]                                     -- 98-102

/-- `np.poly1d(pa)(x)`, `corr_oracle.py:122`: Horner's rule, highest power first, from 0. -/
def poly1dEvalF (fl : ℝ → ℝ) (pa : List ℝ) (x : ℝ) : ℝ := pa.foldl (fun y c => fl (fl (y * x) + c)) 0

end Verif
