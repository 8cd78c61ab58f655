import Verif.Model.Sites
import Verif.Model.EllFloat

/-!
# The kernel matrix of `create_2d_isotropic` with every operation rounded

`fl` rounds one operation, `vdot` is `@` on vectors, `fexp` is `np.exp`, `κ` is the float `0.12` of `corr_oracle.py:41`.
-/
namespace Verif
variable {n d : ℕ}

/-- `np.exp(-sdkern * (d @ d))`, `corr_oracle.py:49-50`. -/
def gaussKernF (fl fexp : ℝ → ℝ) (vdot : (Fin d → ℝ) → (Fin d → ℝ) → ℝ) (κ : ℝ) (s : Fin n → Fin d → ℝ) (i j : Fin n) : ℝ :=
  let h : Fin d → ℝ := fun k => fl (s j k - s i k)                                      -- 49
  fexp (fl (-κ * vdot h h))                                                             -- 50

/-- The two stores of `corr_oracle.py:50-51`. -/
def storeKernF (fl fexp : ℝ → ℝ) (vdot : (Fin d → ℝ) → (Fin d → ℝ) → ℝ) (κ : ℝ) (s : Fin n → Fin d → ℝ) (i : Fin n) (S : Fin n → Fin n → ℝ) (j : Fin n) : Fin n → Fin n → ℝ :=
  let S := Function.update S i (Function.update (S i) j (gaussKernF fl fexp vdot κ s i j))   -- 50
  Function.update S j (Function.update (S j) i (S i j))                                 -- 51

/-- `Sig`, `corr_oracle.py:46-51`. -/
def isoSigF (fl fexp : ℝ → ℝ) (vdot : (Fin d → ℝ) → (Fin d → ℝ) → ℝ) (κ : ℝ) (s : Fin n → Fin d → ℝ) : Fin n → Fin n → ℝ :=
  (List.finRange n).foldl (fun S i =>                                                   -- 47
    ((List.finRange n).filter (i ≤ ·)).foldl (storeKernF fl fexp vdot κ s i) S)         -- 48
    (fun _ _ => 0)                                                                      -- 46

end Verif
