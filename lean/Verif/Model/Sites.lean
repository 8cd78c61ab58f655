import Verif.Model.LowDiscr
import Verif.Model.Corr
import Mathlib.Analysis.SpecialFunctions.Exp
import Mathlib.LinearAlgebra.Matrix.PosDef

/-!
# `create_2d_sites` and `create_2d_isotropic`, `corr_oracle.py:11-62`

The generator `halton` comes from the package `pylds`; it is taken to be the class of the same name in
`oracles/low_discr_seq.tpy`.  `np.random.randn` and `np.linalg.cholesky` are parameters: the noise is an arbitrary
sequence, the factorization an arbitrary function with the contract `IsNpCholesky`.
-/
namespace Verif
open Matrix LowDiscr

/-- `k` calls of a `halton` object return the points `pts`, in this order. -/
inductive HaltonCalls : Halton → ℕ → List (List ℚ) → Prop
  | nil (g) : HaltonCalls g 0 []
  | cons {g k v vs} : g.Yields v → HaltonCalls g.next k vs → HaltonCalls g (k + 1) (v :: vs)

/-- `s_end * [..]` for one row, `corr_oracle.py:22, 24`. -/
def scaleSite (v : List ℚ) : Fin 2 → ℝ := fun i => (![10, 8] : Fin 2 → ℝ) i * ((v.getD i 0 : ℚ) : ℝ)

/-- `create_2d_sites(nx, ny)`, `corr_oracle.py:11-25`, returns `r`.  With no points the array has shape `(0,)` and the
product with `s_end` of shape `(2,)` cannot be broadcast. -/
inductive Create2dSites (nx ny : ℤ) : Except PyErr (List (Fin 2 → ℝ)) → Prop
  | empty : nx * ny ≤ 0 → Create2dSites nx ny (.error .valueError)                     -- 24
  | ok {g pts} : 0 < nx * ny → Halton.init 2 [2, 3] = .ok g →                          -- 21, 23
      HaltonCalls g (nx * ny).toNat pts → Create2dSites nx ny (.ok (pts.map scaleSite)) -- 24

section iso
variable {n d : ℕ}

/-- `np.exp(-sdkern * (d @ d))`, `corr_oracle.py:49-50`. -/
noncomputable def gaussKern (s : Fin n → Fin d → ℝ) (i j : Fin n) : ℝ :=
  Real.exp (-(12 / 100) * ∑ k, (s j k - s i k) * (s j k - s i k))

/-- The two stores of `corr_oracle.py:50-51`. -/
noncomputable def storeKern (s : Fin n → Fin d → ℝ) (i : Fin n) (S : Fin n → Fin n → ℝ) (j : Fin n) :
    Fin n → Fin n → ℝ :=
  let S := Function.update S i (Function.update (S i) j (gaussKern s i j))              -- 50
  Function.update S j (Function.update (S j) i (S i j))                                 -- 51

/-- `Sig`, `corr_oracle.py:46-51`. -/
noncomputable def isoSig (s : Fin n → Fin d → ℝ) : Fin n → Fin n → ℝ :=
  (List.finRange n).foldl (fun S i =>                                                   -- 47
    ((List.finRange n).filter (i ≤ ·)).foldl (storeKern s i) S)                         -- 48
    (fun _ _ => 0)                                                                      -- 46

/-- Contract of `np.linalg.cholesky`: a lower triangular factor with positive diagonal for positive definite matrices,
`LinAlgError` for the other symmetric matrices. -/
structure IsNpCholesky (chol : Matrix (Fin n) (Fin n) ℝ → Except PyErr (Matrix (Fin n) (Fin n) ℝ)) : Prop where
  ok : ∀ A, A.PosDef → ∃ L, chol A = .ok L ∧ L * Lᵀ = A ∧ (∀ i j, i < j → L i j = 0) ∧ ∀ i, 0 < L i i
  err : ∀ A, Aᵀ = A → ¬ A.PosDef → ∃ e, chol A = .error e

/-- The sampling loop, `corr_oracle.py:56-59`.  `noise` holds the draws `np.random.randn(n)` of each round, first for
line 57, then for line 58. -/
noncomputable def isoLoop (A : Matrix (Fin n) (Fin n) ℝ) :
    List ((Fin n → ℝ) × (Fin n → ℝ)) → Matrix (Fin n) (Fin n) ℝ → Matrix (Fin n) (Fin n) ℝ
  | [], Y => Y
  | (r1, r2) :: noise, Y =>
    let x := (2 : ℝ) • r1                                                               -- 43, 57
    let y := A *ᵥ x + (1 / 100000 : ℝ) • r2                                             -- 44, 58
    isoLoop A noise (Y + vecMulVec y y)                                                 -- 59

/-- `create_2d_isotropic`, `corr_oracle.py:28-62`, where `N` is the number of rounds recorded in `noise`.  For `N = 0` the
result of the code is `nan` everywhere; the theorems ask for `noise ≠ []`. -/
noncomputable def create2dIsotropic (chol : Matrix (Fin n) (Fin n) ℝ → Except PyErr (Matrix (Fin n) (Fin n) ℝ))
    (s : Fin n → Fin d → ℝ) (noise : List ((Fin n → ℝ) × (Fin n → ℝ))) : Except PyErr (Matrix (Fin n) (Fin n) ℝ) :=
  match chol (Matrix.of (isoSig s)) with                                                -- 53
  | .error e => .error e
  | .ok A => .ok ((noise.length : ℝ)⁻¹ • isoLoop A noise 0)                             -- 54-62

end iso
end Verif
