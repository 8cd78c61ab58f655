import Verif.Model.Ell

/-!
# Change of variables

`E'` is the ellipsoid `E` seen in the variables `x' = A x + c`.  An oracle for a problem in `x'` becomes one for the same problem in
`x` by evaluating it at `A x + c` and transposing its gradients (the chain rule).
-/
namespace Verif
open Matrix
variable {n : ℕ}

/-- The change of variables. -/
def affineMap (A : Matrix (Fin n) (Fin n) ℝ) (c x : Fin n → ℝ) : Fin n → ℝ := A *ᵥ x + c

/-- Same flags; the centres correspond; the matrices correspond, where the common scale may be distributed differently over `kappa` and `Q`. -/
structure AffineImage (A : Matrix (Fin n) (Fin n) ℝ) (c : Fin n → ℝ) (E E' : Ell n) : Prop where
  usePar : E'.usePar = E.usePar
  noDefer : E'.noDefer = E.noDefer
  xc : E'.xc = affineMap A c E.xc
  shape : ∃ s : ℝ, s ≠ 0 ∧ E'.kappa = s * E.kappa ∧ s • E'.Q = A * E.Q * Aᵀ

/-- The cut in `x` that belongs to a cut in `x'`. -/
def pullCut (A : Matrix (Fin n) (Fin n) ℝ) (cut : (Fin n → ℝ) × Beta) : (Fin n → ℝ) × Beta := (Aᵀ *ᵥ cut.1, cut.2)

variable {W T Z : Type _}

/-- A feasibility oracle in the new variables. -/
def pullFeas (A : Matrix (Fin n) (Fin n) ℝ) (c : Fin n → ℝ) (Ω : (Fin n → ℝ) → W → Except PyErr (W × Option ((Fin n → ℝ) × Beta)))
    (x : Fin n → ℝ) (w : W) : Except PyErr (W × Option ((Fin n → ℝ) × Beta)) :=
  (Ω (affineMap A c x) w).map fun r => (r.1, r.2.map (pullCut A))

/-- An optimisation oracle in the new variables. -/
def pullDc (A : Matrix (Fin n) (Fin n) ℝ) (c : Fin n → ℝ)
    (Ω : (Fin n → ℝ) → T → W → Except PyErr (W × ((Fin n → ℝ) × Beta) × Option T)) (x : Fin n → ℝ) (t : T) (w : W) :
    Except PyErr (W × ((Fin n → ℝ) × Beta) × Option T) :=
  (Ω (affineMap A c x) t w).map fun r => (r.1, pullCut A r.2.1, r.2.2)

/-- A discrete optimisation oracle in the new variables; the point it was evaluated at is reported in its own variables. -/
def pullQ (A : Matrix (Fin n) (Fin n) ℝ) (c : Fin n → ℝ)
    (Ω : (Fin n → ℝ) → T → Bool → W → Except PyErr (W × ((Fin n → ℝ) × Beta) × Z × Option T × Bool)) (x : Fin n → ℝ) (t : T) (r : Bool) (w : W) :
    Except PyErr (W × ((Fin n → ℝ) × Beta) × Z × Option T × Bool) :=
  (Ω (affineMap A c x) t r w).map fun q => (q.1, pullCut A q.2.1, q.2.2)

end Verif
