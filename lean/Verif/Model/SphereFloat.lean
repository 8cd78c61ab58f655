import Verif.Model.LowDiscrFloat
import Verif.Model.Ell
import Verif.Model.Sites

/-!
# The points on spheres of `oracles/low_discr_seq.tpy`, and `create_2d_sites`, with every operation rounded

`fl` rounds one operation, `fsin` and `fcos` are the functions of the math library, `twoPI` is the float of `low_discr_seq.tpy:4`.
-/
namespace Verif
namespace LowDiscr

/-- `math.sqrt`, rounded. -/
noncomputable def pySqrtF (fl : ℝ → ℝ) (x : ℝ) : Except PyErr ℝ :=
  match pySqrt x with
  | .error e => .error e
  | .ok r => .ok (fl r)

/-- `circle.__call__`, `low_discr_seq.tpy:88-98`, from the value `v` of its generator. -/
def circlePtF (fl fsin fcos : ℝ → ℝ) (twoPI v : ℝ) : Fin 2 → ℝ :=
  let theta := fl (twoPI * v)                                    -- 97
  ![fsin theta, fcos theta]                                      -- 98

/-- `sphere.__call__`, `low_discr_seq.tpy:122-131`, from the values of `_vdc` and of the circle's generator. -/
noncomputable def spherePtF (fl fsin fcos : ℝ → ℝ) (twoPI v u : ℝ) : Except PyErr (Fin 3 → ℝ) :=
  let cosphi := fl (fl (2 * v) - 1)                              -- 128
  match pySqrtF fl (fl (1 - fl (cosphi * cosphi))) with          -- 129
  | .error e => .error e
  | .ok sinphi =>
    let cc := circlePtF fl fsin fcos twoPI u                     -- 130
    .ok ![fl (sinphi * cc 0), fl (sinphi * cc 1), cosphi]        -- 131

/-- `sphere3_hopf.__call__`, `low_discr_seq.tpy:151-171`, from the values of its three generators. -/
noncomputable def hopfPtF (fl fsin fcos : ℝ → ℝ) (twoPI v0 v1 v2 : ℝ) : Except PyErr (Fin 4 → ℝ) :=
  let phi := fl (v0 * twoPI)                                     -- 157
  let psy := fl (v1 * twoPI)                                     -- 158
  match pySqrtF fl v2, pySqrtF fl (fl (1 - v2)) with             -- 163-165
  | .ok ce, .ok se =>
    .ok ![fl (ce * fcos psy), fl (ce * fsin psy), fl (se * fcos (fl (phi + psy))), fl (se * fsin (fl (phi + psy)))]   -- 166-171
  | .error e, _ => .error e
  | _, .error e => .error e

/-- `halton.__call__` returns the list `vs`, `low_discr_seq.tpy:60-66`. -/
def Halton.YieldsF (fl : ℚ → ℚ) (g : Halton) (vs : List ℚ) : Prop := List.Forall₂ (fun h v => VdcFReturns fl (h.count + 1) h.base v) g.gens vs

end LowDiscr
open LowDiscr

/-- `k` calls of a `halton` object return the points `pts`, in this order. -/
inductive HaltonCallsF (fl : ℚ → ℚ) : Halton → ℕ → List (List ℚ) → Prop
  | nil (g) : HaltonCallsF fl g 0 []
  | cons {g k v vs} : g.YieldsF fl v → HaltonCallsF fl g.next k vs → HaltonCallsF fl g (k + 1) (v :: vs)

/-- `s_end * [..]` for one row, `corr_oracle.py:22, 24`. -/
def scaleSiteF (fl : ℚ → ℚ) (v : List ℚ) : Fin 2 → ℚ := fun i => fl ((![10, 8] : Fin 2 → ℚ) i * v.getD i 0)

/-- `create_2d_sites(nx, ny)`, `corr_oracle.py:11-25`, returns `r`. -/
inductive Create2dSitesF (fl : ℚ → ℚ) (nx ny : ℤ) : Except PyErr (List (Fin 2 → ℚ)) → Prop
  | empty : nx * ny ≤ 0 → Create2dSitesF fl nx ny (.error .valueError)                     -- 24
  | ok {g pts} : 0 < nx * ny → Halton.init 2 [2, 3] = .ok g →                              -- 21, 23
      HaltonCallsF fl g (nx * ny).toNat pts → Create2dSitesF fl nx ny (.ok (pts.map (scaleSiteF fl))) -- 24

end Verif
