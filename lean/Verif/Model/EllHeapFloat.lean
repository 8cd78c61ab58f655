import Verif.Model.EllFloat
import Verif.Model.EllHeap
import Verif.Model.QmiFloat

/-!
# `bsearch_adaptor` over an `ell` in floating point

`Model/EllHeap.lean` again, with the rounded `update`.  `__init__`, `copy` and the setters do no arithmetic but the constants of `ell.py:41-43`, which `updateF` computes where they
are used.
-/
namespace Verif
open Matrix
variable {W T : Type _} {n : ℕ}

namespace HEll

/-- `update`, `ell.py:105-147`, every operation rounded; the new centre is written into the array `_xc` refers to (line 139). -/
noncomputable def updateF (fl : ℝ → ℝ) (dot : (Fin n → ℝ) → (Fin n → ℝ) → ℝ) (cut : (Fin n → ℝ) × Beta) (hE : Heap n × HEll n) :
    Except PyErr ((Heap n × HEll n) × CUTStatus × ℝ) :=
  match Ell.updateF fl dot cut (hE.2.load hE.1) with
  | .error e => .error e
  | .ok (E', st, tsq) =>
    if st = .success then
      .ok ((Function.update hE.1 hE.2.xc E'.xc, { hE.2 with Q := E'.Q, kappa := E'.kappa }), st, tsq)
    else .ok (hE, st, tsq)

/-- The search-space interface: `S.xc` is a reference. -/
noncomputable def spaceF (fl : ℝ → ℝ) (dot : (Fin n → ℝ) → (Fin n → ℝ) → ℝ) (W : Type _) : Space (W × Heap n × HEll n) Ref ((Fin n → ℝ) × Beta) ℝ where
  xc w := w.2.2.xc
  update c w :=
    match updateF fl dot c w.2 with
    | .error e => .error e
    | .ok (hE, st, tsq) => .ok ((w.1, hE), st, tsq)

end HEll

/-- `bsearch_adaptor.__call__` (`cutting_plane.py:217-231`) over an `ell`, every operation of the ellipsoid rounded. -/
noncomputable def probeEllF (fl : ℝ → ℝ) (dot : (Fin n → ℝ) → (Fin n → ℝ) → ℝ) (pUpdate : T → W → Except PyErr W)
    (f : (Fin n → ℝ) → W → Except PyErr (W × Option ((Fin n → ℝ) × Beta)))
    (o : Options ℝ) (t : T) (w : W × Heap n × HEll n) : Except PyErr ((W × Heap n × HEll n) × Bool) :=
  bsearchAdaptor (Wc := (W × Heap n × HEll n) × HEll n)
    (fun w => match w.2.2.copy with
      | .error e => .error e
      | .ok E' => .ok ((w.1, w.2.1, E'), w.2.2))
    (fun t w => match pUpdate t w.1.1 with
      | .error e => .error e
      | .ok w' => .ok ((w', w.1.2), w.2))
    (fun x => besidesCall (HEll.readOracle f x))
    (besides (HEll.spaceF fl dot W))
    (fun x w => (w.1.1, w.1.2.1, w.2.setXc x)) (fun w => (w.1.1, w.1.2.1, w.2)) o t w

/-- `qmi_oracle` on square matrices as the problem of the adaptor, every operation rounded (`qmi_oracle.py:89-99`). -/
noncomputable def qmiOmegaF (fl : ℝ → ℝ) (dot : ℕ → ℕ → (ℕ → ℝ) → (ℕ → ℝ) → ℝ) (F : Fin n → ℕ → ℕ → ℝ) (F0 : ℕ → ℕ → ℝ) (m : ℕ) (x : Fin n → ℝ) (w : QmiOracle ℝ) :
    Except PyErr (QmiOracle ℝ × Option ((Fin n → ℝ) × Beta)) :=
  (qmiCallF fl dot F F0 m m x w).map fun r => (r.1, r.2.map fun c => (c.1, Beta.scalar c.2))

end Verif
