import Verif.Model.Py
import Mathlib.Algebra.Order.Field.Basic

/-!
# Model of `src/ellpy/cutting_plane.py`

All drivers are generic over a world `W` (everything mutable: the search space object, the oracle
object, the heap) that is threaded through the oracle and through `S.update`.  `X` is whatever
`S.xc` evaluates to (a value for `ell1d`, an array *reference* for `ell`), `C` the type of cuts.
-/
namespace Verif

/-- `cutting_plane.py:6-10` -/
inductive CUTStatus where
  | success | nosoln | smallenough | noeffect
  deriving DecidableEq, Repr

/-- `cutting_plane.py:13-15`.  Defaults: `max_it = 2000`, `tol = 1e-8`. -/
structure Options (α : Type _) where
  maxIt : Int
  tol : α

/-- `cutting_plane.py:18-29` -/
structure CInfo where
  feasible : Bool
  numIters : Nat
  status : CUTStatus
  deriving DecidableEq, Repr

/-- The part of a search space object the drivers use: the property `S.xc` and the method
`S.update(cut)`, which returns `(status, tsq)`. -/
structure Space (W X C α : Type _) where
  xc : W → X
  update : C → W → Except PyErr (W × CUTStatus × α)

section Drivers
variable {W X C α T : Type _}

/-- Local variables of `cutting_plane_feas` (plus the world). -/
structure FeasSt (W : Type _) where
  w : W
  feasible : Bool
  status : CUTStatus

/-- Loop body, `cutting_plane.py:63-73`. -/
def feasBody [LT α] [DecidableLT α] (Ω : X → W → Except PyErr (W × Option C))
    (S : Space W X C α) (tol : α) (_niter : Nat) (s : FeasSt W) :
    Except PyErr (Step (FeasSt W)) :=
  match Ω (S.xc s.w) s.w with                                   -- 63
  | .error e => .error e
  | .ok (w1, none) => .ok (.brk { s with w := w1, feasible := true })   -- 64-66
  | .ok (w1, some cut) =>
    match S.update cut w1 with                                  -- 67
    | .error e => .error e
    | .ok (w2, cutstatus, tsq) =>
      if cutstatus ≠ .success then                              -- 68-70
        .ok (.brk { s with w := w2, status := cutstatus })
      else if tsq < tol then                                    -- 71-73
        .ok (.brk { s with w := w2, status := .smallenough })
      else .ok (.cont { s with w := w2 })

/-- `cutting_plane.py:32-74`, `cutting_plane_feas`. -/
def cuttingPlaneFeas [LT α] [DecidableLT α] (Ω : X → W → Except PyErr (W × Option C))
    (S : Space W X C α) (o : Options α) (w : W) : Except PyErr (W × CInfo) :=
  match forRange o.maxIt (feasBody Ω S o.tol) ⟨w, false, .success⟩ with   -- 60-73
  | .error e => .error e
  | .ok (s, last) =>
    match readVar last with
    | .error e => .error e
    | .ok niter => .ok (s.w, ⟨s.feasible, niter + 1, s.status⟩)           -- 74

/-- Local variables of `cutting_plane_dc`. -/
structure DcSt (W X T : Type _) where
  w : W
  xBest : Option X
  t : T
  status : CUTStatus

/-- Loop body, `cutting_plane.py:100-110`. -/
def dcBody [LT α] [DecidableLT α] (Ω : X → T → W → Except PyErr (W × C × Option T))
    (S : Space W X C α) (tol : α) (_niter : Nat) (s : DcSt W X T) :
    Except PyErr (Step (DcSt W X T)) :=
  match Ω (S.xc s.w) s.t s.w with                               -- 100
  | .error e => .error e
  | .ok (w1, cut, t1) =>
    let s1 : DcSt W X T := match t1 with                        -- 101-103
      | some t' => { s with w := w1, t := t', xBest := some (S.xc w1) }
      | none => { s with w := w1 }
    match S.update cut w1 with                                  -- 104
    | .error e => .error e
    | .ok (w2, cutstatus, tsq) =>
      if cutstatus ≠ .success then                              -- 105-107
        .ok (.brk { s1 with w := w2, status := cutstatus })
      else if tsq < tol then                                    -- 108-110
        .ok (.brk { s1 with w := w2, status := .smallenough })
      else .ok (.cont { s1 with w := w2 })

/-- `cutting_plane.py:77-112`, `cutting_plane_dc`; returns `(x_best, t, ret)`. -/
def cuttingPlaneDc [LT α] [DecidableLT α] [DecidableEq T]
    (Ω : X → T → W → Except PyErr (W × C × Option T))
    (S : Space W X C α) (tOrig : T) (o : Options α) (w : W) :
    Except PyErr (W × Option X × T × CInfo) :=
  match forRange o.maxIt (dcBody Ω S o.tol) ⟨w, none, tOrig, .success⟩ with   -- 95-110
  | .error e => .error e
  | .ok (s, last) =>
    match readVar last with
    | .error e => .error e
    | .ok niter => .ok (s.w, s.xBest, s.t, ⟨decide (s.t ≠ tOrig), niter + 1, s.status⟩)  -- 111-112

/-- Local variables of `cutting_plane_q`.  `Y` is the type of `x0.copy()`. -/
structure QSt (W Y T : Type _) where
  w : W
  xBest : Option Y
  t : T
  status : CUTStatus

/-- Loop body, `cutting_plane.py:137-150`.  `copy` is `x0.copy()`: it reads the world at that moment
and returns a fresh private value. -/
def qBody {X0 Y : Type _} [LT α] [DecidableLT α]
    (Ω : X → T → Bool → W → Except PyErr (W × C × X0 × Option T × Bool))
    (copy : X0 → W → Y) (S : Space W X C α) (tol : α) (_niter : Nat) (s : QSt W Y T) :
    Except PyErr (Step (QSt W Y T)) :=
  let retry : Bool := decide (s.status = .noeffect)             -- 137
  match Ω (S.xc s.w) s.t retry s.w with                         -- 138
  | .error e => .error e
  | .ok (w1, cut, x0, t1, moreAlt) =>
    let s1 : QSt W Y T := match t1 with                         -- 139-141
      | some t' => { s with w := w1, t := t', xBest := some (copy x0 w1) }
      | none => { s with w := w1 }
    match S.update cut w1 with                                  -- 142
    | .error e => .error e
    | .ok (w2, status, tsq) =>
      let s2 : QSt W Y T := { s1 with w := w2, status := status }
      if status = .noeffect ∧ moreAlt = false then .ok (.brk s2)          -- 143-145
      else if status = .nosoln then .ok (.brk s2)                         -- 146-147
      else if tsq < tol then .ok (.brk { s2 with status := .smallenough })  -- 148-150
      else .ok (.cont s2)

/-- `cutting_plane.py:115-153`, `cutting_plane_q`. -/
def cuttingPlaneQ {X0 Y : Type _} [LT α] [DecidableLT α] [DecidableEq T]
    (Ω : X → T → Bool → W → Except PyErr (W × C × X0 × Option T × Bool))
    (copy : X0 → W → Y) (S : Space W X C α) (tOrig : T) (o : Options α) (w : W) :
    Except PyErr (W × Option Y × T × CInfo) :=
  match forRange o.maxIt (qBody Ω copy S o.tol) ⟨w, none, tOrig, .nosoln⟩ with  -- 132-150
  | .error e => .error e
  | .ok (s, last) =>
    match readVar last with
    | .error e => .error e
    | .ok niter => .ok (s.w, s.xBest, s.t, ⟨decide (s.t ≠ tOrig), niter + 1, s.status⟩)  -- 152-153

/-- Local variables of `bsearch`. -/
structure BsSt (W α : Type _) where
  w : W
  lower : α
  upper : α
  status : CUTStatus

/-- Loop body of `bsearch`, `cutting_plane.py:179-187`.  `conv` is the conversion `T(lower + tau)`:
the identity for `float`/`Fraction`, truncation towards zero for `int`. -/
def bsearchBody [Field α] [LT α] [DecidableLT α] (Ω : α → W → Except PyErr (W × Bool))
    (conv : α → α) (tol : α) (_niter : Nat) (s : BsSt W α) : Except PyErr (Step (BsSt W α)) :=
  let tau := (s.upper - s.lower) / 2                            -- 179
  if tau < tol then .ok (.brk { s with status := .smallenough })  -- 180-182
  else
    let t := conv (s.lower + tau)                               -- 183
    match Ω t s.w with                                          -- 184
    | .error e => .error e
    | .ok (w1, true) => .ok (.cont { s with w := w1, upper := t })    -- 185
    | .ok (w1, false) => .ok (.cont { s with w := w1, lower := t })   -- 187

/-- `cutting_plane.py:156-190`, `bsearch`; returns `(upper, ret)`.  Note `niter`, not `niter + 1`. -/
def bsearch [Field α] [LT α] [DecidableLT α] [DecidableEq α] (Ω : α → W → Except PyErr (W × Bool))
    (conv : α → α) (lower upper : α) (o : Options α) (w : W) : Except PyErr (W × α × CInfo) :=
  match forRange o.maxIt (bsearchBody Ω conv o.tol) ⟨w, lower, upper, .success⟩ with
  | .error e => .error e
  | .ok (s, last) =>
    match readVar last with
    | .error e => .error e
    | .ok niter => .ok (s.w, s.upper, ⟨decide (s.upper ≠ upper), niter, s.status⟩)   -- 189-190

/-- `bsearch_adaptor.__call__`, `cutting_plane.py:217-231`.

`copyS w` performs `S = self.S.copy()` and returns the view of the world in which the copy is the
driver's search space together with the way back: `Sp` is the space interface of the *copy*;
`pUpdate t` is `self.P.update(t)`; `setXc x` is the assignment `self.S.xc = x`. -/
def bsearchAdaptor {Wc : Type _} [LT α] [DecidableLT α]
    (copyS : W → Except PyErr Wc) (pUpdate : T → Wc → Except PyErr Wc)
    (Ω : X → Wc → Except PyErr (Wc × Option C)) (Sp : Space Wc X C α)
    (setXc : X → Wc → W) (forget : Wc → W) (o : Options α) (t : T) (w : W) :
    Except PyErr (W × Bool) :=
  match copyS w with                                            -- 226
  | .error e => .error e
  | .ok wc =>
  match pUpdate t wc with                                       -- 227
  | .error e => .error e
  | .ok wc1 =>
  match cuttingPlaneFeas Ω Sp o wc1 with                        -- 228
  | .error e => .error e
  | .ok (wc2, info) =>
    if info.feasible then .ok (setXc (Sp.xc wc2) wc2, true)     -- 229-231
    else .ok (forget wc2, false)

end Drivers
end Verif
