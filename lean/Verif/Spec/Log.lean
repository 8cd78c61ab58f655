import Verif.Model.CuttingPlane

/-!
# Observing the calls a driver makes

The drivers are generic over the world.  Instantiating the world with `W × List Event` and wrapping
the oracle and the search space so that they append an event per call lets a specification talk
about the complete call history without changing the driver.
-/
namespace Verif

/-- One observable call.  `w`/`w'` are the worlds before and after it. -/
inductive Event (W Q A C α : Type _) where
  /-- the oracle was called with arguments `q` and answered `a` -/
  | query (w : W) (q : Q) (a : A) (w' : W)
  /-- `S.update(c)` was called and returned `(st, tsq)` -/
  | update (w : W) (c : C) (st : CUTStatus) (tsq : α) (w' : W)

namespace Event
variable {W Q A C α : Type _}

/-- Is the event an oracle call? -/
def isQuery : Event W Q A C α → Bool
  | query .. => true
  | update .. => false

/-- Is the event a call of `S.update`? -/
def isUpdate : Event W Q A C α → Bool
  | query .. => false
  | update .. => true

end Event

section Wrap
variable {W X C α T Q A : Type _}

/-- Append a query event to the log. -/
def logCall (f : W → Except PyErr (W × A)) (q : Q) (wl : W × List (Event W Q A C α)) :
    Except PyErr ((W × List (Event W Q A C α)) × A) :=
  match f wl.1 with
  | .error e => .error e
  | .ok (w', a) => .ok ((w', wl.2 ++ [.query wl.1 q a w']), a)

/-- A recording search space. -/
def logSpace (Q A : Type _) (S : Space W X C α) : Space (W × List (Event W Q A C α)) X C α where
  xc wl := S.xc wl.1
  update c wl :=
    match S.update c wl.1 with
    | .error e => .error e
    | .ok (w', st, tsq) => .ok ((w', wl.2 ++ [.update wl.1 c st tsq w']), st, tsq)

/-- Recording oracle for `cutting_plane_feas`: `query w x answer w'`. -/
def logFeas (Ω : X → W → Except PyErr (W × Option C)) :
    X → W × List (Event W X (Option C) C α) →
      Except PyErr ((W × List (Event W X (Option C) C α)) × Option C) :=
  fun x wl => logCall (Ω x) x wl

/-- Recording oracle for `cutting_plane_dc`: `query w (x, t) (cut, t1) w'`. -/
def logDc (Ω : X → T → W → Except PyErr (W × C × Option T)) :
    X → T → W × List (Event W (X × T) (C × Option T) C α) →
      Except PyErr ((W × List (Event W (X × T) (C × Option T) C α)) × C × Option T) :=
  fun x t wl => logCall (Ω x t) (x, t) wl

/-- Recording oracle for `cutting_plane_q`: `query w (x, t, retry) (cut, x0, t1, more_alt) w'`. -/
def logQ {X0 : Type _} (Ω : X → T → Bool → W → Except PyErr (W × C × X0 × Option T × Bool)) :
    X → T → Bool → W × List (Event W (X × T × Bool) (C × X0 × Option T × Bool) C α) →
      Except PyErr ((W × List (Event W (X × T × Bool) (C × X0 × Option T × Bool) C α)) ×
        C × X0 × Option T × Bool) :=
  fun x t retry wl => logCall (Ω x t retry) (x, t, retry) wl

/-- Recording predicate for `bsearch`: `query w t answer w'` (there are no updates). -/
def logBs (Ω : α → W → Except PyErr (W × Bool)) :
    α → W × List (Event W α Bool Unit α) →
      Except PyErr ((W × List (Event W α Bool Unit α)) × Bool) :=
  fun t wl => logCall (Ω t) t wl

end Wrap
end Verif
