import Verif.Model.CuttingPlane
import Mathlib.Data.Set.Basic

/-! # Contract between drivers, search spaces and oracles (point sets only) -/
namespace Verif
variable {W X C α P : Type _}

/-- `mem w` is the point set the space denotes in world `w`; `sat x c` the set of points satisfying a
cut `c` issued at centre `x`; `Inv` an object invariant. -/
structure SoundSpace (S : Space W X C α) (Inv : W → Prop) (mem : W → Set P) (sat : X → C → Set P) :
    Prop where
  /-- updates keep the invariant -/
  inv : ∀ c w w' st tsq, Inv w → S.update c w = .ok (w', st, tsq) → Inv w'
  /-- no point satisfying the cut is lost -/
  keep : ∀ c w w' st tsq, Inv w → S.update c w = .ok (w', st, tsq) →
    ∀ p ∈ mem w, p ∈ sat (S.xc w) c → p ∈ mem w'
  /-- `nosoln` is only reported when no point of the space satisfies the cut -/
  nosoln : ∀ c w w' tsq, Inv w → S.update c w = .ok (w', .nosoln, tsq) →
    ∀ p ∈ mem w, p ∉ sat (S.xc w) c

/-- The oracle call does not touch the search space. -/
structure Frame {A : Type _} (S : Space W X C α) (Inv : W → Prop) (mem : W → Set P)
    (call : W → Except PyErr (W × A)) : Prop where
  xc : ∀ w w' a, call w = .ok (w', a) → S.xc w' = S.xc w
  mem : ∀ w w' a, call w = .ok (w', a) → mem w' = mem w
  inv : ∀ w w' a, Inv w → call w = .ok (w', a) → Inv w'

end Verif
