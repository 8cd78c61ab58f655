import Verif.Model.Ell

/-!
# Class `ell` with its centre array in a heap

`ell.__init__` stores the caller's array (`self._xc = x`, `ell.py:45`), the property `xc` hands out the
same array (`ell.py:69-76`, despite its docstring), `update_core` changes it in place
(`self._xc -= ...`, `ell.py:139`) and `copy` passes `self.xc` to the constructor (`ell.py:62`).  Here
arrays live in a heap and these are references.

`_Q` needs no cell: every constructor path creates a fresh matrix (`np.eye`, `np.diag`), `copy` copies
it (`ell.py:63`), and no method hands it out.
-/
namespace Verif
open Matrix

/-- Reference to a numpy array. -/
abbrev Ref := ℕ

/-- Float arrays of length `n`. -/
abbrev Heap (n : ℕ) := Ref → Fin n → ℝ

/-- Attributes of an `ell`; `xc` is a reference. -/
structure HEll (n : ℕ) where
  usePar : Bool
  noDefer : Bool
  xc : Ref
  Q : Matrix (Fin n) (Fin n) ℝ
  kappa : ℝ

namespace HEll
variable {n : ℕ}

/-- The value-level object seen through the heap. -/
def load (h : Heap n) (E : HEll n) : Ell n := ⟨E.usePar, E.noDefer, h E.xc, E.Q, E.kappa⟩

/-- `__init__`, `ell.py:24-54`: keeps the reference `x`. -/
noncomputable def init (val : EllVal n) (x : Ref) : Except PyErr (HEll n) :=
  match Ell.c1? n with                                          -- 41
  | .error e => .error e
  | .ok _ =>
    match val with
    | .scalar v => .ok ⟨true, false, x, 1, v⟩                   -- 45, 47-52
    | .diag v => .ok ⟨true, false, x, Matrix.diagonal v, 1⟩     -- 45-46, 54

/-- `copy`, `ell.py:56-67`: `ell(self._kappa, self.xc)` shares the centre array. -/
noncomputable def copy (E : HEll n) : Except PyErr (HEll n) :=
  match init (n := n) (.scalar E.kappa) E.xc with
  | .error e => .error e
  | .ok E' => .ok { E' with Q := E.Q, usePar := E.usePar, noDefer := E.noDefer }

/-- `xc` setter, `ell.py:78-85`. -/
def setXc (E : HEll n) (x : Ref) : HEll n := { E with xc := x }

/-- `update`, `ell.py:105-147`: the calculation of the value-level model, with the new centre written
into the array `_xc` refers to (line 139 is `-=` on an ndarray). -/
noncomputable def update (cut : (Fin n → ℝ) × Beta) (hE : Heap n × HEll n) :
    Except PyErr ((Heap n × HEll n) × CUTStatus × ℝ) :=
  match Ell.update cut (hE.2.load hE.1) with
  | .error e => .error e
  | .ok (E', st, tsq) =>
    if st = .success then
      .ok ((Function.update hE.1 hE.2.xc E'.xc, { hE.2 with Q := E'.Q, kappa := E'.kappa }), st, tsq)
    else .ok (hE, st, tsq)

/-- The search-space interface: `S.xc` is a reference. -/
noncomputable def space (W : Type _) (n : ℕ) :
    Space (W × Heap n × HEll n) Ref ((Fin n → ℝ) × Beta) ℝ where
  xc w := w.2.2.xc
  update c w :=
    match update c w.2 with
    | .error e => .error e
    | .ok (hE, st, tsq) => .ok ((w.1, hE), st, tsq)

/-- An oracle that reads the array it is given and touches neither heap nor search space. -/
def readOracle {W A : Type _} (f : (Fin n → ℝ) → W → Except PyErr (W × A)) (x : Ref)
    (w : W × Heap n × HEll n) : Except PyErr ((W × Heap n × HEll n) × A) :=
  match f (w.2.1 x) w.1 with
  | .error e => .error e
  | .ok (w', a) => .ok ((w', w.2), a)

end HEll

section Adaptor
variable {W T : Type _}

/-- Next to the world the probe works on, carry the original object `D` along unchanged. -/
def besides {W' D X C α : Type _} (S : Space W' X C α) : Space (W' × D) X C α where
  xc w := S.xc w.1
  update c w :=
    match S.update c w.1 with
    | .error e => .error e
    | .ok (w', st, tsq) => .ok ((w', w.2), st, tsq)

/-- The same for a call of the oracle. -/
def besidesCall {W' D A : Type _} (f : W' → Except PyErr (W' × A)) (w : W' × D) :
    Except PyErr ((W' × D) × A) :=
  match f w.1 with
  | .error e => .error e
  | .ok (w', a) => .ok ((w', w.2), a)

/-- `bsearch_adaptor.__call__` (`cutting_plane.py:217-231`) over an `ell1d`.  The problem's state is `W`;
`pUpdate` is `P.update(t)`, `f` is `P.__call__`. -/
def probe1d {α : Type _} [Field α] [LinearOrder α]
    (pUpdate : T → W → Except PyErr W) (f : α → W → Except PyErr (W × Option (α × α)))
    (o : Options α) (t : T) (w : W × Ell1d α) : Except PyErr ((W × Ell1d α) × Bool) :=
  bsearchAdaptor (Wc := (W × Ell1d α) × Ell1d α)
    (fun w => .ok ((w.1, w.2.copy), w.2))
    (fun t w => match pUpdate t w.1.1 with
      | .error e => .error e
      | .ok w' => .ok ((w', w.1.2), w.2))
    (fun x => besidesCall (liftOracle (f x)))
    (besides (Ell1d.space W α))
    (fun x w => (w.1.1, w.2.setXc x)) (fun w => (w.1.1, w.2)) o t w

/-- The same over an `ell`, with references. -/
noncomputable def probeEll {n : ℕ} (pUpdate : T → W → Except PyErr W)
    (f : (Fin n → ℝ) → W → Except PyErr (W × Option ((Fin n → ℝ) × Beta)))
    (o : Options ℝ) (t : T) (w : W × Heap n × HEll n) : Except PyErr ((W × Heap n × HEll n) × Bool) :=
  bsearchAdaptor (Wc := (W × Heap n × HEll n) × HEll n)
    (fun w => match w.2.2.copy with
      | .error e => .error e
      | .ok E' => .ok ((w.1, w.2.1, E'), w.2.2))
    (fun t w => match pUpdate t w.1.1 with
      | .error e => .error e
      | .ok w' => .ok ((w', w.1.2), w.2))
    (fun x => besidesCall (HEll.readOracle f x))
    (besides (HEll.space W n))
    (fun x w => (w.1.1, w.1.2.1, w.2.setXc x)) (fun w => (w.1.1, w.1.2.1, w.2)) o t w

end Adaptor
end Verif
