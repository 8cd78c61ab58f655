import Verif.Model.EllHeap

/-!
# Class `ell` with both of its arrays in memory

`Verif/Model/EllHeap.lean` keeps `_Q` as a value inside the object.  Here `_Q` is a reference as well and every statement of
`ell.py` that touches an array does so through references; Props/EllMem.lean shows that the two agree, so that keeping `_Q` as
a value was right.  Several objects live side by side and programs may interleave operations on them.
-/
namespace Verif
open Matrix

/-- Attributes of an `ell`: both arrays are references. -/
structure MEll where
  usePar : Bool
  noDefer : Bool
  xc : Ref
  Q : Ref
  kappa : ℝ

/-- Memory: arrays of length `n`, `n × n` arrays, the next unused reference for the latter, and the objects created so far. -/
structure Mem (n : ℕ) where
  vec : Heap n
  mat : Ref → Matrix (Fin n) (Fin n) ℝ
  fresh : Ref
  objs : List MEll

/-- What a program can do with objects (named by their number in order of creation) and with the arrays it holds. -/
inductive EllOp (n : ℕ) where
  | new (val : EllVal n) (x : Ref)                     -- `ell(val, x)`
  | copy (i : ℕ)                                       -- `objs[i].copy()`
  | update (i : ℕ) (cut : (Fin n → ℝ) × Beta)          -- `objs[i].update(cut)`
  | setXc (i : ℕ) (x : Ref)                            -- `objs[i].xc = x`
  | setPar (i : ℕ) (b : Bool)                          -- `objs[i].use_parallel_cut = b`
  | setDefer (i : ℕ) (b : Bool)                        -- `objs[i].no_defer_trick = b`
  | write (x : Ref) (v : Fin n → ℝ)                    -- `x[:] = v`

namespace Mem
variable {n : ℕ}

/-- Allocation of an `n × n` array. -/
def allocMat (m : Mem n) (M : Matrix (Fin n) (Fin n) ℝ) : Mem n × Ref :=
  ({ m with mat := Function.update m.mat m.fresh M, fresh := m.fresh + 1 }, m.fresh)

/-- `__init__`, `ell.py:24-54`. -/
noncomputable def new (val : EllVal n) (x : Ref) (m : Mem n) : Except PyErr (Mem n × MEll) :=
  match Ell.c1? n with                                          -- 41
  | .error e => .error e
  | .ok _ =>
    match val with
    | .scalar v =>                                              -- 45-52
      let (m, q) := m.allocMat 1                                -- 48: `np.eye(n)`
      .ok (m, ⟨true, false, x, q, v⟩)
    | .diag v =>                                                -- 45-46, 54: `np.diag(val)`
      let (m, q) := m.allocMat (Matrix.diagonal v)
      .ok (m, ⟨true, false, x, q, 1⟩)

/-- `copy`, `ell.py:56-67`. -/
noncomputable def copyObj (E : MEll) (m : Mem n) : Except PyErr (Mem n × MEll) :=
  match new (.scalar E.kappa) E.xc m with                       -- 62
  | .error e => .error e
  | .ok (m, E') =>
    let (m, q) := m.allocMat (m.mat E.Q)                        -- 63: `self._Q.copy()`
    .ok (m, { E' with Q := q, usePar := E.usePar, noDefer := E.noDefer })   -- 63-66

/-- `update` / `update_core`, `ell.py:105-147`, statement by statement. -/
noncomputable def updateObj (cut : (Fin n → ℝ) × Beta) (E : MEll) (m : Mem n) :
    Except PyErr ((Mem n × MEll) × CUTStatus × ℝ) :=
  let g := cut.1
  let Qg := m.mat E.Q *ᵥ g                                      -- 132
  let omega := g ⬝ᵥ Qg                                          -- 133
  match Ell.calcLl n E.usePar (E.kappa * omega) cut.2 with      -- 134-135
  | .error e => .error e
  | .ok (.reject st, tsq) => .ok ((m, E), st, tsq)              -- 136-137
  | .ok (.accept rho sigma delta, tsq) =>
    match pyDiv rho omega with
    | .error e => .error e
    | .ok ro =>
      let m := { m with vec := Function.update m.vec E.xc (m.vec E.xc - ro • Qg) }              -- 139
      match pyDiv sigma omega with
      | .error e => .error e
      | .ok so =>
        let m := { m with mat := Function.update m.mat E.Q (m.mat E.Q - so • vecMulVec Qg Qg) } -- 140
        if E.noDefer then
          let m := { m with mat := Function.update m.mat E.Q (delta • m.mat E.Q) }              -- 143
          .ok ((m, E), .success, tsq)
        else .ok ((m, { E with kappa := E.kappa * delta }), .success, tsq)                      -- 145

/-- One operation of a program; the list is what `update` returned, if it was an update. -/
noncomputable def exec (m : Mem n) : EllOp n → Except PyErr (Mem n × List (CUTStatus × ℝ))
  | .new val x => match new val x m with
    | .error e => .error e
    | .ok (m, E) => .ok ({ m with objs := m.objs ++ [E] }, [])
  | .copy i => match m.objs[i]? with
    | none => .error .indexError
    | some E => match copyObj E m with
      | .error e => .error e
      | .ok (m, E) => .ok ({ m with objs := m.objs ++ [E] }, [])
  | .update i cut => match m.objs[i]? with
    | none => .error .indexError
    | some E => match updateObj cut E m with
      | .error e => .error e
      | .ok ((m, E), r) => .ok ({ m with objs := m.objs.set i E }, [r])
  | .setXc i x => match m.objs[i]? with
    | none => .error .indexError
    | some E => .ok ({ m with objs := m.objs.set i { E with xc := x } }, [])
  | .setPar i b => match m.objs[i]? with
    | none => .error .indexError
    | some E => .ok ({ m with objs := m.objs.set i { E with usePar := b } }, [])
  | .setDefer i b => match m.objs[i]? with
    | none => .error .indexError
    | some E => .ok ({ m with objs := m.objs.set i { E with noDefer := b } }, [])
  | .write x v => .ok ({ m with vec := Function.update m.vec x v }, [])

/-- A program; the answers of its updates in order. -/
noncomputable def run : List (EllOp n) → Mem n → Except PyErr (Mem n × List (CUTStatus × ℝ))
  | [], m => .ok (m, [])
  | op :: ops, m => match exec m op with
    | .error e => .error e
    | .ok (m, l) => match run ops m with
      | .error e => .error e
      | .ok (m, l') => .ok (m, l ++ l')

end Mem

/-- The same program on the objects of `Verif/Model/EllHeap.lean`, whose matrix is a value. -/
structure HMem (n : ℕ) where
  vec : Heap n
  objs : List (HEll n)

namespace HMem
variable {n : ℕ}

/-- One operation. -/
noncomputable def exec (m : HMem n) : EllOp n → Except PyErr (HMem n × List (CUTStatus × ℝ))
  | .new val x => match HEll.init val x with
    | .error e => .error e
    | .ok E => .ok ({ m with objs := m.objs ++ [E] }, [])
  | .copy i => match m.objs[i]? with
    | none => .error .indexError
    | some E => match E.copy with
      | .error e => .error e
      | .ok E => .ok ({ m with objs := m.objs ++ [E] }, [])
  | .update i cut => match m.objs[i]? with
    | none => .error .indexError
    | some E => match HEll.update cut (m.vec, E) with
      | .error e => .error e
      | .ok ((h, E), r) => .ok (⟨h, m.objs.set i E⟩, [r])
  | .setXc i x => match m.objs[i]? with
    | none => .error .indexError
    | some E => .ok ({ m with objs := m.objs.set i (E.setXc x) }, [])
  | .setPar i b => match m.objs[i]? with
    | none => .error .indexError
    | some E => .ok ({ m with objs := m.objs.set i { E with usePar := b } }, [])
  | .setDefer i b => match m.objs[i]? with
    | none => .error .indexError
    | some E => .ok ({ m with objs := m.objs.set i { E with noDefer := b } }, [])
  | .write x v => .ok ({ m with vec := Function.update m.vec x v }, [])

/-- A program. -/
noncomputable def run : List (EllOp n) → HMem n → Except PyErr (HMem n × List (CUTStatus × ℝ))
  | [], m => .ok (m, [])
  | op :: ops, m => match exec m op with
    | .error e => .error e
    | .ok (m, l) => match run ops m with
      | .error e => .error e
      | .ok (m, l') => .ok (m, l ++ l')

end HMem
end Verif
