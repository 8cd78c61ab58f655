import Verif.Model.EllMem
import Verif.Props.Alias

/-!
# C118: the shape matrices of `ell` objects are private

Programs creating, copying and updating any number of `ell` objects, with every array in memory.
-/
namespace Verif
open Matrix
variable {n : ℕ}

namespace Mem

/-- What object `j` holds, apart from its centre: flags, shape and scale. -/
def shapeOf (m : Mem n) (j : ℕ) : Option (Bool × Bool × Matrix (Fin n) (Fin n) ℝ × ℝ) :=
  m.objs[j]?.map fun E => (E.usePar, E.noDefer, m.mat E.Q, E.kappa)

/-- The centre of object `j`. -/
def centreOf (m : Mem n) (j : ℕ) : Option (Fin n → ℝ) := m.objs[j]?.map fun E => m.vec E.xc

/-- Seen with the matrices as values. -/
def abs (m : Mem n) : HMem n := ⟨m.vec, m.objs.map fun E => ⟨E.usePar, E.noDefer, E.xc, m.mat E.Q, E.kappa⟩⟩

/-- No two objects share a matrix, and unused references are unused. -/
structure Inv (m : Mem n) : Prop where
  lt : ∀ E ∈ m.objs, E.Q < m.fresh
  nodup : (m.objs.map (·.Q)).Nodup

/-- The memory of a program that has not created any object. -/
theorem Inv.empty (h : Heap n) (M : Ref → Matrix (Fin n) (Fin n) ℝ) (k : Ref) : Inv ⟨h, M, k, []⟩ := ⟨by simp, by simp⟩

theorem abs_get (m : Mem n) (i : ℕ) : m.abs.objs[i]? = m.objs[i]?.map fun E => ⟨E.usePar, E.noDefer, E.xc, m.mat E.Q, E.kappa⟩ := by
  simp [abs]

/-- A step on object `i` that changes only its own matrix. -/
theorem abs_set {m : Mem n} (hm : m.Inv) {i : ℕ} {E : MEll} (hi : m.objs[i]? = some E) (E' : MEll) (hQ : E'.Q = E.Q) (h : Heap n)
    (M : Matrix (Fin n) (Fin n) ℝ) :
    Mem.abs (⟨h, Function.update m.mat E.Q M, m.fresh, m.objs.set i E'⟩ : Mem n) =
      ⟨h, m.abs.objs.set i ⟨E'.usePar, E'.noDefer, E'.xc, M, E'.kappa⟩⟩ := by
  obtain ⟨hlt, hE⟩ := List.getElem?_eq_some_iff.1 hi
  simp only [abs, HMem.mk.injEq, true_and]
  apply List.ext_getElem?
  intro j
  rw [List.getElem?_map, List.getElem?_set, List.getElem?_set, List.getElem?_map]
  simp only [List.length_map]
  by_cases hj : i = j
  · subst hj
    simp only [if_true, hlt, Option.map_some, hQ, Function.update_self]
  · rw [if_neg hj, if_neg hj]
    cases hF : m.objs[j]? with
    | none => rfl
    | some F =>
      obtain ⟨hlt', hF'⟩ := List.getElem?_eq_some_iff.1 hF
      have : F.Q ≠ E.Q := fun h => by
        have := (List.Nodup.getElem_inj_iff hm.nodup (hi := by simpa using hlt') (hj := by simpa using hlt)).1
          (by simp only [List.getElem_map, hF', hE, h])
        exact hj this.symm
      simp only [Option.map_some, Function.update_of_ne this]

theorem inv_set {m : Mem n} (hm : m.Inv) {i : ℕ} {E : MEll} (hi : m.objs[i]? = some E) (E' : MEll) (hQ : E'.Q = E.Q) (h : Heap n)
    (M : Ref → Matrix (Fin n) (Fin n) ℝ) : Inv (⟨h, M, m.fresh, m.objs.set i E'⟩ : Mem n) := by
  obtain ⟨hlt, hE⟩ := List.getElem?_eq_some_iff.1 hi
  have hmap : (m.objs.set i E').map (·.Q) = m.objs.map (·.Q) := by
    rw [List.map_set, hQ, ← hE]
    apply List.ext_getElem?
    intro j
    rw [List.getElem?_set]
    split_ifs with h1 h2
    · subst h1; simp [hlt]
    · subst h1; simp at h2; omega
    · rfl
  refine ⟨fun F hF => ?_, by rw [hmap]; exact hm.nodup⟩
  have h1 : F.Q ∈ m.objs.map (·.Q) := by rw [← hmap]; exact List.mem_map_of_mem hF
  obtain ⟨G, hG, h2⟩ := List.mem_map.1 h1
  exact h2 ▸ hm.lt G hG

/-- A new object whose matrix is freshly allocated (possibly after another allocation that nothing refers to). -/
theorem abs_append {m : Mem n} (hm : m.Inv) (E : MEll) (M : Ref → Matrix (Fin n) (Fin n) ℝ) (k : Ref) (hk : m.fresh ≤ E.Q) (hk' : E.Q < k)
    (hM : ∀ r, r < m.fresh → M r = m.mat r) :
    Mem.abs (⟨m.vec, M, k, m.objs ++ [E]⟩ : Mem n) = ⟨m.vec, m.abs.objs ++ [⟨E.usePar, E.noDefer, E.xc, M E.Q, E.kappa⟩]⟩ ∧
      Inv (⟨m.vec, M, k, m.objs ++ [E]⟩ : Mem n) := by
  refine ⟨?_, fun F hF => ?_, ?_⟩
  · simp only [abs, List.map_append, List.map_cons, List.map_nil, HMem.mk.injEq, true_and]
    congr 1
    apply List.map_congr_left
    intro F hF
    rw [hM _ (hm.lt F hF)]
  · rcases List.mem_append.1 hF with h | h
    · exact (hm.lt F h).trans_le (hk.trans hk'.le)
    · rw [List.mem_singleton] at h; rw [h]; exact hk'
  · rw [List.map_append, List.map_cons, List.map_nil, List.nodup_append]
    refine ⟨hm.nodup, by simp, ?_⟩
    intro a ha b hb
    rw [List.mem_singleton] at hb
    obtain ⟨F, hF, rfl⟩ := List.mem_map.1 ha
    rw [hb]
    exact ((hm.lt F hF).trans_le hk).ne

theorem pyDiv_err {a b : ℝ} {e : PyErr} (h : pyDiv a b = .error e) : e = .zeroDivision := by
  unfold pyDiv at h
  split_ifs at h
  exact (Except.error.inj h).symm

theorem exec_sim (op : EllOp n) {m : Mem n} (hm : m.Inv) :
    (exec m op).map (fun r => (r.1.abs, r.2)) = HMem.exec m.abs op ∧ ∀ m' l, exec m op = .ok (m', l) → m'.Inv := by
  cases op with
  | new val x =>
    simp only [exec, new, HMem.exec, HEll.init]
    cases Ell.c1? n with
    | error e => exact ⟨rfl, by simp⟩
    | ok c =>
      cases val with
      | scalar v =>
        obtain ⟨h1, h2⟩ := abs_append hm ⟨true, false, x, m.fresh, v⟩ (Function.update m.mat m.fresh 1) (m.fresh + 1) le_rfl
          (Nat.lt_succ_self _) fun r hr => Function.update_of_ne hr.ne _ _
        simp only [allocMat, Except.map, h1, Function.update_self, Except.ok.injEq, Prod.mk.injEq, and_imp]
        exact ⟨⟨rfl, trivial⟩, fun m' l e _ => e ▸ h2⟩
      | diag v =>
        obtain ⟨h1, h2⟩ := abs_append hm ⟨true, false, x, m.fresh, 1⟩ (Function.update m.mat m.fresh (Matrix.diagonal v)) (m.fresh + 1) le_rfl
          (Nat.lt_succ_self _) fun r hr => Function.update_of_ne hr.ne _ _
        simp only [allocMat, Except.map, h1, Function.update_self, Except.ok.injEq, Prod.mk.injEq, and_imp]
        exact ⟨⟨rfl, trivial⟩, fun m' l e _ => e ▸ h2⟩
  | copy i =>
    simp only [exec, HMem.exec, abs_get]
    cases hi : m.objs[i]? with
    | none => exact ⟨rfl, by simp⟩
    | some E =>
      simp only [Option.map_some, copyObj, new, HEll.copy, HEll.init]
      cases Ell.c1? n with
      | error e => exact ⟨rfl, by simp⟩
      | ok c =>
        have hE := hm.lt E (List.mem_of_getElem? hi)
        obtain ⟨h1, h2⟩ := abs_append hm ⟨E.usePar, E.noDefer, E.xc, m.fresh + 1, E.kappa⟩
          (Function.update (Function.update m.mat m.fresh 1) (m.fresh + 1) (m.mat E.Q)) (m.fresh + 1 + 1) (Nat.le_succ _)
          (Nat.lt_succ_self _) fun r hr => by
            rw [Function.update_of_ne (hr.trans (Nat.lt_succ_self _)).ne, Function.update_of_ne hr.ne]
        simp only [allocMat, Except.map, Function.update_of_ne hE.ne, h1, Function.update_self, Except.ok.injEq, Prod.mk.injEq, and_imp]
        exact ⟨⟨rfl, trivial⟩, fun m' l e _ => e ▸ h2⟩
  | update i cut =>
    simp only [exec, HMem.exec, abs_get]
    cases hi : m.objs[i]? with
    | none => exact ⟨rfl, by simp⟩
    | some E =>
      have hv : m.abs.vec = m.vec := rfl
      simp only [Option.map_some, updateObj, HEll.update, HEll.load, Ell.update, hv]
      rcases hc : Ell.calcLl n E.usePar (E.kappa * cut.1 ⬝ᵥ m.mat E.Q *ᵥ cut.1) cut.2 with e | ⟨st | ⟨ρ, σ, δ⟩, tsq⟩
      · exact ⟨rfl, by simp⟩
      · have h1 := abs_set hm hi E rfl m.vec (m.mat E.Q)
        rw [Function.update_eq_self] at h1
        simp only [Except.map, h1, Function.update_eq_self, ite_self, Except.ok.injEq, Prod.mk.injEq, and_imp]
        exact ⟨trivial, fun m' l e _ => e ▸ inv_set hm hi E rfl _ _⟩
      · rcases hr : pyDiv ρ (cut.1 ⬝ᵥ m.mat E.Q *ᵥ cut.1) with e | ro
        · obtain rfl : e = .zeroDivision := pyDiv_err hr
          simp only [hr]
          exact ⟨rfl, by simp⟩
        rcases hs : pyDiv σ (cut.1 ⬝ᵥ m.mat E.Q *ᵥ cut.1) with e | so
        · obtain rfl : e = .zeroDivision := pyDiv_err hs
          simp only [hr, hs]
          exact ⟨rfl, by simp⟩
        simp only [hr, hs]
        cases hd : E.noDefer with
        | true =>
          have h1 := abs_set hm hi E rfl (Function.update m.vec E.xc (m.vec E.xc - ro • m.mat E.Q *ᵥ cut.1))
            (δ • (m.mat E.Q - so • vecMulVec (m.mat E.Q *ᵥ cut.1) (m.mat E.Q *ᵥ cut.1)))
          simp only [if_true, Function.update_self, Function.update_idem, Except.map, h1, hd, Except.ok.injEq, Prod.mk.injEq, and_imp]
          exact ⟨trivial, fun m' l e _ => e ▸ inv_set hm hi E rfl _ _⟩
        | false =>
          have h1 := abs_set hm hi { E with kappa := E.kappa * δ } rfl (Function.update m.vec E.xc (m.vec E.xc - ro • m.mat E.Q *ᵥ cut.1))
            (m.mat E.Q - so • vecMulVec (m.mat E.Q *ᵥ cut.1) (m.mat E.Q *ᵥ cut.1))
          simp only [hd] at h1
          simp only [Bool.false_eq_true, if_false, if_true, Except.map, h1, Except.ok.injEq, Prod.mk.injEq, and_imp]
          refine ⟨trivial, fun m' l e _ => e ▸ ?_⟩
          have h2 := inv_set hm hi { E with kappa := E.kappa * δ } rfl (Function.update m.vec E.xc (m.vec E.xc - ro • m.mat E.Q *ᵥ cut.1))
            (Function.update m.mat E.Q (m.mat E.Q - so • vecMulVec (m.mat E.Q *ᵥ cut.1) (m.mat E.Q *ᵥ cut.1)))
          simpa only [hd] using h2
  | setXc i x =>
    simp only [exec, HMem.exec, abs_get]
    cases hi : m.objs[i]? with
    | none => exact ⟨rfl, by simp⟩
    | some E =>
      have h1 := abs_set hm hi { E with xc := x } rfl m.vec (m.mat E.Q)
      rw [Function.update_eq_self] at h1
      simp only [Option.map_some, Except.map, h1, HEll.setXc, Except.ok.injEq, Prod.mk.injEq, and_imp]
      exact ⟨⟨rfl, trivial⟩, fun m' l e _ => e ▸ inv_set hm hi { E with xc := x } rfl _ _⟩
  | setPar i b =>
    simp only [exec, HMem.exec, abs_get]
    cases hi : m.objs[i]? with
    | none => exact ⟨rfl, by simp⟩
    | some E =>
      have h1 := abs_set hm hi { E with usePar := b } rfl m.vec (m.mat E.Q)
      rw [Function.update_eq_self] at h1
      simp only [Option.map_some, Except.map, h1, Except.ok.injEq, Prod.mk.injEq, and_imp]
      exact ⟨⟨rfl, trivial⟩, fun m' l e _ => e ▸ inv_set hm hi { E with usePar := b } rfl _ _⟩
  | setDefer i b =>
    simp only [exec, HMem.exec, abs_get]
    cases hi : m.objs[i]? with
    | none => exact ⟨rfl, by simp⟩
    | some E =>
      have h1 := abs_set hm hi { E with noDefer := b } rfl m.vec (m.mat E.Q)
      rw [Function.update_eq_self] at h1
      simp only [Option.map_some, Except.map, h1, Except.ok.injEq, Prod.mk.injEq, and_imp]
      exact ⟨⟨rfl, trivial⟩, fun m' l e _ => e ▸ inv_set hm hi { E with noDefer := b } rfl _ _⟩
  | write x v =>
    refine ⟨rfl, fun m' l h => ?_⟩
    simp only [exec, Except.ok.injEq, Prod.mk.injEq] at h
    rw [← h.1]
    exact ⟨hm.lt, hm.nodup⟩

theorem run_sim (ops : List (EllOp n)) {m : Mem n} (hm : m.Inv) :
    (run ops m).map (fun r => (r.1.abs, r.2)) = HMem.run ops m.abs ∧ ∀ m' l, run ops m = .ok (m', l) → m'.Inv := by
  induction ops generalizing m with
  | nil => exact ⟨rfl, fun m' l h => by simp only [run, Except.ok.injEq, Prod.mk.injEq] at h; exact h.1 ▸ hm⟩
  | cons op ops ih =>
    obtain ⟨h1, h2⟩ := exec_sim op hm
    simp only [run, HMem.run, ← h1]
    rcases hx : exec m op with e | ⟨m1, l1⟩
    · exact ⟨rfl, by simp⟩
    · obtain ⟨h3, h4⟩ := ih (h2 m1 l1 hx)
      simp only [Except.map, ← h3]
      rcases hy : run ops m1 with e | ⟨m2, l2⟩
      · exact ⟨rfl, by simp⟩
      · refine ⟨rfl, fun m' l h => ?_⟩
        simp only [Except.ok.injEq, Prod.mk.injEq] at h
        exact h.1 ▸ h4 m2 l2 hy

end Mem
open Mem

/-- **C118** (refinement).  Whatever a program does with `ell` objects (creating, copying, updating, assigning centres and flags,
writing into arrays it holds), with every array in memory: it returns or raises exactly as if each object held its matrix as a value, and
then the updates have answered the same, the vectors in memory are the same, and so are the objects. -/
theorem C118_refines (ops : List (EllOp n)) (h : Heap n) (M : Ref → Matrix (Fin n) (Fin n) ℝ) (k : Ref) :
    (Mem.run ops ⟨h, M, k, []⟩).map (fun r => (r.1.abs, r.2)) = HMem.run ops ⟨h, []⟩ :=
  (run_sim ops (Inv.empty h M k)).1

/-- The operation changes a flag of object `j` or updates it. -/
def EllOp.changes (j : ℕ) : EllOp n → Prop
  | .update i _ => i = j
  | .setPar i _ => i = j
  | .setDefer i _ => i = j
  | _ => False

theorem HMem.exec_other {j : ℕ} {op : EllOp n} (hop : ¬ op.changes j) {m m' : HMem n} {l : List (CUTStatus × ℝ)} (hj : j < m.objs.length)
    (h : HMem.exec m op = .ok (m', l)) : j < m'.objs.length ∧
      m'.objs[j]?.map (fun E => (E.usePar, E.noDefer, E.Q, E.kappa)) = m.objs[j]?.map fun E => (E.usePar, E.noDefer, E.Q, E.kappa) := by
  have happ : ∀ E : HEll n, (m.objs ++ [E])[j]? = m.objs[j]? := fun E => List.getElem?_append_left hj
  cases op with
  | new val x =>
    simp only [HMem.exec] at h
    split at h
    · simp at h
    · simp only [Except.ok.injEq, Prod.mk.injEq] at h
      rw [← h.1]; exact ⟨by simp only [List.length_append]; omega, by rw [happ]⟩
  | copy i =>
    simp only [HMem.exec] at h
    split at h
    · simp at h
    · split at h
      · simp at h
      · simp only [Except.ok.injEq, Prod.mk.injEq] at h
        rw [← h.1]; exact ⟨by simp only [List.length_append]; omega, by rw [happ]⟩
  | update i cut =>
    simp only [HMem.exec] at h
    split at h
    · simp at h
    · split at h
      · simp at h
      · simp only [Except.ok.injEq, Prod.mk.injEq] at h
        rw [← h.1]; exact ⟨by simpa using hj, by rw [List.getElem?_set_ne hop]⟩
  | setXc i x =>
    simp only [HMem.exec] at h
    split at h
    · simp at h
    · rename_i E hi
      simp only [Except.ok.injEq, Prod.mk.injEq] at h
      rw [← h.1]
      refine ⟨by simpa using hj, ?_⟩
      by_cases hij : i = j
      · subst hij; rw [hi]; simp [hj, HEll.setXc]
      · rw [List.getElem?_set_ne hij]
  | setPar i b =>
    simp only [HMem.exec] at h
    split at h
    · simp at h
    · simp only [Except.ok.injEq, Prod.mk.injEq] at h
      rw [← h.1]; exact ⟨by simpa using hj, by rw [List.getElem?_set_ne hop]⟩
  | setDefer i b =>
    simp only [HMem.exec] at h
    split at h
    · simp at h
    · simp only [Except.ok.injEq, Prod.mk.injEq] at h
      rw [← h.1]; exact ⟨by simpa using hj, by rw [List.getElem?_set_ne hop]⟩
  | write x v =>
    simp only [HMem.exec, Except.ok.injEq, Prod.mk.injEq] at h
    rw [← h.1]; exact ⟨hj, rfl⟩

theorem Mem.shapeOf_abs (m : Mem n) (j : ℕ) : m.shapeOf j = m.abs.objs[j]?.map fun E => (E.usePar, E.noDefer, E.Q, E.kappa) := by
  rw [abs_get, Option.map_map]; rfl

/-- **C118** (privacy).  Take any program `ops₁` and continue it by any `ops₂` that does not itself update object `j` or set its
flags.  Then at the end the shape, the scale and the flags of object `j` are what they were after `ops₁`; however many
copies of it (or originals of it) were updated in between. -/
theorem C118_shape_private (ops₁ ops₂ : List (EllOp n)) {h : Heap n} {M : Ref → Matrix (Fin n) (Fin n) ℝ} {k : Ref} {m₁ m₂ : Mem n}
    {l₁ l₂ : List (CUTStatus × ℝ)} (h₁ : Mem.run ops₁ ⟨h, M, k, []⟩ = .ok (m₁, l₁)) (h₂ : Mem.run ops₂ m₁ = .ok (m₂, l₂)) {j : ℕ}
    (hj : j < m₁.objs.length) (hops : ∀ op ∈ ops₂, ¬ op.changes j) : m₂.shapeOf j = m₁.shapeOf j := by
  have hinv := (run_sim ops₁ (Inv.empty h M k)).2 m₁ l₁ h₁
  clear h₁
  induction ops₂ generalizing m₁ l₂ with
  | nil => simp only [Mem.run, Except.ok.injEq, Prod.mk.injEq] at h₂; rw [h₂.1]
  | cons op ops ih =>
    obtain ⟨e1, e2⟩ := exec_sim op hinv
    simp only [Mem.run] at h₂
    rcases hx : Mem.exec m₁ op with e | ⟨m, l⟩
    · simp [hx] at h₂
    · simp only [hx] at h₂ e1
      rcases hy : Mem.run ops m with e | ⟨m', l'⟩
      · simp [hy] at h₂
      · simp only [hy, Except.ok.injEq, Prod.mk.injEq] at h₂
        obtain ⟨hl, hs⟩ := HMem.exec_other (hops op (by simp)) (by simpa [Mem.abs] using hj) e1.symm
        rw [← shapeOf_abs, ← shapeOf_abs] at hs
        obtain ⟨rfl, -⟩ := h₂
        rw [ih hy (by simpa [Mem.abs] using hl) (fun o ho => hops o (by simp [ho])) (e2 m l hx), hs]

/-- **C118** (`copy`): in dimension other than 1 it succeeds, and the new object has the same centre, shape, scale and flags. -/
theorem C118_copy (hn : n ≠ 1) {m : Mem n} {i : ℕ} (hm : m.Inv) (hi : i < m.objs.length) :
    ∃ m', Mem.exec m (.copy i) = .ok (m', []) ∧ m'.objs.length = m.objs.length + 1 ∧
      m'.shapeOf m.objs.length = m.shapeOf i ∧ m'.centreOf m.objs.length = m.centreOf i ∧
      ∀ j, j < m.objs.length → m'.shapeOf j = m.shapeOf j ∧ m'.centreOf j = m.centreOf j := by
  obtain ⟨h1, -⟩ := exec_sim (.copy i) hm
  have hc : Ell.c1? n = .ok (Ell.c1 n) := (C24_ell_init_const.2 hn).1
  obtain ⟨E, hE⟩ : ∃ E, m.objs[i]? = some E := ⟨_, List.getElem?_eq_getElem hi⟩
  have hlt := hm.lt E (List.mem_of_getElem? hE)
  have hlt' : E.Q ≠ m.fresh + 1 := (hlt.trans (Nat.lt_succ_self _)).ne
  refine ⟨_, by simp only [Mem.exec, hE, copyObj, Mem.new, hc, allocMat]; rfl, by simp, ?_, ?_, fun j hj => ⟨?_, ?_⟩⟩
  · simp [shapeOf, hE, Function.update_of_ne hlt.ne]
  · simp [centreOf, hE]
  · simp only [shapeOf, List.getElem?_append_left hj]
    cases hF : m.objs[j]? with
    | none => rfl
    | some F =>
      have hF' := hm.lt F (List.mem_of_getElem? hF)
      simp only [Option.map_some, Function.update_of_ne hF'.ne, Function.update_of_ne (hF'.trans (Nat.lt_succ_self _)).ne]
  · simp only [centreOf, List.getElem?_append_left hj]

/-- A program with two objects: the second is a copy of the first, and is then cut through its centre.  The first keeps its shape, as
C118 says; its centre however has moved along (the array is shared, see C24). -/
theorem C118_example (h : Heap 2) (M : Ref → Matrix (Fin 2) (Fin 2) ℝ) (k : Ref) (h0 : h 0 = 0) :
    ∃ m, Mem.run [.new (.scalar 4) 0, .copy 0, .update 1 (![1, 0], .scalar 0)] ⟨h, M, k, []⟩ = .ok (m, [(.success, 4)]) ∧
      m.shapeOf 0 = some (true, false, 1, 4) ∧ m.shapeOf 1 = some (true, false, !![1 / 3, 0; 0, 1], 16 / 3) ∧
      m.centreOf 0 = some ![-2 / 3, 0] ∧ m.centreOf 1 = some ![-2 / 3, 0] := by
  have hc : Ell.c1? 2 = .ok (Ell.c1 2) := ((C24_ell_init_const (n := 2)).2 (by norm_num)).1
  have hr := C118_refines [.new (.scalar 4) 0, .copy 0, .update 1 (![1, 0], .scalar 0)] h M k
  simp only [HMem.run, HMem.exec, HEll.init, HEll.copy, hc, List.nil_append, List.cons_append, List.getElem?_cons_zero,
    List.getElem?_cons_succ, HEll.update, HEll.load, h0, centralStep, if_true, List.set] at hr
  rcases hx : Mem.run [.new (.scalar 4) 0, .copy 0, .update 1 (![1, 0], .scalar 0)] (⟨h, M, k, []⟩ : Mem 2) with e | ⟨m, l⟩
  · rw [hx] at hr; simp [Except.map] at hr
  · rw [hx] at hr
    simp only [Except.map, Except.ok.injEq, Prod.mk.injEq] at hr
    obtain ⟨h1, rfl⟩ := hr
    have hcen : ∀ j, m.centreOf j = m.abs.objs[j]?.map fun E => m.abs.vec E.xc := fun j => by
      rw [abs_get, Option.map_map]; rfl
    refine ⟨m, rfl, ?_, ?_, ?_, ?_⟩
    · rw [Mem.shapeOf_abs, h1]; rfl
    · rw [Mem.shapeOf_abs, h1]; rfl
    · rw [hcen, h1]; simp
    · rw [hcen, h1]; simp

end Verif
