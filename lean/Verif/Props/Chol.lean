import Verif.Proofs.CholSim
import Mathlib.LinearAlgebra.Matrix.PosDef

/-! # C29-C34: `chol_ext` -/
namespace Verif
open Finset
variable {W α : Type _} [Field α] [LinearOrder α]

/-- The symmetric matrix described by the lower triangle of `A`. -/
def lowSym (A : ℕ → ℕ → α) (i j : ℕ) : α := A (max i j) (min i j)

omit [Field α] [LinearOrder α] in
theorem lowSym_of_sym {A : ℕ → ℕ → α} {n : ℕ} (h : ∀ i j, i < n → j < n → A i j = A j i) {i j : ℕ}
    (hi : i < n) (hj : j < n) : lowSym A i j = A i j := by
  unfold lowSym
  rcases le_total i j with hij | hij
  · rw [max_eq_right hij, min_eq_left hij]; exact h j i hj hi
  · rw [max_eq_left hij, min_eq_right hij]

section
variable [IsStrictOrderedRing α]

/-- **C29** for an arbitrary, possibly stateful or caching `getA` that serves the lower triangle of a
symmetric `A` when rows are requested in order: on any (reused) object with `allow_semidefinite` off,
`factor` returns normally, and `True` iff `A` is positive definite. -/
theorem C29_factor_iff {getA : ℕ → ℕ → W → Except PyErr (W × α)} {A : ℕ → ℕ → α} {Pre In : ℕ → W → Prop}
    (c : CholExt α) (hc : c.allowSemidefinite = false) (hS : Serves getA A c.n Pre In)
    (hsym : SymOn A c.n) {w : W} (hw : Pre 0 w) :
    ∃ w' c' b, c.factor getA w = .ok (w', c', b) ∧ (b = true ↔ PDon A 0 c.n) := by
  obtain ⟨w', T', p, h1, h2, -, -⟩ := factor_spec c hS hsym hw
  refine ⟨_, _, _, h1, ?_⟩
  rw [beq_iff_eq]
  constructor
  · intro hp
    rcases (h2.good hp).2 with ⟨h3, h4⟩ | ⟨h3, -⟩
    · exact pd_of_pivots (Nat.zero_le _) h3 hsym h4
    · rw [hc] at h3; exact absurd h3 (by decide)
  · intro hpd
    by_contra hp
    obtain ⟨m, -, -, h5, h6, h7, -, h9, -, h11⟩ := h2.fail hp
    rw [h11 hc] at h7 h5
    exact not_pd_of_witness h5 h7 (fun a b ha hb => hsym a b (by omega) (by omega)) h9
      (hpd.sub le_rfl (by omega))

/-- **C29**: `factorize(A)` never raises on an array at least as large as the object, and decides
positive definiteness of the symmetric matrix given by the lower triangle of `A`; whatever the upper
triangle holds. -/
theorem C29_factorize_iff (c : CholExt α) (hc : c.allowSemidefinite = false) (size : ℕ) (hn : c.n ≤ size)
    (A : ℕ → ℕ → α) :
    ∃ c' b, c.factorize size A = .ok (c', b) ∧ (b = true ↔ PDon (lowSym A) 0 c.n) := by
  have hS : Serves (W := Unit) (readAt size A) (lowSym A) c.n (fun _ _ => True) (fun _ _ => True) :=
    serves_readAt hn A _ fun i j _ hj => by rw [lowSym, max_eq_left hj, min_eq_right hj]
  obtain ⟨w', c', b, h1, h2⟩ := C29_factor_iff c hc hS
    (fun i j _ _ => by rw [lowSym, lowSym, max_comm, min_comm]) (w := ()) trivial
  exact ⟨c', b, by simp only [CholExt.factorize, h1], h2⟩


/-- **C30**: on any object, after `factor` returned `False`, `witness` succeeds and its certificate is
right: `ep ≥ 0` (`> 0` in semidefinite mode), the certificate vector ends in 1, its quadratic form on the
block `p` is `-ep`, and `sym_quad` evaluates quadratic forms on that block. -/
theorem C30_witness {getA : ℕ → ℕ → W → Except PyErr (W × α)} {A : ℕ → ℕ → α} {Pre In : ℕ → W → Prop}
    (c : CholExt α) (hS : Serves getA A c.n Pre In) (hsym : SymOn A c.n) {w w' : W} (hw : Pre 0 w)
    {c' : CholExt α} (h : c.factor getA w = .ok (w', c', false)) :
    ∃ c'' ep, c'.witness = .ok (c'', ep) ∧ 0 ≤ ep ∧ (c.allowSemidefinite = true → 0 < ep) ∧
      c''.p.1 < c''.p.2 ∧ c''.p.2 ≤ c.n ∧ (c.allowSemidefinite = false → c''.p.1 = 0) ∧
      c''.v (c''.p.2 - 1) = 1 ∧ quadOn A c''.p.1 c''.p.2 c''.v = -ep ∧
      (∀ B : ℕ → ℕ → α, c''.symQuad B = quadOn B c''.p.1 c''.p.2 c''.v) ∧
      c''.n = c.n ∧ c''.allowSemidefinite = c.allowSemidefinite := by
  obtain ⟨w1, T', p, h1, h2, -, -⟩ := factor_spec c hS hsym hw
  rw [h1] at h
  simp only [Except.ok.injEq, Prod.mk.injEq, beq_eq_false_iff_ne] at h
  obtain ⟨rfl, rfl, hp⟩ := h
  obtain ⟨m, h4, -, h5, h6, h7, -, h9, h10, h11⟩ := h2.fail hp
  have hw : CholExt.witness { c with p := p, T := T' } = .ok (⟨c.n, c.allowSemidefinite, p,
      witnessLoop T' p.1 p.2 (p.2 - 1 - p.1) (Function.update c.v (p.2 - 1) 1), T'⟩,
      -T' (p.2 - 1) (p.2 - 1)) := by
    simp [CholExt.witness, CholExt.isSpd, hp]
  refine ⟨_, _, hw, ?_⟩
  obtain ⟨s, e⟩ := p
  simp only at h4 h5 h7 h11 ⊢
  subst h4
  simp only [Nat.add_sub_cancel]
  refine ⟨by linarith, fun ha => by linarith [h10 ha], by omega, by omega, h11, ?_, ?_, fun B => ?_, trivial, trivial⟩
  · rw [witnessLoop_high _ _ _ _ _ _ (by omega)]; simp
  · rw [neg_neg]
    exact quadOn_witness h5 h7 (fun a b ha hb => hsym a b (by omega) (by omega)) c.v
  · unfold CholExt.symQuad quadOn
    simp only
    rw [Finset.sum_comm]
    refine Finset.sum_congr rfl fun j _ => ?_
    rw [Finset.sum_mul]

omit [IsStrictOrderedRing α] in
/-- **C30**, other half: after `True`, `witness` raises `AssertionError`. -/
theorem C30_witness_raises {getA : ℕ → ℕ → W → Except PyErr (W × α)} (c : CholExt α) {w w' : W}
    {c' : CholExt α} (h : c.factor getA w = .ok (w', c', true)) : c'.witness = .error .assertion := by
  simp only [CholExt.factor] at h
  rcases hr : cholRows getA c.allowSemidefinite c.n 0 0 c.T w with e | ⟨w1, T', p'⟩ <;> rw [hr] at h
  · simp at h
  simp only [Except.ok.injEq, Prod.mk.injEq] at h
  obtain ⟨-, rfl, h⟩ := h
  simp [CholExt.witness, h]

omit [IsStrictOrderedRing α] in
/-- Running over more rows than the array has: as over the rows it has, with `IndexError` in place of success. -/
theorem cholRows_short (size : ℕ) (A : ℕ → ℕ → α) (allow : Bool) : ∀ k r i start T, i + k = size → k < r →
    cholRows (readAt (W := Unit) size A) allow r i start T () =
      match cholRows (readAt (W := Unit) size A) allow k i start T () with
      | .error e => .error e
      | .ok (w, T', p) => if p.2 = 0 then .error .indexError else .ok (w, T', p) := by
  intro k
  induction k with
  | zero =>
    rintro (_ | r) i start T hi hr
    · omega
    · simp [cholRows, readAt, show ¬ i < size by omega]
  | succ k ih =>
    rintro (_ | r) i start T hi hr
    · omega
    · unfold cholRows
      split
      · rfl
      · split
        · rfl
        · split
          · exact ih r _ _ _ (by omega) (by omega)
          · split
            · simp
            · exact ih r _ _ _ (by omega) (by omega)

/-- **C29**: `factorize(A)` on an array smaller than the object raises `IndexError` iff the whole array is positive
definite, and returns `False` otherwise: it never accepts, and never reads outside the array. -/
theorem C29_factorize_small (c : CholExt α) (hc : c.allowSemidefinite = false) (size : ℕ) (hn : size < c.n)
    (A : ℕ → ℕ → α) :
    (PDon (lowSym A) 0 size → c.factorize size A = .error .indexError) ∧
    (¬ PDon (lowSym A) 0 size → ∃ c', c.factorize size A = .ok (c', false) ∧ c'.p.2 ≤ size) := by
  obtain ⟨n, allow, p, v, T⟩ := c
  simp only at hc hn
  subst hc
  have hS : Serves (W := Unit) (readAt size A) (lowSym A) size (fun _ _ => True) (fun _ _ => True) :=
    serves_readAt le_rfl A _ fun i j _ hj => by rw [lowSym, max_eq_left hj, min_eq_right hj]
  have hsym : SymOn (lowSym A) size := fun i j _ _ => by rw [lowSym, lowSym, max_comm, min_comm]
  obtain ⟨w', c', b, h1, h2⟩ := C29_factor_iff ⟨size, false, p, v, T⟩ rfl hS hsym (w := ()) trivial
  have hrow := cholRows_short size A false size n 0 0 T (by omega) hn
  simp only [CholExt.factor] at h1
  rcases hr : cholRows (readAt (W := Unit) size A) false size 0 0 T () with e | ⟨w1, T', p'⟩ <;> rw [hr] at h1 hrow
  · simp at h1
  simp only [Except.ok.injEq, Prod.mk.injEq] at h1 hrow
  obtain ⟨-, rfl, hb⟩ := h1
  simp only [CholExt.factorize, CholExt.factor, hrow]
  constructor
  · intro h
    have : p'.2 = 0 := by have := h2.2 h; rw [← hb] at this; simpa [CholExt.isSpd] using this
    rw [if_pos this]
  · intro h
    have h0 : ¬ p'.2 = 0 := fun h0 => h (h2.1 (by rw [← hb]; simp [CholExt.isSpd, h0]))
    rw [if_neg h0]
    refine ⟨⟨n, false, p', v, T'⟩, by simp [CholExt.isSpd, h0], ?_⟩
    obtain ⟨c'', ep, hw, -, -, -, h5, -⟩ := C30_witness ⟨size, false, p, v, T⟩ hS hsym (w := ()) (w' := w1) trivial
      (c' := ⟨size, false, p', v, T'⟩) (by simp [CholExt.factor, hr, CholExt.isSpd, h0])
    have : c''.p = p' := by
      have hs : CholExt.isSpd ⟨size, false, p', v, T'⟩ = false := by simp [CholExt.isSpd, h0]
      unfold CholExt.witness at hw
      rw [hs] at hw
      simp only [Bool.false_eq_true, if_false, Except.ok.injEq, Prod.mk.injEq] at hw
      rw [← hw.1]
    rw [this] at h5
    exact h5

/-- **C34**: semidefinite mode, exact characterisation of acceptance (`SemiAcc` mentions only `A`). -/
theorem C34_semidef_iff {getA : ℕ → ℕ → W → Except PyErr (W × α)} {A : ℕ → ℕ → α} {Pre In : ℕ → W → Prop}
    (c : CholExt α) (hc : c.allowSemidefinite = true) (hS : Serves getA A c.n Pre In)
    (hsym : SymOn A c.n) {w : W} (hw : Pre 0 w) :
    ∃ w' c' b, c.factor getA w = .ok (w', c', b) ∧ (b = true ↔ SemiAcc A c.n 0) := by
  obtain ⟨w', T', p, h1, h2, -, -⟩ := factor_spec c hS hsym hw
  exact ⟨_, _, _, h1, by rw [beq_iff_eq]; exact h2.semi hc⟩

/-- **C34**, the sound direction: a rejected matrix is not positive semidefinite. -/
theorem C34_semidef_false {getA : ℕ → ℕ → W → Except PyErr (W × α)} {A : ℕ → ℕ → α}
    {Pre In : ℕ → W → Prop} (c : CholExt α) (hc : c.allowSemidefinite = true)
    (hS : Serves getA A c.n Pre In) (hsym : SymOn A c.n) {w w' : W} (hw : Pre 0 w) {c' : CholExt α}
    (h : c.factor getA w = .ok (w', c', false)) : ¬ PSDon A 0 c.n := by
  obtain ⟨c'', ep, -, -, h3, h4, h5, -, -, h8, -⟩ := C30_witness c hS hsym hw h
  intro hpsd
  have h9 := (hpsd.sub (Nat.zero_le c''.p.1) h5) c''.v
  rw [h8] at h9
  linarith [h3 hc]

omit [IsStrictOrderedRing α] in
/-- **C33**, access pattern, for every `getA`, mode, object state and world: if `factor` returns, the
calls made are, in this order, `(k, st k), (k, st k + 1), ..., (k, k)` for `k = 0, 1, ...` up to the last
row if accepted and up to row `p[1] - 1` if not; `st k = 0` unless semidefinite mode restarted. -/
theorem C33_access {getA : ℕ → ℕ → W → Except PyErr (W × α)} (c : CholExt α) {w w' : W}
    {l : List (ℕ × ℕ)} {c' : CholExt α} {b : Bool}
    (h : c.factor (recA getA) (w, []) = .ok ((w', l), c', b)) :
    ∃ st : ℕ → ℕ, (∀ k, k < (if b then c.n else c'.p.2) → st k ≤ k) ∧
      (if b then c.n else c'.p.2) ≤ c.n ∧ (c.allowSemidefinite = false → ∀ k, st k = 0) ∧
      l = (List.range (if b then c.n else c'.p.2)).flatMap fun k => rowAccess k (st k) := by
  simp only [CholExt.factor] at h
  rcases hr : cholRows (recA getA) c.allowSemidefinite c.n 0 0 c.T (w, []) with e | ⟨⟨w1, l1⟩, T', p'⟩ <;>
    rw [hr] at h
  · simp at h
  simp only [Except.ok.injEq, Prod.mk.injEq] at h
  obtain ⟨⟨rfl, rfl⟩, rfl, h⟩ := h
  obtain ⟨rows, st, h1, h2, -, h4, h5, h6⟩ := cholRows_log getA _ _ _ _ _ _ _ _ _ _ _ le_rfl hr
  have hrows : (if b then c.n else p'.2) = rows := by
    rw [h2, ← h]
    by_cases hp : p'.2 = 0 <;> simp [CholExt.isSpd, hp]
  simp only [hrows]
  refine ⟨st, fun k hk => ?_, h1, h5, ?_⟩
  · have := (h4 k hk).2
    simpa using this
  · rw [h6, List.nil_append, List.range_eq_range']

/-- Consequences of the pattern: indices in the lower triangle and in range, lexicographically
increasing, hence no entry twice. -/
theorem rowAccess_mem {k s i j : ℕ} (h : (i, j) ∈ rowAccess k s) : i = k ∧ s ≤ j ∧ j ≤ k := by
  simp only [rowAccess, List.mem_map, List.mem_range'_1, Prod.mk.injEq] at h
  obtain ⟨j', h1, rfl, rfl⟩ := h
  omega

omit [IsStrictOrderedRing α] in
/-- **C33**: entries are requested within the lower triangle, in lexicographic order, never twice, and
never beyond the row that decides failure. -/
theorem C33_access_order {getA : ℕ → ℕ → W → Except PyErr (W × α)} (c : CholExt α) {w w' : W}
    {l : List (ℕ × ℕ)} {c' : CholExt α} {b : Bool}
    (h : c.factor (recA getA) (w, []) = .ok ((w', l), c', b)) :
    (∀ q ∈ l, q.2 ≤ q.1 ∧ q.1 < c.n ∧ (b = false → q.1 < c'.p.2)) ∧
      l.Pairwise (fun q r => q.1 < r.1 ∨ q.1 = r.1 ∧ q.2 < r.2) ∧ l.Nodup := by
  obtain ⟨st, h1, h2, -, rfl⟩ := C33_access c h
  have hpw : ((List.range (if b then c.n else c'.p.2)).flatMap fun k => rowAccess k (st k)).Pairwise
      (fun q r => q.1 < r.1 ∨ q.1 = r.1 ∧ q.2 < r.2) := by
    rw [List.pairwise_flatMap]
    refine ⟨fun k _ => ?_, ?_⟩
    · unfold rowAccess
      rw [List.pairwise_map]
      exact (List.pairwise_lt_range' (s := st k) (n := k + 1 - st k)).imp fun h => .inr ⟨rfl, h⟩
    · refine List.pairwise_lt_range.imp fun {a b} hab => ?_
      rintro ⟨i, j⟩ hq ⟨i', j'⟩ hr
      exact .inl (by rw [(rowAccess_mem hq).1, (rowAccess_mem hr).1]; exact hab)
  refine ⟨?_, hpw, ?_⟩
  · rintro ⟨i, j⟩ hq
    rw [List.mem_flatMap] at hq
    obtain ⟨k, hk, hq⟩ := hq
    rw [List.mem_range] at hk
    obtain ⟨rfl, -, h5⟩ := rowAccess_mem hq
    refine ⟨h5, by omega, fun hb => ?_⟩
    rw [hb] at hk; simpa using hk
  · refine hpw.imp fun {q r} hqr => ?_
    rintro rfl
    omega

omit [IsStrictOrderedRing α] in
/-- **C33**, no other failure: whatever `getA` does, an exception of `factor` is an exception of `getA`
at an in-range lower-triangle entry; in particular `factor` never divides by zero itself. -/
theorem C33_errors {getA : ℕ → ℕ → W → Except PyErr (W × α)} (c : CholExt α) {w : W} {e : PyErr}
    (h : c.factor getA w = .error e) : ∃ i j w', j ≤ i ∧ i < c.n ∧ getA i j w' = .error e := by
  simp only [CholExt.factor] at h
  rcases hr : cholRows getA c.allowSemidefinite c.n 0 0 c.T w with e' | ⟨w1, T', p'⟩ <;> rw [hr] at h
  · simp only [Except.error.injEq] at h
    subst h
    exact cholRows_err getA _ c.n _ _ _ _ _ _ le_rfl (by omega) (fun k _ h => absurd h (by omega)) hr
  · simp at h

/-- States an object of dimension `N` can get into by any history of calls (with any `getA`, including
ones that raise half-way: the buffers are then arbitrary, `p` is `(0,0)`) and of setting the flag. -/
inductive CholReach (N : ℕ) : CholExt α → Prop
  | init : CholReach N (CholExt.init N)
  | allow {c} (b : Bool) : CholReach N c → CholReach N { c with allowSemidefinite := b }
  | factor {W : Type} {getA : ℕ → ℕ → W → Except PyErr (W × α)} {c w w' c' b} : CholReach N c →
      c.factor getA w = .ok (w', c', b) → CholReach N c'
  | raised {c} (T' : ℕ → ℕ → α) : CholReach N c → CholReach N { c with T := T', p := (0, 0) }
  | witness {c c' ep} : CholReach N c → c.witness = .ok (c', ep) → CholReach N c'

omit [IsStrictOrderedRing α] in
theorem CholReach.n_eq {N : ℕ} {c : CholExt α} (h : CholReach N c) : c.n = N := by
  induction h with
  | init => rfl
  | allow b _ ih => exact ih
  | factor _ h ih =>
    simp only [CholExt.factor] at h
    split at h
    · simp at h
    · simp only [Except.ok.injEq, Prod.mk.injEq] at h
      rw [← h.2.1]; exact ih
  | raised T' _ ih => exact ih
  | witness _ h ih =>
    simp only [CholExt.witness] at h
    split at h
    · simp at h
    · simp only [Except.ok.injEq, Prod.mk.injEq] at h
      rw [← h.1]; exact ih

omit [IsStrictOrderedRing α] in
/-- **C32**, the range `p` in every reachable state: `(0, 0)` — then `is_spd()` is `True` and `witness()` raises
`AssertionError`, notably on a fresh object — or a non-empty range within the dimension, and then `witness()` returns. -/
theorem C32_reach_range {N : ℕ} {c : CholExt α} (h : CholReach N c) :
    (c.p = (0, 0) ∧ c.isSpd = true ∧ c.witness = .error .assertion) ∨
    (c.p.1 < c.p.2 ∧ c.p.2 ≤ N ∧ c.isSpd = false ∧ ∃ c' ep, c.witness = .ok (c', ep)) := by
  suffices h' : c.p = (0, 0) ∨ c.p.1 < c.p.2 ∧ c.p.2 ≤ N by
    rcases h' with h' | ⟨h1, h2⟩
    · exact .inl ⟨h', by simp [CholExt.isSpd, h'], by simp [CholExt.witness, CholExt.isSpd, h']⟩
    · have : c.isSpd = false := by simp only [CholExt.isSpd, beq_eq_false_iff_ne]; omega
      exact .inr ⟨h1, h2, this, by simp [CholExt.witness, this]⟩
  induction h with
  | init => exact .inl rfl
  | allow b _ ih => exact ih
  | @factor W getA c w w' c' b hc h ih =>
    have rows : ∀ al r i s T w w' T' p, s ≤ i → cholRows getA al r i s T w = .ok (w', T', p) →
        p = (0, 0) ∨ p.1 < p.2 ∧ p.2 ≤ i + r := by
      intro al r
      induction r with
      | zero =>
        intro i s T w w' T' p hs h
        simp only [cholRows, Except.ok.injEq, Prod.mk.injEq] at h
        exact .inl h.2.2.symm
      | succ r ih =>
        intro i s T w w' T' p hs h
        simp only [cholRows] at h
        split at h
        · simp at h
        split at h
        · simp at h
        split_ifs at h
        · have := ih _ _ _ _ _ _ _ (by omega) h
          rwa [show i + 1 + r = i + (r + 1) by omega] at this
        · simp only [Except.ok.injEq, Prod.mk.injEq] at h
          rw [← h.2.2]
          exact .inr ⟨by dsimp only; omega, by dsimp only; omega⟩
        · have := ih _ _ _ _ _ _ _ (by omega) h
          rwa [show i + 1 + r = i + (r + 1) by omega] at this
    have hn := hc.n_eq
    simp only [CholExt.factor] at h
    split at h
    · simp at h
    · rename_i hr
      simp only [Except.ok.injEq, Prod.mk.injEq] at h
      rw [← h.2.1]
      have := rows _ _ _ _ _ _ _ _ _ le_rfl hr
      rwa [hn, Nat.zero_add] at this
  | raised T' _ ih => exact .inl rfl
  | witness _ h ih =>
    simp only [CholExt.witness] at h
    split at h
    · simp at h
    · simp only [Except.ok.injEq, Prod.mk.injEq] at h
      rw [← h.1]; exact ih

/-- Two `factor` outcomes a caller cannot tell apart: same exception, or same world, verdict and range
`p`, and every later answer equal: `witness` (value and vector on the range), `sym_quad` after it. -/
def SameFactor : Except PyErr (W × CholExt α × Bool) → Except PyErr (W × CholExt α × Bool) → Prop
  | .error e1, .error e2 => e1 = e2
  | .ok (w1, c1, b1), .ok (w2, c2, b2) => w1 = w2 ∧ b1 = b2 ∧ c1.p = c2.p ∧
      match c1.witness, c2.witness with
      | .error e1, .error e2 => e1 = e2
      | .ok (c1', ep1), .ok (c2', ep2) => ep1 = ep2 ∧
          (∀ i, c1.p.1 ≤ i → i < c1.p.2 → c1'.v i = c2'.v i) ∧ ∀ A, c1'.symQuad A = c2'.symQuad A
      | _, _ => False
  | _, _ => False

omit [LinearOrder α] [IsStrictOrderedRing α] in
theorem witnessLoop_congr {T1 T2 : ℕ → ℕ → α} {s n : ℕ} (hT : Agr s n T1 T2) :
    ∀ k v1 v2, s + k < n → (∀ i, s + k ≤ i → i < n → v1 i = v2 i) →
      ∀ i, s ≤ i → i < n → witnessLoop T1 s n k v1 i = witnessLoop T2 s n k v2 i := by
  intro k
  induction k with
  | zero => intro v1 v2 _ hv i h1 h2; exact hv i (by omega) h2
  | succ k ih =>
    intro v1 v2 hk hv i h1 h2
    unfold witnessLoop
    refine ih _ _ (by omega) (fun j hj1 hj2 => ?_) i h1 h2
    simp only [show s + (k + 1) - 1 = s + k from rfl]
    by_cases hj : j = s + k
    · subst hj
      simp only [Function.update_self]
      congr 1
      refine Finset.sum_congr rfl fun m hm => ?_
      rw [Finset.mem_Ico] at hm
      rw [hT m (s + k) (by omega) hm.2 (by omega) (by omega), hv m hm.1 hm.2]
    · rw [Function.update_of_ne hj, Function.update_of_ne hj]
      exact hv j (by omega) hj2

omit [IsStrictOrderedRing α] in
/-- Two objects of the same dimension and mode answer alike, whatever their buffers hold. -/
theorem sameFactor {c1 c2 : CholExt α} (hn : c1.n = c2.n) (ha : c1.allowSemidefinite = c2.allowSemidefinite)
    (getA : ℕ → ℕ → W → Except PyErr (W × α)) (w : W) : SameFactor (c1.factor getA w) (c2.factor getA w) := by
  obtain ⟨n, allow, p, v, T⟩ := c1
  obtain ⟨n', allow', p', v', T'⟩ := c2
  simp only at hn ha
  subst hn ha
  have key := cholRows_sim getA allow n 0 0 T T' w le_rfl (fun a b _ h => absurd h (by omega))
  simp only [CholExt.factor]
  have hlt : ∀ w1 T' p', cholRows getA allow n 0 0 T w = .ok (w1, T', p') → p'.2 ≠ 0 → p'.1 < p'.2 := by
    intro w1 T' p' h
    clear key
    have : ∀ r i s T w, s ≤ i → cholRows getA allow r i s T w = .ok (w1, T', p') → p'.2 ≠ 0 → p'.1 < p'.2 := by
      intro r
      induction r with
      | zero =>
        intro i s T w _ h hp
        simp only [cholRows, Except.ok.injEq, Prod.mk.injEq] at h
        obtain ⟨-, -, rfl⟩ := h
        exact absurd rfl hp
      | succ r ih =>
        intro i s T w hs h hp
        simp only [cholRows] at h
        rcases hg : getA i s w with e' | ⟨w1, d0⟩ <;> rw [hg] at h
        · simp at h
        simp only at h
        rcases hi : cholInner getA s i (i - s) s T d0 w1 with e' | ⟨w2, T1, d⟩ <;> rw [hi] at h
        · simp at h
        simp only at h
        by_cases hd0 : 0 < d
        · rw [if_pos hd0] at h; exact ih _ _ _ _ (by omega) h hp
        · rw [if_neg hd0] at h
          by_cases hd1 : d < 0 ∨ allow = false
          · rw [if_pos hd1] at h
            simp only [Except.ok.injEq, Prod.mk.injEq] at h
            obtain ⟨-, -, rfl⟩ := h
            simp only; omega
          · rw [if_neg hd1] at h; exact ih _ _ _ _ (by omega) h hp
    exact this n 0 0 T w le_rfl h
  rcases h1 : cholRows getA allow n 0 0 T w with e1 | ⟨w1, T1', p1⟩ <;>
    rcases h2 : cholRows getA allow n 0 0 T' w with e2 | ⟨w2, T2', p2⟩ <;>
    simp only [h1, h2] at key ⊢
  · exact key
  obtain ⟨rfl, rfl, hag, -⟩ := key
  refine ⟨rfl, rfl, rfl, ?_⟩
  by_cases hp : p1.2 = 0
  · simp [CholExt.witness, CholExt.isSpd, hp]
  · have hlt' := hlt _ _ _ h1 hp
    have hv : ∀ i, p1.1 ≤ i → i < p1.2 →
        witnessLoop T1' p1.1 p1.2 (p1.2 - 1 - p1.1) (Function.update v (p1.2 - 1) 1) i =
        witnessLoop T2' p1.1 p1.2 (p1.2 - 1 - p1.1) (Function.update v' (p1.2 - 1) 1) i :=
      witnessLoop_congr hag _ _ _ (by omega) fun i h1 h2 => by
        have : i = p1.2 - 1 := by omega
        subst this; simp
    simp only [CholExt.witness, CholExt.isSpd, beq_eq_false_iff_ne.2 hp, Bool.false_eq_true, if_false]
    refine ⟨by rw [hag _ _ (by omega) (by omega) (by omega) (by omega)], hv, fun A => ?_⟩
    unfold CholExt.symQuad
    simp only
    refine Finset.sum_congr rfl fun j hj => ?_
    rw [Finset.mem_Ico] at hj
    rw [hv j hj.1 hj.2]
    congr 1
    refine Finset.sum_congr rfl fun i hi => ?_
    rw [Finset.mem_Ico] at hi
    rw [hv i hi.1 hi.2]

omit [IsStrictOrderedRing α] in
/-- **C32**: whatever happened to an object before, `factor`, `witness` and `sym_quad` answer as on a new
object with the same flag. -/
theorem C32_history {N : ℕ} {c : CholExt α} (hc : CholReach N c)
    (getA : ℕ → ℕ → W → Except PyErr (W × α)) (w : W) :
    SameFactor (c.factor getA w)
      (CholExt.factor { CholExt.init N with allowSemidefinite := c.allowSemidefinite } getA w) :=
  sameFactor (c1 := c) (c2 := { CholExt.init N with allowSemidefinite := c.allowSemidefinite }) hc.n_eq
    rfl getA w

end

/-! ### sqrt -/

/-- **C31**: after `factor` returned `True` with the flag off (or with the flag on but `A` positive
definite), `sqrt` returns an upper triangular `R` with positive diagonal and `R'R = A`. -/
theorem C31_sqrt {getA : ℕ → ℕ → W → Except PyErr (W × ℝ)} {A : ℕ → ℕ → ℝ} {Pre In : ℕ → W → Prop}
    (c : CholExt ℝ) (hS : Serves getA A c.n Pre In) (hsym : SymOn A c.n) {w w' : W} (hw : Pre 0 w)
    {c' : CholExt ℝ} (h : c.factor getA w = .ok (w', c', true))
    (hm : c.allowSemidefinite = false ∨ PDon A 0 c.n) :
    ∃ R, c'.sqrt = .ok R ∧ (∀ i j, j < i → R i j = 0) ∧ (∀ i, i < c.n → 0 < R i i) ∧
      ∀ i j, i < c.n → j < c.n → ∑ m ∈ range c.n, R m i * R m j = A i j := by
  obtain ⟨w1, T, p, h1, h2, -, -⟩ := factor_spec c hS hsym hw
  rw [h1] at h
  simp only [Except.ok.injEq, Prod.mk.injEq, beq_iff_eq] at h
  obtain ⟨rfl, rfl, hp⟩ := h
  have hgood : (∀ r, 0 ≤ r → r < c.n → LdlRow A T 0 r) ∧ ∀ r, 0 ≤ r → r < c.n → 0 < T r r := by
    rcases (h2.good hp).2 with h3 | ⟨h3, m, -, h5, h6⟩
    · exact h3
    · rcases hm with hm | hm
      · rw [h3] at hm; exact absurd hm (by decide)
      · exact absurd (hm.sub le_rfl (by omega)) h6
  obtain ⟨hrow, hpos⟩ := hgood
  refine ⟨_, by
    rw [CholExt.sqrt, if_neg (by simp [CholExt.isSpd, hp]), if_neg]
    rintro ⟨i, hi, hneg⟩
    exact absurd hneg (not_lt.2 (hpos i (Nat.zero_le _) hi).le), fun i j hij => ?_, fun i hi => ?_, ?_⟩
  · by_cases hb : i < c.n ∧ j < c.n
    · simp only [if_pos hb, if_neg (show ¬ i = j by omega), if_neg (show ¬ i < j by omega)]
    · simp only [if_neg hb]
  · simp only [hi, and_self, if_true]
    exact Real.sqrt_pos.2 (hpos i (Nat.zero_le _) hi)
  · -- the product, for `j ≤ i` first
    have key : ∀ i j, i < c.n → j ≤ i →
        ∑ m ∈ range c.n, (if m < c.n ∧ i < c.n then if m = i then √(T m m) else if m < i then
          T i m * √(T m m) else 0 else 0) * (if m < c.n ∧ j < c.n then if m = j then √(T m m) else
          if m < j then T j m * √(T m m) else 0 else 0) = A i j := by
      intro i j hi hj
      rw [(hrow i (Nat.zero_le _) hi).val j (Nat.zero_le _) hj]
      have hsub : Ico 0 (j + 1) ⊆ range c.n := fun m hm => by
        rw [Finset.mem_Ico] at hm; rw [Finset.mem_range]; omega
      rw [← Finset.sum_subset hsub, Finset.sum_Ico_succ_top (Nat.zero_le _)]
      · congr 1
        · refine Finset.sum_congr rfl fun m hm => ?_
          rw [Finset.mem_Ico] at hm
          have hs := Real.mul_self_sqrt (hpos m (Nat.zero_le _) (by omega)).le
          rw [if_pos (by omega), if_neg (by omega), if_pos (by omega), if_pos (by omega), if_neg (by omega),
            if_pos hm.2, (hrow j (Nat.zero_le _) (by omega)).up m (Nat.zero_le _) hm.2]
          linear_combination T i m * T j m * hs
        · have hs := Real.mul_self_sqrt (hpos j (Nat.zero_le _) (by omega)).le
          by_cases hij : j = i
          · subst hij
            rw [if_pos ⟨hi, hi⟩, if_pos rfl]; exact hs
          · rw [if_pos (by omega), if_neg hij, if_pos (by omega), if_pos (by omega), if_pos rfl,
              (hrow i (Nat.zero_le _) hi).up j (Nat.zero_le _) (by omega)]
            linear_combination T i j * hs
      · intro m _ hm
        rw [Finset.mem_Ico] at hm
        have : ¬ m < j ∧ ¬ m = j := by omega
        simp only [if_neg this.1, if_neg this.2, ite_self, mul_zero]
    intro i j hi hj
    simp only
    rcases le_total j i with hij | hij
    · exact key i j hi hij
    · rw [hsym i j hi hj, ← key j i hj hij]
      exact Finset.sum_congr rfl fun m _ => mul_comm _ _

/-- **C31**, other half: after `False`, `sqrt` raises `AssertionError`. -/
theorem C31_sqrt_raises {getA : ℕ → ℕ → W → Except PyErr (W × ℝ)} (c : CholExt ℝ) {w w' : W}
    {c' : CholExt ℝ} (h : c.factor getA w = .ok (w', c', false)) : c'.sqrt = .error .assertion := by
  simp only [CholExt.factor] at h
  rcases hr : cholRows getA c.allowSemidefinite c.n 0 0 c.T w with e | ⟨w1, T', p'⟩ <;> rw [hr] at h
  · simp at h
  simp only [Except.ok.injEq, Prod.mk.injEq] at h
  obtain ⟨-, rfl, h⟩ := h
  simp [CholExt.sqrt, h]

/-- **C32** for `sqrt`, flag off: same answer as on a new object. -/
theorem C32_sqrt_history {N : ℕ} {c : CholExt ℝ} (hc : CholReach N c) (ha : c.allowSemidefinite = false)
    {getA : ℕ → ℕ → W → Except PyErr (W × ℝ)} {w w1 w2 : W} {c1 c2 : CholExt ℝ} {b1 b2 : Bool}
    (h1 : c.factor getA w = .ok (w1, c1, b1))
    (h2 : (CholExt.init N).factor getA w = .ok (w2, c2, b2)) : c1.sqrt = c2.sqrt := by
  have hn := hc.n_eq
  obtain ⟨n, allow, p, v, T⟩ := c
  simp only at hn ha
  subst hn ha
  have key := cholRows_sim getA false n 0 0 T (fun _ _ => 0) w le_rfl (fun a b _ h => absurd h (by omega))
  simp only [CholExt.factor, CholExt.init] at h1 h2
  rcases e1 : cholRows getA false n 0 0 T w with e | ⟨w1, T1, p1⟩ <;> rw [e1] at h1
  · simp at h1
  rcases e2 : cholRows getA false n 0 0 (fun _ _ => 0) w with e | ⟨w2, T2, p2⟩ <;> rw [e2] at h2
  · simp at h2
  rw [e1, e2] at key
  simp only [Except.ok.injEq, Prod.mk.injEq] at h1 h2 key
  obtain ⟨-, rfl, -⟩ := h1
  obtain ⟨-, rfl, -⟩ := h2
  obtain ⟨-, rfl, -, hag⟩ := key
  by_cases hp : p1.2 = 0
  · have hag := hag hp trivial
    have hT : ∀ a b, a < n → b < n → T1 a b = T2 a b := fun a b ha hb =>
      hag a b (Nat.zero_le _) (by omega) (Nat.zero_le _) (by omega)
    have hex : (∃ i < n, T1 i i < 0) ↔ ∃ i < n, T2 i i < 0 := by
      constructor <;> rintro ⟨i, hi, hlt⟩ <;> refine ⟨i, hi, ?_⟩
      · rwa [← hT i i hi hi]
      · rwa [hT i i hi hi]
    simp only [CholExt.sqrt, CholExt.isSpd, hp, beq_self_eq_true, Bool.true_eq_false, if_false]
    by_cases hx : ∃ i < n, T1 i i < 0
    · rw [if_pos hx, if_pos (hex.1 hx)]
    · rw [if_neg hx, if_neg (fun h => hx (hex.2 h))]
      congr 1
      funext i j
      by_cases hb : i < n ∧ j < n
      · rw [if_pos hb, if_pos hb, hT i i hb.1 hb.1, hT j i hb.2 hb.1]
      · rw [if_neg hb, if_neg hb]
  · simp [CholExt.sqrt, CholExt.isSpd, hp]

/-! ### Mathlib's notion, counterexamples, concrete runs -/

/-- A real matrix as an array. -/
def arr {n : ℕ} (A : Matrix (Fin n) (Fin n) ℝ) (i j : ℕ) : ℝ :=
  if h : i < n ∧ j < n then A ⟨i, h.1⟩ ⟨j, h.2⟩ else 0

theorem quadOn_arr {n : ℕ} (A : Matrix (Fin n) (Fin n) ℝ) (x : ℕ → ℝ) :
    quadOn (arr A) 0 n x = ∑ i : Fin n, ∑ j : Fin n, x i * A i j * x j := by
  unfold quadOn
  rw [← Finset.range_eq_Ico, Finset.sum_range]
  refine Finset.sum_congr rfl fun i _ => ?_
  rw [Finset.sum_range]
  refine Finset.sum_congr rfl fun j _ => ?_
  simp [arr]

theorem symOn_arr {n : ℕ} {A : Matrix (Fin n) (Fin n) ℝ} (h : A.IsHermitian) : SymOn (arr A) n := by
  intro i j hi hj
  have := congrFun (congrFun h ⟨i, hi⟩) ⟨j, hj⟩
  simp only [Matrix.conjTranspose_apply, star_trivial] at this
  simp [arr, hi, hj, this]

theorem pdOn_arr {n : ℕ} {A : Matrix (Fin n) (Fin n) ℝ} (hA : A.IsHermitian) :
    PDon (arr A) 0 n ↔ A.PosDef := by
  have hq : ∀ y : Fin n → ℝ, star y ⬝ᵥ A.mulVec y = ∑ i : Fin n, ∑ j : Fin n, y i * A i j * y j := by
    intro y
    simp only [dotProduct, Matrix.mulVec, star_trivial, Finset.mul_sum, mul_assoc]
  constructor
  · intro h
    refine Matrix.PosDef.of_dotProduct_mulVec_pos hA fun y hy => ?_
    obtain ⟨i, hi⟩ := Function.ne_iff.1 hy
    have := h (fun k => if hk : k < n then y ⟨k, hk⟩ else 0) ⟨i, Nat.zero_le _, i.2, by simpa using hi⟩
    rw [quadOn_arr] at this
    rw [hq]
    simpa using this
  · rintro h x ⟨i, -, hi, hx⟩
    rw [quadOn_arr, ← hq (fun k : Fin n => x k)]
    exact h.dotProduct_mulVec_pos (Function.ne_iff.2 ⟨⟨i, hi⟩, hx⟩)

/-- **C29** against Mathlib: for a symmetric real matrix, `chol_ext(n).factorize(A)` returns `True` iff
`A.PosDef`. -/
theorem C29_factorize_posDef {n : ℕ} (A : Matrix (Fin n) (Fin n) ℝ) (hA : A.IsHermitian) :
    ∃ c' b, (CholExt.init n).factorize n (arr A) = .ok (c', b) ∧ (b = true ↔ A.PosDef) := by
  obtain ⟨c', b, h1, h2⟩ := C29_factorize_iff (CholExt.init n) rfl n le_rfl (arr A)
  refine ⟨c', b, h1, h2.trans ?_⟩
  rw [← pdOn_arr hA]
  have hl : ∀ x, quadOn (lowSym (arr A)) 0 n x = quadOn (arr A) 0 n x := fun x => by
    unfold quadOn
    refine Finset.sum_congr rfl fun i hi => Finset.sum_congr rfl fun j hj => ?_
    rw [Finset.mem_Ico] at hi hj
    rw [lowSym_of_sym (symOn_arr hA) hi.2 hj.2]
  constructor <;> intro h x hx
  · rw [← hl]; exact h x hx
  · rw [show (CholExt.init n : CholExt ℝ).n = n from rfl, hl]; exact h x hx

/-- **C34**, the unsound direction: the indefinite matrix `[[0, 1], [1, 0]]` is accepted in semidefinite
mode. -/
theorem C34_semidef_accepts_indefinite :
    (({ CholExt.init 2 with allowSemidefinite := true } : CholExt ℚ).factorize 2
      (fun i j => if i = j then 0 else 1)).map (·.2) = .ok true ∧
    ¬ PSDon (fun i j => if i = j then (0 : ℚ) else 1) 0 2 := by
  constructor
  · with_unfolding_all rfl
  · intro h
    have := h (fun i => if i = 0 then 1 else -1)
    norm_num [quadOn, Finset.sum_range_succ] at this

/-- `[[1,1,1],[1,1,1],[1,1,2]]`, positive semidefinite. -/
def exSemi (i j : ℕ) : ℝ := if i = 2 ∧ j = 2 then 2 else 1

/-- What the three rows of `factor` do on it in semidefinite mode, from any buffer. -/
theorem exSemi_run (p : ℕ × ℕ) (v : ℕ → ℝ) (T : ℕ → ℕ → ℝ) :
    ∃ T', (⟨3, true, p, v, T⟩ : CholExt ℝ).factorize 3 exSemi = .ok (⟨3, true, (0, 0), v, T'⟩, true) ∧
      T' 0 0 = 1 ∧ T' 1 1 = 0 ∧ T' 2 2 = 2 ∧ T' 2 0 = T 2 0 := by
  simp only [CholExt.factorize, CholExt.factor, cholRows, cholInner, readAt, exSemi, set2, pyDiv]
  norm_num [cholInner, CholExt.isSpd, set2, Finset.sum_range_succ]

/-- **C31 fails in semidefinite mode**: the matrix is positive semidefinite and accepted, `sqrt` returns,
and `R'R ≠ A`. -/
theorem C31_sqrt_semidef_wrong : PSDon exSemi 0 3 ∧
    ∃ c' R, ({ CholExt.init 3 with allowSemidefinite := true } : CholExt ℝ).factorize 3 exSemi = .ok (c', true) ∧
      c'.sqrt = .ok R ∧ ∑ m ∈ range 3, R m 0 * R m 2 ≠ exSemi 0 2 := by
  constructor
  · intro x
    norm_num [quadOn, Finset.sum_range_succ, exSemi]
    nlinarith [sq_nonneg (x 0 + x 1 + x 2), sq_nonneg (x 2)]
  · obtain ⟨T', h1, h2, h3, h4, h5⟩ := exSemi_run (0, 0) (fun _ => 0) (fun _ _ => 0)
    have hneg : ¬ ∃ i < 3, T' i i < 0 := by
      rintro ⟨i, hi, hlt⟩
      interval_cases i <;> norm_num [h2, h3, h4] at hlt
    refine ⟨_, _, h1, by rw [CholExt.sqrt, if_neg (by simp [CholExt.isSpd]), if_neg hneg], ?_⟩
    norm_num [Finset.sum_range_succ, h2, h3, h4, h5, exSemi]

/-- **C32 fails for `sqrt` in semidefinite mode**: entries of `_T` left by an earlier factorisation reach
the result. -/
theorem C32_sqrt_semidef_stale : ∃ (c1 c2 c1' c2' : CholExt ℝ) (R1 R2 : ℕ → ℕ → ℝ),
    CholReach 3 c1 ∧ c2 = { CholExt.init 3 with allowSemidefinite := true } ∧ c1.allowSemidefinite = true ∧
      c1.factorize 3 exSemi = .ok (c1', true) ∧ c2.factorize 3 exSemi = .ok (c2', true) ∧
      c1'.sqrt = .ok R1 ∧ c2'.sqrt = .ok R2 ∧ R1 0 2 ≠ R2 0 2 := by
  -- the earlier use: `[[1,0,5],[0,1,0],[5,0,26]]`, positive definite
  have hprev : ∃ T, (CholExt.init 3 : CholExt ℝ).factor (W := Unit) (readAt 3 fun i j => if i = j then
      (if i = 2 then 26 else 1) else if i + j = 2 then 5 else 0) () =
        .ok ((), ⟨3, false, (0, 0), fun _ => 0, T⟩, true) ∧ T 2 0 = 5 := by
    simp only [CholExt.init, CholExt.factor, cholRows, cholInner, readAt, set2, pyDiv]
    norm_num [cholInner, CholExt.isSpd, set2, Finset.sum_range_succ]
  obtain ⟨T, hT, hT20⟩ := hprev
  have hr1 : CholReach 3 (⟨3, true, (0, 0), fun _ => 0, T⟩ : CholExt ℝ) := .allow true (.factor .init hT)
  obtain ⟨T1, a1, a2, a3, a4, a5⟩ := exSemi_run (0, 0) (fun _ => 0) T
  obtain ⟨T2, b1, b2, b3, b4, b5⟩ := exSemi_run (0, 0) (fun _ => 0) (fun _ _ => 0)
  have hneg : ∀ T' : ℕ → ℕ → ℝ, T' 0 0 = 1 → T' 1 1 = 0 → T' 2 2 = 2 → ¬ ∃ i < 3, T' i i < 0 := by
    rintro T' h2 h3 h4 ⟨i, hi, hlt⟩
    interval_cases i <;> norm_num [h2, h3, h4] at hlt
  refine ⟨_, _, _, _, _, _, hr1, rfl, rfl, a1, b1,
    by rw [CholExt.sqrt, if_neg (by simp [CholExt.isSpd]), if_neg (hneg T1 a2 a3 a4)],
    by rw [CholExt.sqrt, if_neg (by simp [CholExt.isSpd]), if_neg (hneg T2 b2 b3 b4)], ?_⟩
  norm_num [a2, a5, b2, b5, hT20]

namespace Examples

/-- A rejected 3x3 matrix: `p = (0, 2)`, `ep = 3`. -/
example : ((CholExt.init 3 : CholExt ℚ).factorize 3 (fun i j => if i = j then 1 else 2)).toOption.map
    (fun r => (r.2, r.1.p, r.1.witness.toOption.map fun q => (q.2, q.1.v 0, q.1.v 1))) =
    some (false, (0, 2), some (3, -2, 1)) := by with_unfolding_all rfl

/-- An accepted one. -/
example : ((CholExt.init 3 : CholExt ℚ).factorize 3 (fun i j => if i = j then 3 else 1)).toOption.map
    (fun r => (r.2, r.1.T 1 1, r.1.T 2 2)) = some (true, 8 / 3, 5 / 2) := by with_unfolding_all rfl

/-- A positive definite array that is too small; an indefinite one. -/
example : (CholExt.init 3 : CholExt ℚ).factorize 2 (fun i j => if i = j then 1 else 0) = .error .indexError :=
  (C29_factorize_small _ rfl 2 (by decide) _).1 (by
    rintro x ⟨i, -, hi, hx⟩
    have h : quadOn (lowSym fun i j : ℕ => if i = j then (1 : ℚ) else 0) 0 2 x = x 0 ^ 2 + x 1 ^ 2 := by
      simp [quadOn, lowSym, Finset.sum_range_succ]; ring
    rw [h]
    rcases (by omega : i = 0 ∨ i = 1) with rfl | rfl <;> positivity)

example : ((CholExt.init 3 : CholExt ℚ).factorize 2 (fun i j => if i = j then 1 else 2)).toOption.map
    (fun r => (r.2, r.1.p)) = some (false, (0, 2)) := by with_unfolding_all rfl

/-- `Serves` is met by plain arrays (every `A`), so C29-C34 apply to `factorize`. -/
example (A : ℕ → ℕ → ℚ) : Serves (W := Unit) (readAt 3 A) A 3 (fun _ _ => True) (fun _ _ => True) :=
  serves_readAt le_rfl A A fun _ _ _ _ => rfl

/-- Access pattern of a run that fails in row 1: rows 0 and 1 only. -/
example : ((CholExt.init 3 : CholExt ℚ).factor (recA (readAt (W := Unit) 3 fun i j => if i = j then 1 else 2))
    ((), [])).toOption.map (·.1.2) = some [(0, 0), (1, 0), (1, 1)] := by with_unfolding_all rfl

end Examples
end Verif
