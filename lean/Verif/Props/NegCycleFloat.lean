import Mathlib.Data.Fin.VecNotation
import Mathlib.Tactic.FinCases
import Verif.Proofs.NegCycleFloat
import Verif.Proofs.Float
import Verif.Props.NegCycle

/-!
# C119: the negative-cycle finder in floating point
-/
namespace Verif
variable {V α : Type _} [DecidableEq V]

section order
variable [LinearOrder α] [Fintype V]

/-- What `find_neg_cycle` can end with, in terms of the distances `d` it leaves behind: `[]` and no edge can be relaxed; or a simple
cycle none of whose edges is slack and one of which can still be relaxed; or an `AssertionError`, because of a simple cycle all of whose
edges are tight. -/
inductive NcEnd (add : α → α → α) (E : List (V × V)) (w : V × V → α) (d : V → α) : Except PyErr (List (V × V)) → Prop
  | potential : (∀ e ∈ E, d e.2 ≤ add (d e.1) (w e)) → NcEnd add E w d (.ok [])
  | cycle {c : List (V × V)} : ClosedWalk E c.reverse → (c.map Prod.snd).Nodup → (∀ e ∈ c, add (d e.1) (w e) ≤ d e.2) →
      (∃ e ∈ c, add (d e.1) (w e) < d e.2) → NcEnd add E w d (.ok c)
  | stuck {c : List (V × V)} : ClosedWalk E c.reverse → (c.map Prod.snd).Nodup → (∀ e ∈ c, add (d e.1) (w e) = d e.2) →
      NcEnd add E w d (.error .assertion)

theorem ncLoopF_spec {G : Graph V} (hG : ∀ v, v ∈ G.nodes) {add : α → α → α} (ha : AddMono add) (w : V × V → α) (d0 : V → α) :
    ∀ (n p : ℕ) (s : NcSt V α), Fintype.card V ≤ p + n → 0 < n → NcInvF add G.edges w d0 s →
      (∀ (q : V → Option V), (∀ v u, q v = some u → (u, v) ∈ G.edges) → ∀ k v r, k ≤ p →
        stepN q k v = some r → s.dist v ≤ chainF add w q k v (d0 r)) →
      ∃ s' r, ncLoopF add G w n s = some (s', r) ∧ (∀ x, s'.dist x ≤ s.dist x) ∧ NcEnd add G.edges w s'.dist r := by
  intro n
  induction n with
  | zero => intro p s _ h; omega
  | succ n ih =>
    intro p s hp _ hinv hU
    obtain ⟨-, f2, f3⟩ := relaxFoldF_flag add w G.edges (s, false)
    have hle := relaxFoldF_le add w G.edges (s, false)
    have hed := relaxFoldF_edges ha w G.edges (s, false)
    have hinv' := relaxFoldF_inv ha G.edges (s, false) (fun _ h => h) hinv
    change ((relaxF add G w s).2 = false → (relaxF add G w s).1 = s) at f2
    change (false = false → (relaxF add G w s).2 = true → ∃ x, (relaxF add G w s).1.dist x < s.dist x) at f3
    change ∀ x, (relaxF add G w s).1.dist x ≤ s.dist x at hle
    change ∀ e, e ∈ G.edges → (relaxF add G w s).1.dist e.2 ≤ add (s.dist e.1) (w e) at hed
    change NcInvF add G.edges w d0 (relaxF add G w s).1 at hinv'
    unfold ncLoopF
    generalize hrx : relaxF add G w s = R at *
    obtain ⟨s', ch⟩ := R
    simp only at f2 f3 hle hed hinv' ⊢
    cases ch with
    | false =>
      refine ⟨s', .ok [], by simp only [if_true], hle, .potential fun e he => ?_⟩
      have := hed e he
      rw [f2 rfl] at this ⊢
      exact this
    | true =>
      have hcard := card_le_nodes hG
      rcases findCycle_spec hG s'.pred with ⟨u, e1, e2⟩ | ⟨e1, e2⟩
      · obtain ⟨k, k1, k2, k3, k4⟩ := first_return e2
        obtain ⟨b, g1, g1'⟩ := isNegativeF_spec add s'.dist w k G.nodes.length u k1 (k2.trans hcard) k3 k4
        have g2 := cycleList_spec k G.nodes.length u [] k1 (k2.trans hcard) k3 k4
        have hw : ClosedWalk G.edges (predEdges s'.pred k u).reverse :=
          ⟨by simpa using predEdges_ne_nil k1 k3, u, predEdges_walk hinv'.edge k u u k3⟩
        have ht : ∀ e ∈ predEdges s'.pred k u, add (s'.dist e.1) (w e) ≤ s'.dist e.2 := fun e he =>
          hinv'.tight e.2 e.1 (mem_predEdges k u e he)
        cases b with
        | true =>
          exact ⟨s', .ok (predEdges s'.pred k u), by simp [e1, g1, g2], hle, .cycle hw (predEdges_nodup k3 k4) ht (g1'.1 rfl)⟩
        | false =>
          refine ⟨s', .error .assertion, by simp [e1, g1], hle, .stuck hw (predEdges_nodup k3 k4) fun e he => ?_⟩
          refine le_antisymm (ht e he) (not_lt.1 fun hlt => ?_)
          exact Bool.false_ne_true (g1'.2 ⟨e, he, hlt⟩)
      · have hU' : ∀ (q : V → Option V), (∀ v u, q v = some u → (u, v) ∈ G.edges) → ∀ k v r, k ≤ p + 1 →
            stepN q k v = some r → s'.dist v ≤ chainF add w q k v (d0 r) := by
          intro q hq k v r hk hs
          cases k with
          | zero => exact (hle v).trans (hU q hq 0 v r (by omega) hs)
          | succ k =>
            cases hqv : q v with
            | none => simp [stepN, hqv] at hs
            | some x =>
              rw [stepN_succ hqv] at hs
              simp only [chainF, hqv]
              exact (hed (x, v) (hq v x hqv)).trans (ha _ _ _ (hU q hq k x r (by omega) hs))
        have hn : 0 < n := by
          by_contra hn
          obtain ⟨x, hx⟩ := f3 trivial rfl
          obtain ⟨k, r, h1, h2, h3⟩ := e2.root x
          have h4 := tight_chainF ha hinv'.tight k x r h2
          rw [hinv'.root r h3] at h4
          have h5 := hU s'.pred hinv'.edge k x r (by omega) h2
          exact absurd (h5.trans h4) (not_le.2 hx)
        obtain ⟨s2, r, j1, j2, j3⟩ := ih (p + 1) s' (by omega) hn hinv' hU'
        exact ⟨s2, r, by simp only [e1]; exact j1, fun x => (j2 x).trans (hle x), j3⟩

/-- **C119** (no endless loop).  `find_neg_cycle` on any finite graph, any weights, any initial distances, with any computed addition that
is monotone (as rounded addition is): it finishes within `max(|V|, 1)` passes, in one of the three ways of `NcEnd`. -/
theorem C119_finishes {G : Graph V} (hG : ∀ v, v ∈ G.nodes) {add : α → α → α} (ha : AddMono add) (w : V × V → α) (d0 : V → α)
    (rounds : ℕ) (hr : Fintype.card V ≤ rounds) (hr0 : 0 < rounds) :
    ∃ d r, findNegCycleF add G w rounds d0 = some (d, r) ∧ (∀ x, d x ≤ d0 x) ∧ NcEnd add G.edges w d r := by
  obtain ⟨s', r, h1, h2, h3⟩ := ncLoopF_spec hG ha w d0 rounds 0 ⟨d0, fun _ => none⟩ (by omega) hr0
    (NcInvF.init add G.edges w d0) (by
      intro q _ k v r hk hs
      obtain rfl : k = 0 := by omega
      simp only [stepN, Option.some.injEq] at hs
      subst hs
      exact le_rfl)
  exact ⟨s'.dist, r, by simp only [findNegCycleF, h1, Option.map_some], h2, h3⟩

end order

section exact
variable [CommRing α] [LinearOrder α]

theorem relaxEdgeF_exact (w : V × V → α) : relaxEdgeF (· + ·) w = relaxEdge w := rfl

theorem isNegativeF_exact (pred : V → Option V) (dist : V → α) (w : V × V → α) (h : V) (n : ℕ) (v : V) :
    isNegativeF (· + ·) pred dist w h n v = isNegative pred dist w h n v := by
  induction n generalizing v with
  | zero => rfl
  | succ n ih =>
    simp only [isNegativeF, isNegative, ih]
    cases pred v <;> rfl

/-- **C119** (exact addition): nothing changes, the model is that of C67. -/
theorem C119_exact (G : Graph V) (w : V × V → α) (rounds : ℕ) (d0 : V → α) :
    findNegCycle G w rounds d0 = (findNegCycleF (· + ·) G w rounds d0).map fun p => p.2.map fun c => (p.1, c) := by
  have key : ∀ (n : ℕ) (s : NcSt V α), ncLoop G w n s = (ncLoopF (· + ·) G w n s).map fun p => p.2.map fun c => (p.1, c) := by
    intro n
    induction n with
    | zero => intro s; rfl
    | succ n ih =>
      intro s
      have hr : relaxF (· + ·) G w s = relax G w s := rfl
      simp only [ncLoop, ncLoopF, hr, isNegativeF_exact]
      split_ifs
      · rfl
      · rcases findCycle G (relax G w s).1.pred with _ | _ | v
        · rfl
        · exact ih _
        · simp only
          rcases isNegative (relax G w s).1.pred (relax G w s).1.dist w v G.nodes.length v with _ | _ | _ | _
          · rfl
          · rfl
          · rfl
          · simp only
            rcases cycleList (relax G w s).1.pred v G.nodes.length v [] with _ | _ | _ <;> rfl
  simp only [findNegCycle, findNegCycleF, key, Option.map_map]
  congr 1
  funext p
  rcases p with ⟨s, _ | c⟩ <;> rfl

end exact

section rounding
open FloatSpec
variable [Field α] [LinearOrder α] [IsStrictOrderedRing α] [FloorRing α] [Fintype V]

omit [FloorRing α] in
theorem addMono_of_mono {fl : α → α} (h : Monotone fl) : AddMono fun a b => fl (a + b) := fun a b w hab => h (by gcongr)

omit [DecidableEq V] [Fintype V] [FloorRing α] in
theorem Walk.sum_le {E : List (V × V)} {w err : V × V → α} {d : V → α} {u x : V} {l : List (V × V)} (h : Walk E u x l)
    (hl : ∀ e ∈ l, d e.2 ≤ d e.1 + w e + err e) : d x - d u ≤ (l.map w).sum + (l.map err).sum := by
  induction h with
  | nil u => simp
  | cons he _ ih =>
    have h1 := hl _ (List.mem_cons_self ..)
    have h2 := ih fun e he => hl e (List.mem_cons_of_mem _ he)
    simp only [List.map_cons, List.sum_cons] at h1 ⊢
    linarith

omit [DecidableEq V] [Fintype V] [FloorRing α] in
theorem Walk.le_sum {E : List (V × V)} {w err : V × V → α} {d : V → α} {u x : V} {l : List (V × V)} (h : Walk E u x l)
    (hl : ∀ e ∈ l, d e.1 + w e - err e ≤ d e.2) : (l.map w).sum - (l.map err).sum ≤ d x - d u := by
  induction h with
  | nil u => simp
  | cons he _ ih =>
    have h1 := hl _ (List.mem_cons_self ..)
    have h2 := ih fun e he => hl e (List.mem_cons_of_mem _ he)
    simp only [List.map_cons, List.sum_cons] at h1 ⊢
    linarith

/-- **C119** (accuracy).  With additions rounded to `p` bits, each rounded sum `dist[u] + w` being off by at most `err e = |dist[u] + w(e)| / 2^p`:
the finder finishes within `max(|V|, 1)` passes, and
* if it returns `[]`, the final distances are a potential up to `err`, and no closed walk has a weight below `-Σ err`;
* if it returns a cycle, this is a simple cycle of the graph of weight at most `Σ err`;
* otherwise it raises `AssertionError`, and then some simple cycle of the graph has weight `0` up to `Σ err`. -/
theorem C119_accuracy {G : Graph V} (hG : ∀ v, v ∈ G.nodes) {p : ℕ} {fl : α → α} (hfl : Nearest p fl) (w : V × V → α) (d0 : V → α)
    (rounds : ℕ) (hr : Fintype.card V ≤ rounds) (hr0 : 0 < rounds) :
    ∃ d r, findNegCycleF (fun a b => fl (a + b)) G w rounds d0 = some (d, r) ∧ (∀ x, d x ≤ d0 x) ∧
      let err := fun e : V × V => |d e.1 + w e| / 2 ^ p
      (r = .ok [] ∧ Potential G.edges (fun e => w e + err e) d ∧
        ∀ l, ClosedWalk G.edges l → -(l.map err).sum ≤ (l.map w).sum) ∨
      (∃ c : List (V × V), r = .ok c ∧ ClosedWalk G.edges c.reverse ∧ (c.map Prod.snd).Nodup ∧ (c.map w).sum ≤ (c.map err).sum) ∨
      (r = .error .assertion ∧ ∃ c : List (V × V), ClosedWalk G.edges c.reverse ∧ (c.map Prod.snd).Nodup ∧
        |(c.map w).sum| ≤ (c.map err).sum) := by
  obtain ⟨d, r, h1, h2, h3⟩ := C119_finishes hG (addMono_of_mono hfl.rounding.mono) w d0 rounds hr hr0
  have he : ∀ e : V × V, |fl (d e.1 + w e) - (d e.1 + w e)| ≤ |d e.1 + w e| / 2 ^ p := fun e => hfl.err _
  refine ⟨d, r, h1, h2, ?_⟩
  intro err
  have up : ∀ c : List (V × V), ClosedWalk G.edges c.reverse → (∀ e ∈ c, fl (d e.1 + w e) ≤ d e.2) →
      (c.map w).sum ≤ (c.map err).sum := by
    rintro c ⟨-, v, hv⟩ hc
    have := hv.le_sum (d := d) (w := w) (err := err) fun e hm => by
      have := (abs_le.1 (he e)).1
      have := hc e (List.mem_reverse.1 hm)
      change _ - |d e.1 + w e| / 2 ^ p ≤ _
      linarith
    rw [List.map_reverse, List.map_reverse, List.sum_reverse, List.sum_reverse] at this
    linarith
  cases h3 with
  | potential h =>
    have hp : ∀ e ∈ G.edges, d e.2 ≤ d e.1 + w e + err e := fun e hm => by
      have := (abs_le.1 (he e)).2
      have := h e hm
      change _ ≤ _ + |d e.1 + w e| / 2 ^ p
      linarith
    refine .inl ⟨rfl, fun e hm => by have := hp e hm; linarith, ?_⟩
    rintro l ⟨-, v, hv⟩
    have hsub : ∀ e ∈ l, e ∈ G.edges := by
      clear * - hv
      generalize hv' : v = v' at hv
      nth_rewrite 2 [← hv'] at hv
      clear hv'
      induction hv with
      | nil u => simp
      | cons he _ ih =>
        intro e hm
        rcases List.mem_cons.1 hm with rfl | hm
        · exact he
        · exact ih e hm
    have := hv.sum_le (d := d) (w := w) (err := err) fun e hm => hp e (hsub e hm)
    linarith
  | @cycle c a b c' _ => exact .inr (.inl ⟨c, rfl, a, b, up c a c'⟩)
  | @stuck c a b c' =>
    refine .inr (.inr ⟨rfl, c, a, b, abs_le.2 ⟨?_, up c a fun e hm => (c' e hm).le⟩⟩)
    obtain ⟨-, v, hv⟩ := a
    have := hv.sum_le (d := d) (w := w) (err := err) fun e hm => by
      have := (abs_le.1 (he e)).2
      have := c' e (List.mem_reverse.1 hm)
      change _ ≤ _ + |d e.1 + w e| / 2 ^ p
      linarith
    rw [List.map_reverse, List.map_reverse, List.sum_reverse, List.sum_reverse] at this
    linarith

end rounding

/-! ### What rounding can do -/
section examples
open FloatSpec

/-- Three nodes in a circle. -/
def ncCircle : Graph (Fin 3) := ⟨[0, 1, 2], [(0, 1), (1, 2), (2, 0)]⟩

/-- Weights of the three edges. -/
def ncWeights (a b c : ℚ) (e : Fin 3 × Fin 3) : ℚ := if e.1 = 0 then a else if e.1 = 1 then b else c

/-- A pass in which all three edges are relaxed, one after the other. -/
theorem ncCircle_pass {add : ℚ → ℚ → ℚ} {a b c x y z x' y' z' : ℚ} (h1 : add x a = y') (h2 : add y' b = z') (h3 : add z' c = x') (hy : y' < y)
    (hz : z' < z) (hx : x' < x) : relaxF add ncCircle (ncWeights a b c) ⟨![x, y, z], fun _ => none⟩ =
      (⟨![x', y', z'], ![some 2, some 0, some 1]⟩, true) := by
  have d1 : Function.update ![x, y, z] 1 y' = ![x, y', z] := by ext i; fin_cases i <;> rfl
  have d2 : Function.update ![x, y', z] 2 z' = ![x, y', z'] := by ext i; fin_cases i <;> rfl
  have d3 : Function.update ![x, y', z'] 0 x' = ![x', y', z'] := by ext i; fin_cases i <;> rfl
  have p1 : Function.update (fun _ : Fin 3 => (none : Option (Fin 3))) 1 (some 0) = ![none, some 0, none] := by
    funext i; fin_cases i <;> rfl
  have p2 : Function.update ![none, some (0 : Fin 3), none] 2 (some 1) = ![none, some 0, some 1] := by funext i; fin_cases i <;> rfl
  have p3 : Function.update ![none, some (0 : Fin 3), some 1] 0 (some 2) = ![some 2, some 0, some 1] := by
    funext i; fin_cases i <;> rfl
  have s1 : relaxEdgeF add (ncWeights a b c) (⟨![x, y, z], fun _ => none⟩, false) (0, 1) = (⟨![x, y', z], ![none, some 0, none]⟩, true) := by
    change (if add x a < y then _ else _) = _
    rw [if_pos (h1 ▸ hy), ← d1, ← p1, ← h1]; rfl
  have s2 : relaxEdgeF add (ncWeights a b c) (⟨![x, y', z], ![none, some 0, none]⟩, true) (1, 2) =
      (⟨![x, y', z'], ![none, some 0, some 1]⟩, true) := by
    change (if add y' b < z then _ else _) = _
    rw [if_pos (h2 ▸ hz), ← d2, ← p2, ← h2]; rfl
  have s3 : relaxEdgeF add (ncWeights a b c) (⟨![x, y', z'], ![none, some 0, some 1]⟩, true) (2, 0) =
      (⟨![x', y', z'], ![some 2, some 0, some 1]⟩, true) := by
    change (if add z' c < x then _ else _) = _
    rw [if_pos (h3 ▸ hx), ← d3, ← p3, ← h3]; rfl
  simp only [relaxF, ncCircle, List.foldl, s1, s2, s3]

/-- A run whose first pass relaxes all three edges. -/
theorem ncCircle_run {add : ℚ → ℚ → ℚ} {a b c x y z x' y' z' : ℚ} (h1 : add x a = y') (h2 : add y' b = z') (h3 : add z' c = x') (hy : y' < y)
    (hz : z' < z) (hx : x' < x) : findNegCycleF add ncCircle (ncWeights a b c) 3 ![x, y, z] =
      some (![x', y', z'], if add x' a < y' then .ok [(2, 0), (1, 2), (0, 1)] else .error .assertion) := by
  have hf : findCycle ncCircle ![some 2, some 0, some 1] = some (some 0) := by decide
  have hc : cycleList ![some 2, some 0, some 1] (0 : Fin 3) ncCircle.nodes.length 0 [] = some (.ok [(2, 0), (1, 2), (0, 1)]) := by rfl
  have hi : isNegativeF add ![some 2, some 0, some 1] ![x', y', z'] (ncWeights a b c) 0 ncCircle.nodes.length 0 =
      some (.ok (decide (add x' a < y'))) := by
    change (if add z' c < x' then _ else (if (2 : Fin 3) = 0 then _ else (if add y' b < z' then _ else
      (if (1 : Fin 3) = 0 then _ else (if add x' a < y' then _ else (if (0 : Fin 3) = 0 then _ else _)))))) = _
    rw [if_neg (by rw [h3]; exact lt_irrefl _), if_neg (by decide), if_neg (by rw [h2]; exact lt_irrefl _), if_neg (by decide)]
    by_cases h : add x' a < y'
    · rw [if_pos h]; simp [h]
    · rw [if_neg h, if_pos rfl]; simp [h]
  simp only [findNegCycleF, ncLoopF, ncCircle_pass h1 h2 h3 hy hz hx, hf, hi, hc]
  by_cases h : add x' a < y' <;> simp [h]

variable {fl : ℚ → ℚ}

theorem fl_big (h : Nearest 53 fl) (m : ℤ) (hm : 2 ^ 52 ≤ m) (hm' : m ≤ 2 ^ 53) {x : ℚ} (hx : 2 ^ 53 ≤ x) (hxm : |(2 * m : ℚ) - x| < 1) :
    fl x = 2 * m := by
  have := h.eq (by norm_num) (x := x) (m := m) (e := 1) (by simpa using hm) hm' (by norm_num at hx ⊢; exact hx)
    (by rw [zpow_one, mul_comm (m : ℚ)]; linarith)
  rw [this, zpow_one, mul_comm]

theorem fl_neg_big (h : Nearest 53 fl) (m : ℤ) (hm : 2 ^ 52 ≤ m) (hm' : m ≤ 2 ^ 53) {x y : ℚ} (hx : 2 ^ 53 ≤ -x) (hxm : |(2 * m : ℚ) - -x| < 1)
    (hy : y = -(2 * m)) : fl x = y := by
  have := fl_big h.neg m hm hm' hx hxm
  rw [neg_neg] at this
  rw [hy]; linarith

/-- **C119** ("Will zero cycle be found???", `neg_cycle.tpy:46`).  In double precision a cycle of *positive* weight can be returned: weights
`-1.25, -1.25, 2.75`, all initial distances `-2^53`, whatever the rounding to nearest does with ties. -/
theorem C119_positive_cycle (h : Nearest 53 fl) :
    ∃ d, findNegCycleF (fun a b => fl (a + b)) ncCircle (ncWeights (-5 / 4) (-5 / 4) (11 / 4)) 3 ![-2 ^ 53, -2 ^ 53, -2 ^ 53] =
      some (d, .ok [(2, 0), (1, 2), (0, 1)]) ∧
      0 < (([(2, 0), (1, 2), (0, 1)] : List (Fin 3 × Fin 3)).map (ncWeights (-5 / 4) (-5 / 4) (11 / 4))).sum := by
  have e1 : fl (-2 ^ 53 + -5 / 4) = -9007199254740994 :=
    fl_neg_big h 4503599627370497 (by norm_num) (by norm_num) (by norm_num) (by norm_num [abs_lt]) (by norm_num)
  have e2 : fl (-9007199254740994 + -5 / 4) = -9007199254740996 :=
    fl_neg_big h 4503599627370498 (by norm_num) (by norm_num) (by norm_num) (by norm_num [abs_lt]) (by norm_num)
  have e3 : fl (-9007199254740996 + 11 / 4) = -9007199254740994 :=
    fl_neg_big h 4503599627370497 (by norm_num) (by norm_num) (by norm_num) (by norm_num [abs_lt]) (by norm_num)
  have hrun := ncCircle_run (add := fun a b => fl (a + b)) (x := -2 ^ 53) (y := -2 ^ 53) (z := -2 ^ 53) e1 e2 e3 (by norm_num) (by norm_num)
    (by norm_num)
  rw [if_pos (by simp only [e2]; norm_num)] at hrun
  refine ⟨_, hrun, ?_⟩
  simp [ncWeights]; norm_num

/-- **C119** (the assertion of `neg_cycle.tpy:47` can fail).  Weights `-2^53, 2^53 - 1, 0.75`, initial distances 0: the only cycle has weight
`-0.25`, the finder finds it and raises `AssertionError`. -/
theorem C119_assertion_fails (h : Nearest 53 fl) :
    ∃ d, findNegCycleF (fun a b => fl (a + b)) ncCircle (ncWeights (-2 ^ 53) (2 ^ 53 - 1) (3 / 4)) 3 ![0, 0, 0] =
      some (d, .error .assertion) ∧
      (([(2, 0), (1, 2), (0, 1)] : List (Fin 3 × Fin 3)).map (ncWeights (-2 ^ 53) (2 ^ 53 - 1) (3 / 4))).sum < 0 := by
  have e1 : fl (0 + -2 ^ 53) = -2 ^ 53 :=
    fl_neg_big h 4503599627370496 (by norm_num) (by norm_num) (by norm_num) (by norm_num [abs_lt]) (by norm_num)
  have e2 : fl (-2 ^ 53 + (2 ^ 53 - 1)) = -1 := by
    rw [show (-2 ^ 53 + (2 ^ 53 - 1) : ℚ) = ((-1 : ℤ) : ℚ) by norm_num, h.rounding.exact _ (rep_int (by norm_num))]; norm_num
  have e3 : fl (-1 + 3 / 4) = -1 / 4 := by
    rw [show (-1 + 3 / 4 : ℚ) = -2 ^ (-2 : ℤ) by norm_num, h.rounding.exact _ (rep_pow (-2)).neg]; norm_num
  have e4 : fl (-1 / 4 + -2 ^ 53) = -2 ^ 53 :=
    fl_neg_big h 4503599627370496 (by norm_num) (by norm_num) (by norm_num) (by norm_num [abs_lt]) (by norm_num)
  have hrun := ncCircle_run (add := fun a b => fl (a + b)) (x := 0) (y := 0) (z := 0) e1 e2 e3 (by norm_num) (by norm_num)
    (by norm_num)
  rw [if_neg (by simp only [e4]; norm_num)] at hrun
  refine ⟨_, hrun, ?_⟩
  simp [ncWeights]; norm_num

/-- **C119** (a negative cycle can be missed).  Weights `-2^53, 2^53, -0.5`, initial distances 0: the only cycle has weight `-0.5`, but the finder
stops after two passes and returns `[]`. -/
theorem C119_missed (h : Nearest 53 fl) :
    ∃ d, findNegCycleF (fun a b => fl (a + b)) ncCircle (ncWeights (-2 ^ 53) (2 ^ 53) (-1 / 2)) 3 ![0, 0, 0] = some (d, .ok []) ∧
      (([(2, 0), (1, 2), (0, 1)] : List (Fin 3 × Fin 3)).map (ncWeights (-2 ^ 53) (2 ^ 53) (-1 / 2))).sum < 0 := by
  have e1 : fl (0 + -2 ^ 53) = -2 ^ 53 :=
    fl_neg_big h 4503599627370496 (by norm_num) (by norm_num) (by norm_num) (by norm_num [abs_lt]) (by norm_num)
  have e2 : fl (-2 ^ 53 + 2 ^ 53) = 0 := by
    rw [show (-2 ^ 53 + 2 ^ 53 : ℚ) = ((0 : ℤ) : ℚ) by norm_num, h.rounding.exact _ (rep_int (by norm_num))]; norm_num
  have e3 : fl (0 + -1 / 2) = -1 / 2 := by
    rw [show (0 + -1 / 2 : ℚ) = -2 ^ (-1 : ℤ) by norm_num, h.rounding.exact _ (rep_pow (-1)).neg]; norm_num
  have e4 : fl (-1 / 2 + -2 ^ 53) = -2 ^ 53 :=
    fl_neg_big h 4503599627370496 (by norm_num) (by norm_num) (by norm_num) (by norm_num [abs_lt]) (by norm_num)
  have d1 : Function.update ![0, 0, 0] 1 (-2 ^ 53) = (![0, -2 ^ 53, 0] : Fin 3 → ℚ) := by ext i; fin_cases i <;> rfl
  have d3 : Function.update ![0, -2 ^ 53, 0] 0 (-1 / 2) = (![-1 / 2, -2 ^ 53, 0] : Fin 3 → ℚ) := by ext i; fin_cases i <;> rfl
  have p1 : Function.update (fun _ : Fin 3 => (none : Option (Fin 3))) 1 (some 0) = ![none, some 0, none] := by
    funext i; fin_cases i <;> rfl
  have p3 : Function.update ![none, some (0 : Fin 3), none] 0 (some 2) = ![some 2, some 0, none] := by
    funext i; fin_cases i <;> rfl
  set w := ncWeights (-2 ^ 53) (2 ^ 53) (-1 / 2) with hw
  set add : ℚ → ℚ → ℚ := fun a b => fl (a + b) with hadd
  have s1 : relaxEdgeF add w (⟨![0, 0, 0], fun _ => none⟩, false) (0, 1) = (⟨![0, -2 ^ 53, 0], ![none, some 0, none]⟩, true) := by
    change (if fl (0 + -2 ^ 53) < 0 then _ else _) = _
    rw [if_pos (by rw [e1]; norm_num), ← d1, ← p1, ← e1]; rfl
  have s2 : relaxEdgeF add w (⟨![0, -2 ^ 53, 0], ![none, some 0, none]⟩, true) (1, 2) = (⟨![0, -2 ^ 53, 0], ![none, some 0, none]⟩, true) := by
    change (if fl (-2 ^ 53 + 2 ^ 53) < 0 then _ else _) = _
    rw [if_neg (by rw [e2]; norm_num)]
  have s3 : relaxEdgeF add w (⟨![0, -2 ^ 53, 0], ![none, some 0, none]⟩, true) (2, 0) =
      (⟨![-1 / 2, -2 ^ 53, 0], ![some 2, some 0, none]⟩, true) := by
    change (if fl (0 + -1 / 2) < 0 then _ else _) = _
    rw [if_pos (by rw [e3]; norm_num), ← d3, ← p3, ← e3]; rfl
  have t1 : relaxEdgeF add w (⟨![-1 / 2, -2 ^ 53, 0], ![some 2, some 0, none]⟩, false) (0, 1) =
      (⟨![-1 / 2, -2 ^ 53, 0], ![some 2, some 0, none]⟩, false) := by
    change (if fl (-1 / 2 + -2 ^ 53) < -2 ^ 53 then _ else _) = _
    rw [if_neg (by rw [e4]; norm_num)]
  have t2 : relaxEdgeF add w (⟨![-1 / 2, -2 ^ 53, 0], ![some 2, some 0, none]⟩, false) (1, 2) =
      (⟨![-1 / 2, -2 ^ 53, 0], ![some 2, some 0, none]⟩, false) := by
    change (if fl (-2 ^ 53 + 2 ^ 53) < 0 then _ else _) = _
    rw [if_neg (by rw [e2]; norm_num)]
  have t3 : relaxEdgeF add w (⟨![-1 / 2, -2 ^ 53, 0], ![some 2, some 0, none]⟩, false) (2, 0) =
      (⟨![-1 / 2, -2 ^ 53, 0], ![some 2, some 0, none]⟩, false) := by
    change (if fl (0 + -1 / 2) < -1 / 2 then _ else _) = _
    rw [if_neg (by rw [e3]; norm_num)]
  have r1 : relaxF add ncCircle w ⟨![0, 0, 0], fun _ => none⟩ = (⟨![-1 / 2, -2 ^ 53, 0], ![some 2, some 0, none]⟩, true) := by
    simp only [relaxF, ncCircle, List.foldl, s1, s2, s3]
  have r2 : relaxF add ncCircle w ⟨![-1 / 2, -2 ^ 53, 0], ![some 2, some 0, none]⟩ =
      (⟨![-1 / 2, -2 ^ 53, 0], ![some 2, some 0, none]⟩, false) := by
    simp only [relaxF, ncCircle, List.foldl, t1, t2, t3]
  have hf : findCycle ncCircle ![some 2, some 0, none] = some none := by decide
  refine ⟨![-1 / 2, -2 ^ 53, 0], ?_, ?_⟩
  · simp only [findNegCycleF, ncLoopF, r1, r2, hf]; rfl
  · rw [hw]; simp [ncWeights]; norm_num

/-- Both with the IEEE 754 rounding of doubles. -/
example : (∃ d, findNegCycleF (fun a b => ieee 53 (a + b)) ncCircle (ncWeights (-5 / 4) (-5 / 4) (11 / 4)) 3 ![-2 ^ 53, -2 ^ 53, -2 ^ 53] =
    some (d, .ok [(2, 0), (1, 2), (0, 1)])) ∧
    ∃ d, findNegCycleF (fun a b => ieee 53 (a + b)) ncCircle (ncWeights (-2 ^ 53) (2 ^ 53 - 1) (3 / 4)) 3 ![0, 0, 0] = some (d, .error .assertion) :=
  ⟨(C119_positive_cycle (ieee_nearest (by norm_num))).imp fun _ h => h.1, (C119_assertion_fails (ieee_nearest (by norm_num))).imp fun _ h => h.1⟩

/-- C119_accuracy applies to it. -/
example : ∀ v, v ∈ ncCircle.nodes := by decide

end examples
end Verif
