import Mathlib.Algebra.Order.Ring.Rat
import Verif.Proofs.NegCycle

/-! # The negative-cycle finder (C67) -/
namespace Verif

variable {V α : Type _} [DecidableEq V] [Fintype V] [CommRing α] [LinearOrder α] [IsStrictOrderedRing α]

/-- Outcome of the main loop from a state reached after `p` passes over the initial distances `d0`. -/
theorem ncLoop_spec {G : Graph V} (hG : ∀ v, v ∈ G.nodes) (w : V × V → α) (d0 : V → α) :
    ∀ (n p : ℕ) (s : NcSt V α), Fintype.card V ≤ p + n → 0 < n → NcInv G.edges w d0 s →
      (∀ (q : V → Option V), (∀ v u, q v = some u → (u, v) ∈ G.edges) → ∀ k v r, k ≤ p →
        stepN q k v = some r → s.dist v ≤ d0 r + predW w q k v) →
      ∃ s' c, ncLoop G w n s = some (.ok (s', c)) ∧ (∀ x, s'.dist x ≤ d0 x ∨ s'.dist x ≤ s.dist x) ∧
        (c = [] → Potential G.edges w s'.dist) ∧
        (c ≠ [] → ClosedWalk G.edges c.reverse ∧ (c.map Prod.snd).Nodup ∧ (c.map w).sum < 0) := by
  intro n
  induction n with
  | zero => intro p s _ h; omega
  | succ n ih =>
    intro p s hp _ hinv hU
    obtain ⟨-, f2, f3⟩ := relaxFold_flag w G.edges (s, false)
    have hle := relaxFold_le w G.edges (s, false)
    have hed := relaxFold_edges w G.edges (s, false)
    have hinv' := relaxFold_inv G.edges (s, false) (fun _ h => h) hinv
    change ((relax G w s).2 = false → (relax G w s).1 = s) at f2
    change (false = false → (relax G w s).2 = true → ∃ x, (relax G w s).1.dist x < s.dist x) at f3
    change ∀ x, (relax G w s).1.dist x ≤ s.dist x at hle
    change ∀ e, e ∈ G.edges → (relax G w s).1.dist e.2 ≤ s.dist e.1 + w e at hed
    change NcInv G.edges w d0 (relax G w s).1 at hinv'
    have hunf : ncLoop G w (n + 1) s = _ := rfl
    unfold ncLoop at hunf ⊢
    generalize hrx : relax G w s = R at *
    obtain ⟨s', ch⟩ := R
    simp only at f2 f3 hle hed hinv' ⊢
    cases ch with
    | false =>
      refine ⟨s', [], by simp only [if_true], fun x => .inr (hle x), fun _ => ?_, fun h => absurd rfl h⟩
      intro e he
      have := hed e he
      rw [f2 rfl] at this ⊢
      linarith
    | true =>
      have hcard := card_le_nodes hG
      rcases findCycle_spec hG s'.pred with ⟨u, e1, e2⟩ | ⟨e1, e2⟩
      · obtain ⟨k, k1, k2, k3, k4⟩ := first_return e2
        have hneg := hinv'.neg k u k1 k3
        have g1 := isNegative_spec (dist := s'.dist) (w := w) k G.nodes.length u k1 (k2.trans hcard) k3 k4 (by linarith)
        have g2 := cycleList_spec k G.nodes.length u [] k1 (k2.trans hcard) k3 k4
        refine ⟨s', predEdges s'.pred k u, by simp [e1, g1, g2], fun x => .inr (hle x), ?_, fun _ => ⟨⟨?_, u, ?_⟩, ?_, ?_⟩⟩
        · intro h; exact absurd h (predEdges_ne_nil k1 k3)
        · simpa using predEdges_ne_nil k1 k3
        · exact predEdges_walk hinv'.edge k u u k3
        · exact predEdges_nodup k3 k4
        · rw [predEdges_sum]; exact hneg
      · have hU' : ∀ (q : V → Option V), (∀ v u, q v = some u → (u, v) ∈ G.edges) → ∀ k v r, k ≤ p + 1 →
            stepN q k v = some r → s'.dist v ≤ d0 r + predW w q k v := by
          intro q hq k v r hk hs
          cases k with
          | zero => exact (hle v).trans (hU q hq 0 v r (by omega) hs)
          | succ k =>
            cases hqv : q v with
            | none => simp [stepN, hqv] at hs
            | some x =>
              rw [stepN_succ hqv] at hs
              have h1 := hed (x, v) (hq v x hqv)
              have h2 := hU q hq k x r (by omega) hs
              simp only [predW, hqv] at h1 ⊢
              linarith
        have hn : 0 < n := by
          by_contra hn
          obtain ⟨x, hx⟩ := f3 trivial rfl
          obtain ⟨k, r, h1, h2, h3⟩ := e2.root x
          have h4 := tight_chain hinv'.tight k x r h2
          rw [hinv'.root r h3] at h4
          have h5 := hU s'.pred hinv'.edge k x r (by omega) h2
          linarith
        obtain ⟨s2, c, j1, j2, j3, j4⟩ := ih (p + 1) s' (by omega) hn hinv' hU'
        refine ⟨s2, c, by simp only [e1]; exact j1, fun x => ?_, j3, j4⟩
        rcases j2 x with h | h
        · exact .inl h
        · exact .inr (h.trans (hle x))

/-- **C67**: `find_neg_cycle` on any finite graph, any weights, any initial `dist`.  It finishes within
`max(|V|,1)` passes and raises nothing (its assertion holds).  It returns either the empty list, with `dist` a
feasible potential, or a simple closed walk of the graph (listed backwards) of negative weight. -/
theorem C67_neg_cycle {G : Graph V} (hG : ∀ v, v ∈ G.nodes) (w : V × V → α) (d0 : V → α) (rounds : ℕ)
    (hr : Fintype.card V ≤ rounds) (hr0 : 0 < rounds) :
    ∃ d c, findNegCycle G w rounds d0 = some (.ok (d, c)) ∧ (∀ x, d x ≤ d0 x) ∧
      (c = [] → Potential G.edges w d) ∧
      (c ≠ [] → ClosedWalk G.edges c.reverse ∧ (c.map Prod.snd).Nodup ∧ (c.map w).sum < 0) := by
  obtain ⟨s', c, h1, h2, h3, h4⟩ := ncLoop_spec hG w d0 rounds 0 ⟨d0, fun _ => none⟩ (by omega) hr0
    (NcInv.init G.edges w d0) (by
      intro q _ k v r hk hs
      obtain rfl : k = 0 := by omega
      simp only [stepN, Option.some.injEq] at hs
      subst hs
      simp [predW])
  refine ⟨s'.dist, c, ?_, fun x => (h2 x).elim id id, h3, h4⟩
  simp only [findNegCycle, h1, Option.map_some]
  rfl

/-- **C67**: the answer is `[]` exactly when the graph has no closed walk of negative weight. -/
theorem C67_neg_cycle_iff {G : Graph V} (hG : ∀ v, v ∈ G.nodes) (w : V × V → α) (d0 : V → α) (rounds : ℕ)
    (hr : Fintype.card V ≤ rounds) (hr0 : 0 < rounds) :
    ∃ d c, findNegCycle G w rounds d0 = some (.ok (d, c)) ∧
      (c = [] ↔ ∀ l, ClosedWalk G.edges l → 0 ≤ (l.map w).sum) := by
  obtain ⟨d, c, h1, -, h2, h3⟩ := C67_neg_cycle hG w d0 rounds hr hr0
  refine ⟨d, c, h1, fun h l hl => hl.nonneg (h2 h), fun h => ?_⟩
  by_contra hc
  obtain ⟨h4, -, h5⟩ := h3 hc
  have := h _ h4
  rw [List.map_reverse, List.sum_reverse] at this
  linarith

omit [IsStrictOrderedRing α] in
/-- **C67** (`_is_negative` by itself): on the way back from `v` to `handle` it returns `True` exactly if one of the edges that
`_cycle_list` would return can still be relaxed. -/
theorem C67_is_negative {pred : V → Option V} {dist : V → α} {w : V × V → α} {h : V} (k fuel : ℕ) (v : V) (hk : 0 < k) (hf : k ≤ fuel)
    (hs : stepN pred k v = some h) (hmin : ∀ i, 0 < i → i < k → stepN pred i v ≠ some h) :
    ∃ c, cycleList pred h fuel v [] = some (.ok c) ∧
      isNegative pred dist w h fuel v = some (.ok (decide (∃ e ∈ c, dist e.1 + w e < dist e.2))) := by
  refine ⟨_, cycleList_spec k fuel v [] hk hf hs hmin, ?_⟩
  rw [List.nil_append]
  induction k generalizing fuel v with
  | zero => omega
  | succ k ih =>
    obtain ⟨fuel, rfl⟩ : ∃ f, fuel = f + 1 := ⟨fuel - 1, by omega⟩
    cases hp : pred v with
    | none => simp [stepN, hp] at hs
    | some u =>
      rw [stepN_succ hp] at hs
      by_cases hlt : dist u + w (u, v) < dist v
      · simp [isNegative, predEdges, hp, hlt]
      · rcases Nat.eq_zero_or_pos k with rfl | hk0
        · simp only [stepN, Option.some.injEq] at hs
          subst hs
          simp [isNegative, predEdges, hp, hlt]
        · have huh : u ≠ h := by
            rintro rfl
            exact hmin 1 (by omega) (by omega) (by simp [stepN, hp])
          simp only [isNegative, hp, if_neg hlt, if_neg huh]
          rw [ih fuel u hk0 (by omega) hs (fun i h0 hi => by
            have := hmin (i + 1) (by omega) (by omega)
            rwa [stepN_succ hp] at this)]
          simp [predEdges, hp, hlt]

/-! ### Concrete runs (three nodes) -/

namespace Examples

def exG : Graph (Fin 3) := ⟨[0, 1, 2], [(0, 1), (1, 2), (2, 0)]⟩

example : ∀ v, v ∈ exG.nodes := by decide

/-- A triangle of weights 1, 1, -3: the cycle is found. -/
example : (findNegCycle exG (fun e => if e.1 = 2 then (-3 : ℚ) else 1) 3 fun _ => 0).map
    (fun r => r.toOption.map (·.2)) = some (some [(2, 0), (1, 2), (0, 1)]) := by with_unfolding_all rfl

/-- Weights 1, 1, -2: a zero cycle is not reported. -/
example : (findNegCycle exG (fun e => if e.1 = 2 then (-2 : ℚ) else 1) 3 fun _ => 0).map
    (fun r => r.toOption.map (·.2)) = some (some []) := by with_unfolding_all rfl

end Examples
end Verif
