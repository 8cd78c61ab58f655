import Mathlib.Data.Fintype.Card
import Mathlib.Data.Fintype.Pigeonhole
import Mathlib.Data.List.Basic
import Verif.Model.NegCycle
import Verif.Spec.NetSpec

/-! # Helper lemmas for the negative-cycle finder -/
namespace Verif

section
variable {V : Type _}

/-- Follow `pred` `n` times. -/
def stepN (pred : V → Option V) : ℕ → V → Option V
  | 0, v => some v
  | n + 1, v => (pred v).bind (stepN pred n)

/-- Weight of the first `n` predecessor edges from `v`. -/
def predW {α : Type _} [Zero α] [Add α] (w : V × V → α) (pred : V → Option V) : ℕ → V → α
  | 0, _ => 0
  | n + 1, v => match pred v with
    | none => 0
    | some u => w (u, v) + predW w pred n u

theorem stepN_succ {pred : V → Option V} {n : ℕ} {v u : V} (h : pred v = some u) :
    stepN pred (n + 1) v = stepN pred n u := by simp [stepN, h]

theorem stepN_add (pred : V → Option V) (n k : ℕ) (v : V) :
    stepN pred (n + k) v = (stepN pred n v).bind (stepN pred k) := by
  induction n generalizing v with
  | zero => simp [stepN]
  | succ n ih =>
    rw [Nat.succ_add]
    cases h : pred v with
    | none => simp [stepN, h]
    | some u => rw [stepN_succ h, stepN_succ h, ih]

theorem stepN_succ' {pred : V → Option V} {n : ℕ} {v x : V} (h : stepN pred n v = some x) :
    stepN pred (n + 1) v = pred x := by
  rw [stepN_add, h]
  simp only [Option.bind_some, stepN]
  cases pred x <;> rfl

/-- No node lies on a predecessor cycle. -/
def Acyclic (pred : V → Option V) : Prop := ∀ n v, 0 < n → stepN pred n v ≠ some v

/-- In an acyclic predecessor graph every chain ends at a root after fewer than `|V|` steps. -/
theorem Acyclic.root [Fintype V] {pred : V → Option V} (h : Acyclic pred) (v : V) :
    ∃ k r, k < Fintype.card V ∧ stepN pred k v = some r ∧ pred r = none := by
  by_contra hc
  push Not at hc
  have hall : ∀ k, k ≤ Fintype.card V → ∃ x, stepN pred k v = some x := by
    intro k
    induction k with
    | zero => intro _; exact ⟨v, rfl⟩
    | succ k ih =>
      intro hk
      obtain ⟨x, hx⟩ := ih (by omega)
      rw [stepN_succ' hx]
      exact Option.ne_none_iff_exists'.1 (hc k x (by omega) hx)
  choose f hf using fun k : Fin (Fintype.card V + 1) => hall k (by omega)
  obtain ⟨i, j, hij, he⟩ := Fintype.exists_ne_map_eq_of_card_lt f (by simp)
  have aux : ∀ i j : Fin (Fintype.card V + 1), i < j → f i = f j → False := by
    intro i j hlt he
    refine h (j - i) (f i) (by have := Fin.lt_def.1 hlt; omega) ?_
    have h1 := stepN_add pred i (j - i : ℕ) v
    rw [hf i, Nat.add_sub_cancel' (by have := Fin.lt_def.1 hlt; omega), hf j] at h1
    simp only [Option.bind_some] at h1
    rw [← h1, he]
  rcases lt_or_gt_of_ne hij with hlt | hlt
  · exact aux i j hlt he
  · exact aux j i hlt he.symm

/-- First return to a node on a cycle takes at most `|V|` steps. -/
theorem first_return [Fintype V] {pred : V → Option V} {v : V} (h : ∃ n, 0 < n ∧ stepN pred n v = some v) :
    ∃ k, 0 < k ∧ k ≤ Fintype.card V ∧ stepN pred k v = some v ∧
      ∀ i, 0 < i → i < k → stepN pred i v ≠ some v := by
  classical
  let k := Nat.find h
  obtain ⟨hk0, hk⟩ := Nat.find_spec h
  have hmin : ∀ i, 0 < i → i < k → stepN pred i v ≠ some v := fun i h0 hi h' =>
    Nat.find_min h hi ⟨h0, h'⟩
  refine ⟨k, hk0, ?_, hk, hmin⟩
  by_contra hgt
  push Not at hgt
  have hall : ∀ i, i ≤ k → ∃ x, stepN pred i v = some x := by
    intro i hi
    have h1 := stepN_add pred i (k - i) v
    rw [Nat.add_sub_cancel' hi, show stepN pred k v = some v from hk] at h1
    cases h2 : stepN pred i v with
    | none => rw [h2] at h1; simp at h1
    | some x => exact ⟨x, rfl⟩
  choose f hf using fun i : Fin k => hall i (by omega)
  obtain ⟨i, j, hij, he⟩ := Fintype.exists_ne_map_eq_of_card_lt f (by simpa using hgt)
  have aux : ∀ i j : Fin k, i < j → f i = f j → False := by
    intro i j hlt he
    have hl := Fin.lt_def.1 hlt
    refine hmin (i + (k - j)) (by omega) (by omega) ?_
    rw [stepN_add, hf i, Option.bind_some, he]
    have h1 := stepN_add pred j (k - j) v
    rw [hf j, Nat.add_sub_cancel' (by omega), show stepN pred k v = some v from hk] at h1
    exact h1.symm
  rcases lt_or_gt_of_ne hij with hlt | hlt
  · exact aux i j hlt he
  · exact aux j i hlt he.symm

/-! ### `_find_cycle` -/

variable [DecidableEq V]

/-- The chain from `u` ends (meets a node without predecessor). -/
def Ends (pred : V → Option V) (u : V) : Prop := ∃ n, stepN pred n u = none

omit [DecidableEq V] in
theorem Ends.of_pred {pred : V → Option V} {u u' : V} (h : pred u = some u') (h' : Ends pred u') : Ends pred u := by
  obtain ⟨n, hn⟩ := h'
  exact ⟨n + 1, by rw [stepN_succ h, hn]⟩

omit [DecidableEq V] in
theorem Ends.not_cyclic {pred : V → Option V} {u : V} (h : Ends pred u) {n : ℕ} (hn : 0 < n) :
    stepN pred n u ≠ some u := by
  intro hc
  obtain ⟨k, hk⟩ := h
  have hmul : ∀ i, stepN pred (i * n) u = some u := by
    intro i
    induction i with
    | zero => simp [stepN]
    | succ i ih => rw [Nat.succ_mul, stepN_add, ih, Option.bind_some, hc]
  have hge : k ≤ k * n := Nat.le_mul_of_pos_right k hn
  have h1 := stepN_add pred k (k * n - k) u
  rw [Nat.add_sub_cancel' hge, hmul, hk] at h1
  simp at h1

/-- The nodes still unvisited. -/
def unvisited [Fintype V] (vis : V → Option V) : ℕ := (Finset.univ.filter fun x => vis x = none).card

theorem unvisited_update [Fintype V] {vis : V → Option V} {u v : V} (h : vis u = none) :
    unvisited (Function.update vis u (some v)) < unvisited vis := by
  refine Finset.card_lt_card ⟨fun x hx => ?_, fun hsub => ?_⟩
  · simp only [Finset.mem_filter, Finset.mem_univ, true_and] at hx ⊢
    by_cases hxu : x = u
    · subst hxu; exact h
    · rwa [Function.update_of_ne hxu] at hx
  · have : u ∈ Finset.univ.filter fun x => vis x = none := by simp [h]
    have := hsub this
    simp at this

/-- What the inner walk computes.  `K` says how the nodes labelled `v` lead to the current node. -/
theorem walkPred_spec [Fintype V] {pred : V → Option V} {v : V} :
    ∀ (n : ℕ) (vis : V → Option V) (u : V), vis u = none → unvisited vis ≤ n →
      (∀ x l, vis x = some l → l = v ∨ Ends pred x) →
      (∀ x, vis x = some v → ∃ k, 0 < k ∧ stepN pred k x = some u) →
      (∃ vis' u', walkPred pred v n vis u = some (vis', some u') ∧ ∃ k, 0 < k ∧ stepN pred k u' = some u') ∨
      (∃ vis', walkPred pred v n vis u = some (vis', none) ∧ Ends pred u ∧
        (∀ x, vis x = some v → Ends pred x) ∧
        (∀ x l, vis' x = some l → (vis x = some l ∨ l = v)) ∧ (∀ x l, vis' x = some l → Ends pred x) ∧
        (∀ x, (vis x).isSome → (vis' x).isSome) ∧ (vis' u).isSome) := by
  intro n
  induction n with
  | zero =>
    intro vis u hu hn
    have : u ∈ Finset.univ.filter fun x => vis x = none := by simp [hu]
    have := Finset.card_pos.2 ⟨u, this⟩
    unfold unvisited at hn
    omega
  | succ n ih =>
    intro vis u hu hn hother hK
    have hback : Ends pred u → ∀ x, vis x = some v → Ends pred x := by
      rintro ⟨j, hj⟩ x hx
      obtain ⟨k, -, hk⟩ := hK x hx
      exact ⟨k + j, by rw [stepN_add, hk, Option.bind_some, hj]⟩
    set vis1 := Function.update vis u (some v) with hv1
    have hv1u : vis1 u = some v := by simp [hv1]
    have hv1o : ∀ x, x ≠ u → vis1 x = vis x := fun x hx => by simp [hv1, hx]
    have hsome : ∀ x, (vis x).isSome → (vis1 x).isSome := by
      intro x hx
      by_cases hxu : x = u
      · subst hxu; rw [hv1u]; rfl
      · rw [hv1o x hxu]; exact hx
    have hends : Ends pred u → ∀ x l, vis1 x = some l → Ends pred x := by
      intro he x l hx
      by_cases hxu : x = u
      · subst hxu; exact he
      · rw [hv1o x hxu] at hx
        rcases hother x l hx with rfl | h
        · exact hback he x hx
        · exact h
    have hlab : ∀ x l, vis1 x = some l → (vis x = some l ∨ l = v) := by
      intro x l hx
      by_cases hxu : x = u
      · subst hxu; rw [hv1u] at hx; exact .inr (Option.some.inj hx).symm
      · rw [hv1o x hxu] at hx; exact .inl hx
    cases hp : pred u with
    | none =>
      have he : Ends pred u := ⟨1, by simp [stepN, hp]⟩
      exact .inr ⟨vis1, by simp only [walkPred, hp]; rfl, he, hback he, hlab, hends he, hsome, by rw [hv1u]; rfl⟩
    | some u' =>
      cases hl : vis1 u' with
      | some l =>
        by_cases hlv : l = v
        · subst hlv
          refine .inl ⟨vis1, u', by simp only [walkPred, hp, ← hv1, hl, if_true], ?_⟩
          by_cases hu' : u' = u
          · subst hu'; exact ⟨1, by omega, by simp [stepN, hp]⟩
          · rw [hv1o u' hu'] at hl
            obtain ⟨k, hk0, hk⟩ := hK u' hl
            exact ⟨k + 1, by omega, by rw [stepN_succ' hk, hp]⟩
        · have hu' : u' ≠ u := by rintro rfl; rw [hv1u] at hl; exact hlv (Option.some.inj hl).symm
          have he : Ends pred u := by
            rw [hv1o u' hu'] at hl
            rcases hother u' l hl with h | h
            · exact absurd h hlv
            · exact h.of_pred hp
          exact .inr ⟨vis1, by simp only [walkPred, hp, ← hv1, hl, if_neg hlv], he, hback he, hlab, hends he,
            hsome, by rw [hv1u]; rfl⟩
      | none =>
        have hstep : walkPred pred v (n + 1) vis u = walkPred pred v n vis1 u' := by
          simp only [walkPred, hp, ← hv1, hl]
        rw [hstep]
        have h1 := ih vis1 u' hl (by have := unvisited_update (v := v) hu; rw [← hv1] at this; omega)
          (by
            intro x l hx
            by_cases hxu : x = u
            · subst hxu; rw [hv1u] at hx; exact .inl (Option.some.inj hx).symm
            · rw [hv1o x hxu] at hx; exact hother x l hx)
          (by
            intro x hx
            by_cases hxu : x = u
            · subst hxu; exact ⟨1, by omega, by simp [stepN, hp]⟩
            · rw [hv1o x hxu] at hx
              obtain ⟨k, hk0, hk⟩ := hK x hx
              exact ⟨k + 1, by omega, by rw [stepN_succ' hk, hp]⟩)
        rcases h1 with h1 | ⟨vis', e1, e2, e3, e4, e5, e6, e7⟩
        · exact .inl h1
        · refine .inr ⟨vis', e1, e2.of_pred hp, hback (e2.of_pred hp), ?_, e5, fun x hx => e6 x (hsome x hx),
            e6 u (by rw [hv1u]; rfl)⟩
          intro x l hx
          rcases e4 x l hx with h | h
          · exact hlab x l h
          · exact .inr h

theorem findCycleLoop_spec [Fintype V] {pred : V → Option V} {fuel : ℕ} (hf : Fintype.card V ≤ fuel) :
    ∀ (l : List V) (vis : V → Option V), (∀ x a, vis x = some a → Ends pred x) →
      (∀ x a, vis x = some a → (vis a).isSome) →
      (∃ u, findCycleLoop pred fuel l vis = some (some u) ∧ ∃ k, 0 < k ∧ stepN pred k u = some u) ∨
      (findCycleLoop pred fuel l vis = some none ∧ ∀ v ∈ l, Ends pred v) := by
  intro l
  induction l with
  | nil => intro vis _ _; exact .inr ⟨rfl, by simp⟩
  | cons v l ih =>
    intro vis h1 h2
    by_cases hv : (vis v).isSome
    · rcases ih vis h1 h2 with h | ⟨h, h'⟩
      · exact .inl (by simpa only [findCycleLoop, hv, if_true] using h)
      · refine .inr ⟨by simpa only [findCycleLoop, hv, if_true] using h, ?_⟩
        intro x hx
        rcases List.mem_cons.1 hx with rfl | hx
        · obtain ⟨a, ha⟩ := Option.isSome_iff_exists.1 hv; exact h1 x a ha
        · exact h' x hx
    · have hvn : vis v = none := by simpa using hv
      have hno : ∀ x, vis x ≠ some v := fun x hx => hv (h2 x v hx)
      have key := walkPred_spec (pred := pred) (v := v) fuel vis v hvn
        ((Finset.card_le_univ _).trans hf) (fun x l hx => .inr (h1 x l hx))
        (fun x hx => absurd hx (hno x))
      rcases key with ⟨vis', u', e1, e2⟩ | ⟨vis', e1, e2, -, e4, e5, e6, e7⟩
      · exact .inl ⟨u', by simp only [findCycleLoop, hv, e1]; rfl, e2⟩
      · have h3 := ih vis' e5 (fun x a hx => by
          rcases e4 x a hx with h | rfl
          · exact e6 a (h2 x a h)
          · exact e7)
        have heq : findCycleLoop pred fuel (v :: l) vis = findCycleLoop pred fuel l vis' := by
          simp only [findCycleLoop, hv, e1]; rfl
        rw [heq]
        rcases h3 with h3 | ⟨h3, h4⟩
        · exact .inl h3
        · refine .inr ⟨h3, ?_⟩
          intro x hx
          rcases List.mem_cons.1 hx with rfl | hx
          · exact e2
          · exact h4 x hx

/-- `_find_cycle` returns a node on a predecessor cycle, or none exists. -/
theorem findCycle_spec [Fintype V] {G : Graph V} (hG : ∀ v, v ∈ G.nodes) (pred : V → Option V) :
    (∃ u, findCycle G pred = some (some u) ∧ ∃ k, 0 < k ∧ stepN pred k u = some u) ∨
    (findCycle G pred = some none ∧ Acyclic pred) := by
  have hc : Fintype.card V ≤ G.nodes.length := by
    rw [← Finset.card_univ]
    calc Finset.univ.card ≤ G.nodes.toFinset.card := Finset.card_le_card fun v _ => by simp [hG v]
      _ ≤ _ := List.toFinset_card_le _
  rcases findCycleLoop_spec (pred := pred) hc G.nodes (fun _ => none) (by simp) (by simp) with h | ⟨h, h'⟩
  · exact .inl h
  · exact .inr ⟨h, fun n v hn => (h' v (hG v)).not_cyclic hn⟩

theorem card_le_nodes [Fintype V] {G : Graph V} (hG : ∀ v, v ∈ G.nodes) : Fintype.card V ≤ G.nodes.length := by
  rw [← Finset.card_univ]
  calc Finset.univ.card ≤ G.nodes.toFinset.card := Finset.card_le_card fun v _ => by simp [hG v]
    _ ≤ _ := List.toFinset_card_le _

/-! ### `_cycle_list` and `_is_negative` -/

/-- The edges followed by `n` steps from `v`. -/
def predEdges (pred : V → Option V) : ℕ → V → List (V × V)
  | 0, _ => []
  | n + 1, v => match pred v with
    | none => []
    | some u => (u, v) :: predEdges pred n u

theorem cycleList_spec {pred : V → Option V} {h : V} :
    ∀ (k fuel : ℕ) (v : V) (acc : List (V × V)), 0 < k → k ≤ fuel → stepN pred k v = some h →
      (∀ i, 0 < i → i < k → stepN pred i v ≠ some h) →
      cycleList pred h fuel v acc = some (.ok (acc ++ predEdges pred k v)) := by
  intro k
  induction k with
  | zero => intro _ _ _ h; omega
  | succ k ih =>
    intro fuel v acc _ hf hk hmin
    obtain ⟨fuel, rfl⟩ : ∃ f, fuel = f + 1 := ⟨fuel - 1, by omega⟩
    cases hp : pred v with
    | none => simp [stepN, hp] at hk
    | some u =>
      rw [stepN_succ hp] at hk
      by_cases huh : u = h
      · have hk0 : k = 0 := by
          by_contra hne
          exact hmin 1 (by omega) (by omega) (by simp [stepN, hp, huh])
        subst hk0
        simp only [cycleList, hp, if_pos huh, predEdges]
      · have hk0 : 0 < k := by
          rcases Nat.eq_zero_or_pos k with rfl | h
          · simp only [stepN, Option.some.injEq] at hk; exact absurd hk huh
          · exact h
        simp only [cycleList, hp, if_neg huh]
        rw [ih fuel u _ hk0 (by omega) hk (fun i h0 hi => by
          have := hmin (i + 1) (by omega) (by omega)
          rwa [stepN_succ hp] at this)]
        simp [predEdges, hp]

omit [DecidableEq V] in
theorem predEdges_ne_nil {pred : V → Option V} {n : ℕ} {v x : V} (h0 : 0 < n) (h : stepN pred n v = some x) :
    predEdges pred n v ≠ [] := by
  obtain ⟨n, rfl⟩ : ∃ f, n = f + 1 := ⟨n - 1, by omega⟩
  cases hp : pred v with
  | none => simp [stepN, hp] at h
  | some u => simp [predEdges, hp]

omit [DecidableEq V] in
theorem predEdges_walk {E : List (V × V)} {pred : V → Option V} (hE : ∀ v u, pred v = some u → (u, v) ∈ E) :
    ∀ (n : ℕ) (v x : V), stepN pred n v = some x → Walk E x v (predEdges pred n v).reverse := by
  intro n
  induction n with
  | zero => intro v x h; simp only [stepN, Option.some.injEq] at h; subst h; exact .nil v
  | succ n ih =>
    intro v x h
    cases hp : pred v with
    | none => simp [stepN, hp] at h
    | some u =>
      rw [stepN_succ hp] at h
      simp only [predEdges, hp, List.reverse_cons]
      exact (ih u x h).append (.cons (hE v u hp) (.nil v))

omit [DecidableEq V] in
theorem predEdges_heads {pred : V → Option V} : ∀ (n : ℕ) (v x : V), stepN pred n v = some x →
    (predEdges pred n v).map (fun e => some e.2) = (List.range n).map fun i => stepN pred i v := by
  intro n
  induction n with
  | zero => intro v x _; rfl
  | succ n ih =>
    intro v x h
    cases hp : pred v with
    | none => simp [stepN, hp] at h
    | some u =>
      rw [stepN_succ hp] at h
      rw [List.range_succ_eq_map, List.map_cons, List.map_map]
      simp only [predEdges, hp, List.map_cons, ih u x h]
      congr 1
      exact List.map_congr_left fun i _ => by simp [stepN_succ hp]

omit [DecidableEq V] in
theorem predEdges_nodup {pred : V → Option V} {k : ℕ} {v : V} (hk : stepN pred k v = some v)
    (hmin : ∀ i, 0 < i → i < k → stepN pred i v ≠ some v) : ((predEdges pred k v).map Prod.snd).Nodup := by
  have h1 : (((predEdges pred k v).map Prod.snd).map some).Nodup := by
    rw [List.map_map]
    have := predEdges_heads k v v hk
    rw [show (some ∘ Prod.snd : V × V → Option V) = fun e => some e.2 from rfl, this]
    refine List.Nodup.map_on ?_ List.nodup_range
    have aux : ∀ i j, i < j → j < k → stepN pred i v = stepN pred j v → False := by
      intro i j hij hj he
      refine hmin (i + (k - j)) (by omega) (by omega) ?_
      rw [stepN_add, he, ← stepN_add, Nat.add_sub_cancel' hj.le, hk]
    intro i hi j hj he
    rw [List.mem_range] at hi hj
    rcases lt_trichotomy i j with h | h | h
    · exact (aux i j h hj he).elim
    · exact h
    · exact (aux j i h hi he.symm).elim
  exact List.Nodup.of_map _ h1

end

section
variable {V α : Type _} [DecidableEq V] [CommRing α] [LinearOrder α] [IsStrictOrderedRing α]

omit [DecidableEq V] [LinearOrder α] [IsStrictOrderedRing α] in
theorem predEdges_sum {w : V × V → α} {pred : V → Option V} : ∀ (n : ℕ) (v : V),
    ((predEdges pred n v).map w).sum = predW w pred n v := by
  intro n
  induction n with
  | zero => intro v; rfl
  | succ n ih =>
    intro v
    cases hp : pred v with
    | none => simp [predEdges, predW, hp]
    | some u => simp [predEdges, predW, hp, ih]

theorem isNegative_spec {pred : V → Option V} {dist : V → α} {w : V × V → α} {h : V} :
    ∀ (k fuel : ℕ) (v : V), 0 < k → k ≤ fuel → stepN pred k v = some h →
      (∀ i, 0 < i → i < k → stepN pred i v ≠ some h) → dist h + predW w pred k v < dist v →
      isNegative pred dist w h fuel v = some (.ok true) := by
  intro k
  induction k with
  | zero => intro _ _ h; omega
  | succ k ih =>
    intro fuel v _ hf hk hmin hlt
    obtain ⟨fuel, rfl⟩ : ∃ f, fuel = f + 1 := ⟨fuel - 1, by omega⟩
    cases hp : pred v with
    | none => simp [stepN, hp] at hk
    | some u =>
      rw [stepN_succ hp] at hk
      simp only [predW, hp] at hlt
      by_cases hs : dist u + w (u, v) < dist v
      · simp only [isNegative, hp, if_pos hs]
      · have hk0 : 0 < k := by
          rcases Nat.eq_zero_or_pos k with rfl | h'
          · simp only [stepN, Option.some.injEq] at hk
            subst hk
            simp only [predW] at hlt
            exact absurd (by linarith) hs
          · exact h'
        have huh : u ≠ h := by
          rintro rfl
          exact hmin 1 (by omega) (by omega) (by simp [stepN, hp])
        simp only [isNegative, hp, if_neg hs, if_neg huh]
        exact ih fuel u hk0 (by omega) hk (fun i h0 hi => by
          have := hmin (i + 1) (by omega) (by omega)
          rwa [stepN_succ hp] at this) (by linarith)

/-! ### Relaxation -/

/-- The invariant of the finder, relative to the initial `dist`. -/
structure NcInv (E : List (V × V)) (w : V × V → α) (d0 : V → α) (s : NcSt V α) : Prop where
  tight : ∀ v u, s.pred v = some u → s.dist u + w (u, v) ≤ s.dist v
  neg : ∀ n v, 0 < n → stepN s.pred n v = some v → predW w s.pred n v < 0
  edge : ∀ v u, s.pred v = some u → (u, v) ∈ E
  root : ∀ v, s.pred v = none → s.dist v = d0 v

omit [DecidableEq V] [IsStrictOrderedRing α] in
theorem NcInv.init (E : List (V × V)) (w : V × V → α) (d0 : V → α) : NcInv E w d0 ⟨d0, fun _ => none⟩ := by
  refine ⟨fun _ _ h => by simp at h, ?_, fun _ _ h => by simp at h, fun _ _ => rfl⟩
  intro n v hn h
  obtain ⟨n, rfl⟩ : ∃ f, n = f + 1 := ⟨n - 1, by omega⟩
  simp [stepN] at h

omit [DecidableEq V] in
theorem tight_chain {pred : V → Option V} {dist : V → α} {w : V × V → α}
    (h : ∀ v u, pred v = some u → dist u + w (u, v) ≤ dist v) :
    ∀ (n : ℕ) (v x : V), stepN pred n v = some x → dist x + predW w pred n v ≤ dist v := by
  intro n
  induction n with
  | zero => intro v x hx; simp only [stepN, Option.some.injEq] at hx; subst hx; simp [predW]
  | succ n ih =>
    intro v x hx
    cases hp : pred v with
    | none => simp [stepN, hp] at hx
    | some u =>
      rw [stepN_succ hp] at hx
      have := ih u x hx
      have := h v u hp
      simp only [predW, hp]
      linarith

theorem NcInv.relaxEdge {E : List (V × V)} {w : V × V → α} {d0 : V → α} {s : NcSt V α × Bool}
    (h : NcInv E w d0 s.1) {e : V × V} (he : e ∈ E) : NcInv E w d0 (relaxEdge w s e).1 := by
  unfold Verif.relaxEdge
  simp only
  split
  · rename_i hlt
    obtain ⟨u0, v0⟩ := e
    obtain ⟨⟨dist, pred⟩, ch⟩ := s
    obtain ⟨h1, h2, h3, h4⟩ := h
    simp only at hlt h1 h2 h3 h4 ⊢
    set pred' := Function.update pred v0 (some u0) with hp'
    have hpv : pred' v0 = some u0 := by simp [hp']
    have hpo : ∀ x, x ≠ v0 → pred' x = pred x := fun x hx => by simp [hp', hx]
    -- old distances along new predecessor edges
    have hold : ∀ v u, pred' v = some u → dist u + w (u, v) ≤ dist v := by
      intro v u hv
      by_cases hvv : v = v0
      · subst hvv; rw [hpv] at hv; obtain rfl := Option.some.inj hv; exact hlt.le
      · rw [hpo v hvv] at hv; exact h1 v u hv
    have hle : ∀ x, Function.update dist v0 (dist u0 + w (u0, v0)) x ≤ dist x := by
      intro x
      by_cases hx : x = v0
      · subst hx; simp [hlt.le]
      · simp [hx]
    refine ⟨?_, ?_, ?_, ?_⟩
    · intro v u hv
      simp only at hv ⊢
      by_cases hvv : v = v0
      · subst hvv; rw [hpv] at hv; obtain rfl := Option.some.inj hv
        rw [Function.update_self]
        have := hle u0
        linarith
      · rw [hpo v hvv] at hv
        have := h1 v u hv
        have := hle u
        rw [Function.update_of_ne hvv]
        linarith
    · have key : ∀ n v x, stepN pred' n v = some x →
          dist x + predW w pred' n v < dist v ∨ (stepN pred n v = some x ∧ predW w pred n v = predW w pred' n v) := by
        intro n
        induction n with
        | zero => intro v x hx; exact .inr ⟨hx, rfl⟩
        | succ n ih =>
          intro v x hx
          cases hp : pred' v with
          | none => simp [stepN, hp] at hx
          | some u =>
            rw [stepN_succ hp] at hx
            by_cases hvv : v = v0
            · subst hvv
              left
              rw [hpv] at hp; obtain rfl := Option.some.inj hp
              have := tight_chain hold n u0 x hx
              simp only [predW, hpv]
              linarith
            · have hp2 := hp
              rw [hpo v hvv] at hp2
              rcases ih u x hx with h | ⟨h, h'⟩
              · left
                have := hold v u hp
                simp only [predW, hp]
                linarith
              · exact .inr ⟨by rw [stepN_succ hp2, h], by simp only [predW, hp, hp2, h']⟩
      intro n v hn hc
      rcases key n v v hc with h | ⟨h, h'⟩
      · linarith
      · rw [← h']; exact h2 n v hn h
    · intro v u hv
      by_cases hvv : v = v0
      · subst hvv; simp only at hv; rw [hpv] at hv; obtain rfl := Option.some.inj hv; exact he
      · simp only at hv; rw [hpo v hvv] at hv; exact h3 v u hv
    · intro v hv
      simp only at hv ⊢
      by_cases hvv : v = v0
      · subst hvv; rw [hpv] at hv; simp at hv
      · rw [hpo v hvv] at hv; rw [Function.update_of_ne hvv]; exact h4 v hv
  · exact h

theorem relaxFold_inv {E : List (V × V)} {w : V × V → α} {d0 : V → α} :
    ∀ (l : List (V × V)) (s : NcSt V α × Bool), (∀ e ∈ l, e ∈ E) → NcInv E w d0 s.1 →
      NcInv E w d0 (l.foldl (relaxEdge w) s).1 := by
  intro l
  induction l with
  | nil => intro s _ h; exact h
  | cons e l ih =>
    intro s hl h
    exact ih _ (fun x hx => hl x (List.mem_cons_of_mem _ hx)) (h.relaxEdge (hl e List.mem_cons_self))

omit [IsStrictOrderedRing α] in
theorem relaxEdge_le (w : V × V → α) (s : NcSt V α × Bool) (e : V × V) (x : V) :
    (relaxEdge w s e).1.dist x ≤ s.1.dist x := by
  unfold relaxEdge
  simp only
  split
  · rename_i h
    by_cases hx : x = e.2
    · subst hx; simp [h.le]
    · simp [hx]
  · exact le_rfl

omit [IsStrictOrderedRing α] in
theorem relaxFold_le (w : V × V → α) : ∀ (l : List (V × V)) (s : NcSt V α × Bool) (x : V),
    (l.foldl (relaxEdge w) s).1.dist x ≤ s.1.dist x := by
  intro l
  induction l with
  | nil => intro s x; exact le_rfl
  | cons e l ih => intro s x; exact (ih _ x).trans (relaxEdge_le w s e x)

omit [IsStrictOrderedRing α] in
theorem relaxEdge_head (w : V × V → α) (s : NcSt V α × Bool) (e : V × V) :
    (relaxEdge w s e).1.dist e.2 ≤ s.1.dist e.1 + w e := by
  unfold relaxEdge
  simp only
  split
  · simp
  · rename_i h; exact le_of_not_gt h

/-- One full pass relaxes every edge with respect to the distances before the pass. -/
theorem relaxFold_edges (w : V × V → α) : ∀ (l : List (V × V)) (s : NcSt V α × Bool) (e : V × V), e ∈ l →
    (l.foldl (relaxEdge w) s).1.dist e.2 ≤ s.1.dist e.1 + w e := by
  intro l
  induction l with
  | nil => intro s e h; simp at h
  | cons a l ih =>
    intro s e h
    rw [List.foldl_cons]
    rcases List.mem_cons.1 h with rfl | h
    · exact (relaxFold_le w l _ _).trans (relaxEdge_head w s e)
    · have := ih (relaxEdge w s a) e h
      have := relaxEdge_le w s a e.1
      linarith

omit [IsStrictOrderedRing α] in
theorem relaxFold_flag (w : V × V → α) : ∀ (l : List (V × V)) (s : NcSt V α × Bool),
    (s.2 = true → (l.foldl (relaxEdge w) s).2 = true) ∧
    ((l.foldl (relaxEdge w) s).2 = false → (l.foldl (relaxEdge w) s).1 = s.1) ∧
    (s.2 = false → (l.foldl (relaxEdge w) s).2 = true → ∃ x, (l.foldl (relaxEdge w) s).1.dist x < s.1.dist x) := by
  intro l
  induction l with
  | nil => intro s; exact ⟨id, fun _ => rfl, fun h h' => by simp only [List.foldl_nil] at h'; rw [h] at h'; simp at h'⟩
  | cons e l ih =>
    intro s
    rw [List.foldl_cons]
    obtain ⟨i1, i2, i3⟩ := ih (relaxEdge w s e)
    by_cases hlt : s.1.dist e.1 + w e < s.1.dist e.2
    · have hb : (relaxEdge w s e).2 = true := by simp only [relaxEdge, if_pos hlt]
      have hd : (relaxEdge w s e).1.dist e.2 < s.1.dist e.2 := by simp only [relaxEdge, if_pos hlt]; simpa using hlt
      exact ⟨fun _ => i1 hb, fun h => by rw [i1 hb] at h; simp at h,
        fun _ _ => ⟨e.2, (relaxFold_le w l _ _).trans_lt hd⟩⟩
    · have : relaxEdge w s e = s := by simp only [relaxEdge, if_neg hlt]
      rw [this] at i1 i2 i3 ⊢
      exact ⟨i1, i2, i3⟩

end
end Verif
