import Verif.Model.NegCycleFloat
import Verif.Proofs.NegCycle

/-! # Helper lemmas for the negative-cycle finder with a computed addition -/
namespace Verif
variable {V α : Type _} [DecidableEq V] [LinearOrder α]

/-- The distance of `v` computed along `n` predecessor edges, if it is `d` at their start. -/
def chainF (add : α → α → α) (w : V × V → α) (pred : V → Option V) : ℕ → V → α → α
  | 0, _, d => d
  | n + 1, v, d => match pred v with
    | none => d
    | some u => add (chainF add w pred n u d) (w (u, v))

/-- The addition is monotone in the distance. -/
def AddMono (add : α → α → α) : Prop := ∀ a b w, a ≤ b → add a w ≤ add b w

/-- The invariant of the finder, relative to the initial `dist`. -/
structure NcInvF (add : α → α → α) (E : List (V × V)) (w : V × V → α) (d0 : V → α) (s : NcSt V α) : Prop where
  tight : ∀ v u, s.pred v = some u → add (s.dist u) (w (u, v)) ≤ s.dist v
  edge : ∀ v u, s.pred v = some u → (u, v) ∈ E
  root : ∀ v, s.pred v = none → s.dist v = d0 v

omit [DecidableEq V] in
theorem NcInvF.init (add : α → α → α) (E : List (V × V)) (w : V × V → α) (d0 : V → α) :
    NcInvF add E w d0 ⟨d0, fun _ => none⟩ :=
  ⟨fun _ _ h => by simp at h, fun _ _ h => by simp at h, fun _ _ => rfl⟩

omit [DecidableEq V] in
theorem tight_chainF {add : α → α → α} (ha : AddMono add) {pred : V → Option V} {dist : V → α} {w : V × V → α}
    (h : ∀ v u, pred v = some u → add (dist u) (w (u, v)) ≤ dist v) :
    ∀ (n : ℕ) (v x : V), stepN pred n v = some x → chainF add w pred n v (dist x) ≤ dist v := by
  intro n
  induction n with
  | zero => intro v x hx; simp only [stepN, Option.some.injEq] at hx; subst hx; exact le_rfl
  | succ n ih =>
    intro v x hx
    cases hp : pred v with
    | none => simp [stepN, hp] at hx
    | some u =>
      rw [stepN_succ hp] at hx
      simp only [chainF, hp]
      exact (ha _ _ _ (ih u x hx)).trans (h v u hp)

theorem relaxEdgeF_le (add : α → α → α) (w : V × V → α) (s : NcSt V α × Bool) (e : V × V) (x : V) :
    (relaxEdgeF add w s e).1.dist x ≤ s.1.dist x := by
  unfold relaxEdgeF
  simp only
  split
  · rename_i h
    by_cases hx : x = e.2
    · subst hx; simp [h.le]
    · simp [hx]
  · exact le_rfl

theorem NcInvF.relaxEdge {add : α → α → α} (ha : AddMono add) {E : List (V × V)} {w : V × V → α} {d0 : V → α} {s : NcSt V α × Bool}
    (h : NcInvF add E w d0 s.1) {e : V × V} (he : e ∈ E) : NcInvF add E w d0 (relaxEdgeF add w s e).1 := by
  have hle := relaxEdgeF_le add w s e
  unfold relaxEdgeF at hle ⊢
  simp only at hle ⊢
  split
  · rename_i hlt
    rw [if_pos hlt] at hle
    obtain ⟨u0, v0⟩ := e
    simp only at hlt hle ⊢
    refine ⟨?_, ?_, ?_⟩
    · intro v u hv
      simp only at hv hle ⊢
      refine (ha _ _ _ (hle u)).trans ?_
      by_cases hvv : v = v0
      · subst hvv
        rw [Function.update_self] at hv ⊢
        obtain rfl := Option.some.inj hv
        exact le_rfl
      · rw [Function.update_of_ne hvv] at hv ⊢
        exact h.tight v u hv
    · intro v u hv
      simp only at hv
      by_cases hvv : v = v0
      · subst hvv
        rw [Function.update_self] at hv
        obtain rfl := Option.some.inj hv
        exact he
      · rw [Function.update_of_ne hvv] at hv
        exact h.edge v u hv
    · intro v hv
      simp only at hv ⊢
      by_cases hvv : v = v0
      · subst hvv
        rw [Function.update_self] at hv
        simp at hv
      · rw [Function.update_of_ne hvv] at hv ⊢
        exact h.root v hv
  · exact h

theorem relaxFoldF_inv {add : α → α → α} (ha : AddMono add) {E : List (V × V)} {w : V × V → α} {d0 : V → α} :
    ∀ (l : List (V × V)) (s : NcSt V α × Bool), (∀ e ∈ l, e ∈ E) → NcInvF add E w d0 s.1 →
      NcInvF add E w d0 (l.foldl (relaxEdgeF add w) s).1 := by
  intro l
  induction l with
  | nil => intro s _ h; exact h
  | cons e l ih =>
    intro s hl h
    exact ih _ (fun x hx => hl x (List.mem_cons_of_mem _ hx)) (h.relaxEdge ha (hl e List.mem_cons_self))

theorem relaxFoldF_le (add : α → α → α) (w : V × V → α) : ∀ (l : List (V × V)) (s : NcSt V α × Bool) (x : V),
    (l.foldl (relaxEdgeF add w) s).1.dist x ≤ s.1.dist x := by
  intro l
  induction l with
  | nil => intro s x; exact le_rfl
  | cons e l ih => intro s x; exact (ih _ x).trans (relaxEdgeF_le add w s e x)

theorem relaxEdgeF_head (add : α → α → α) (w : V × V → α) (s : NcSt V α × Bool) (e : V × V) :
    (relaxEdgeF add w s e).1.dist e.2 ≤ add (s.1.dist e.1) (w e) := by
  unfold relaxEdgeF
  simp only
  split
  · simp
  · rename_i h; exact le_of_not_gt h

/-- One full pass relaxes every edge with respect to the distances before the pass. -/
theorem relaxFoldF_edges {add : α → α → α} (ha : AddMono add) (w : V × V → α) :
    ∀ (l : List (V × V)) (s : NcSt V α × Bool) (e : V × V), e ∈ l →
    (l.foldl (relaxEdgeF add w) s).1.dist e.2 ≤ add (s.1.dist e.1) (w e) := by
  intro l
  induction l with
  | nil => intro s e h; simp at h
  | cons a l ih =>
    intro s e h
    rw [List.foldl_cons]
    rcases List.mem_cons.1 h with rfl | h
    · exact (relaxFoldF_le add w l _ _).trans (relaxEdgeF_head add w s e)
    · exact (ih (relaxEdgeF add w s a) e h).trans (ha _ _ _ (relaxEdgeF_le add w s a e.1))

theorem relaxFoldF_flag (add : α → α → α) (w : V × V → α) : ∀ (l : List (V × V)) (s : NcSt V α × Bool),
    (s.2 = true → (l.foldl (relaxEdgeF add w) s).2 = true) ∧
    ((l.foldl (relaxEdgeF add w) s).2 = false → (l.foldl (relaxEdgeF add w) s).1 = s.1) ∧
    (s.2 = false → (l.foldl (relaxEdgeF add w) s).2 = true → ∃ x, (l.foldl (relaxEdgeF add w) s).1.dist x < s.1.dist x) := by
  intro l
  induction l with
  | nil => intro s; exact ⟨id, fun _ => rfl, fun h h' => by simp only [List.foldl_nil] at h'; rw [h] at h'; simp at h'⟩
  | cons e l ih =>
    intro s
    rw [List.foldl_cons]
    obtain ⟨i1, i2, i3⟩ := ih (relaxEdgeF add w s e)
    by_cases hlt : add (s.1.dist e.1) (w e) < s.1.dist e.2
    · have hb : (relaxEdgeF add w s e).2 = true := by simp only [relaxEdgeF, if_pos hlt]
      have hd : (relaxEdgeF add w s e).1.dist e.2 < s.1.dist e.2 := by simp only [relaxEdgeF, if_pos hlt]; simpa using hlt
      exact ⟨fun _ => i1 hb, fun h => by rw [i1 hb] at h; simp at h,
        fun _ _ => ⟨e.2, (relaxFoldF_le add w l _ _).trans_lt hd⟩⟩
    · have : relaxEdgeF add w s e = s := by simp only [relaxEdgeF, if_neg hlt]
      rw [this] at i1 i2 i3 ⊢
      exact ⟨i1, i2, i3⟩

/-- `_is_negative` on the way back to `h`: whether one of the edges can still be relaxed. -/
theorem isNegativeF_spec (add : α → α → α) {pred : V → Option V} (dist : V → α) (w : V × V → α) {h : V} :
    ∀ (k fuel : ℕ) (v : V), 0 < k → k ≤ fuel → stepN pred k v = some h →
      (∀ i, 0 < i → i < k → stepN pred i v ≠ some h) →
      ∃ b, isNegativeF add pred dist w h fuel v = some (.ok b) ∧
        (b = true ↔ ∃ e ∈ predEdges pred k v, add (dist e.1) (w e) < dist e.2) := by
  intro k
  induction k with
  | zero => intro _ _ h; omega
  | succ k ih =>
    intro fuel v _ hf hk hmin
    obtain ⟨fuel, rfl⟩ : ∃ f, fuel = f + 1 := ⟨fuel - 1, by omega⟩
    cases hp : pred v with
    | none => simp [stepN, hp] at hk
    | some u =>
      rw [stepN_succ hp] at hk
      by_cases hs : add (dist u) (w (u, v)) < dist v
      · exact ⟨true, by simp only [isNegativeF, hp, if_pos hs], iff_of_true rfl ⟨(u, v), by simp [predEdges, hp], hs⟩⟩
      · by_cases huh : u = h
        · have hk0 : k = 0 := by
            by_contra hne
            exact hmin 1 (by omega) (by omega) (by simp [stepN, hp, huh])
          subst hk0
          exact ⟨false, by simp only [isNegativeF, hp, if_neg hs, if_pos huh], by simp [predEdges, hp, not_lt.1 hs]⟩
        · have hk0 : 0 < k := by
            rcases Nat.eq_zero_or_pos k with rfl | h
            · simp only [stepN, Option.some.injEq] at hk; exact absurd hk huh
            · exact h
          obtain ⟨b, h1, h2⟩ := ih fuel u hk0 (by omega) hk fun i h0 hi => by
            have := hmin (i + 1) (by omega) (by omega)
            rwa [stepN_succ hp] at this
          refine ⟨b, by simp only [isNegativeF, hp, if_neg hs, if_neg huh, h1], h2.trans ?_⟩
          simp only [predEdges, hp, List.mem_cons, exists_eq_or_imp, hs, false_or]

omit [DecidableEq V] in
theorem mem_predEdges {pred : V → Option V} : ∀ (n : ℕ) (v : V) (e : V × V), e ∈ predEdges pred n v → pred e.2 = some e.1 := by
  intro n
  induction n with
  | zero => intro v e h; simp [predEdges] at h
  | succ n ih =>
    intro v e h
    cases hp : pred v with
    | none => simp [predEdges, hp] at h
    | some u =>
      simp only [predEdges, hp, List.mem_cons] at h
      rcases h with rfl | h
      · exact hp
      · exact ih u e h

end Verif
