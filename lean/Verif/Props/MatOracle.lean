import Verif.Proofs.MatOracle

/-! # C35-C39: matrix-inequality oracles -/
namespace Verif
open Finset
variable {α : Type _} [Field α] [LinearOrder α] {k : ℕ}

section
variable [IsStrictOrderedRing α]

/-- **C35**: `lmi_oracle` on any reused object.  It never raises; it accepts iff `B - Σ x_q F_q` is
positive definite; otherwise the cut has `ep ≥ 0`, holds for every `z` with `B - Σ z_q F_q ⪰ 0`, strictly
if that matrix is positive definite, and with margin `lam` if it is `⪰ lam·I`. -/
theorem C35_lmi {F : Fin k → ℕ → ℕ → α} {B : ℕ → ℕ → α} {m : ℕ} (hF : ∀ q, SymOn (F q) m)
    (hB : SymOn B m) (x : Fin k → α) {Q : CholExt α} (hQ : Ready m Q) :
    ∃ Q' r, lmiCall F B m x Q = .ok (Q', r) ∧ Ready m Q' ∧ (r = none ↔ PDon (pencil F B x) 0 m) ∧
      ∀ g ep, r = some (g, ep) → 0 ≤ ep ∧
        (∀ z, PSDon (pencil F B z) 0 m → ∑ q, g q * (z q - x q) + ep ≤ 0) ∧
        (∀ z, PDon (pencil F B z) 0 m → ∑ q, g q * (z q - x q) + ep < 0) ∧
        ∀ z lam, 0 ≤ lam → AtLeast lam (pencil F B z) m → ∑ q, g q * (z q - x q) + ep ≤ -lam := by
  have hS : Serves (W := Unit) (readAt m (affEntry F B x)) (pencil F B x) m (fun _ _ => True) (fun _ _ => True) :=
    serves_readAt le_rfl _ _ fun i j _ _ => by rw [affEntry_eq]
  have hsym := symOn_pencil hF hB x
  obtain ⟨w', Q1, b, hf, hb⟩ := factor_ready_iff hQ hS hsym (w := ()) trivial
  cases b with
  | true =>
    refine ⟨Q1, none, by simp only [lmiCall, hf], factor_ready hQ hf, ⟨fun _ => hb.1 rfl, fun _ => rfl⟩, ?_⟩
    intro g ep h; simp at h
  | false =>
    obtain ⟨Q2, ep, e, hw, hr, hep, hp, -, he0, hem, hv, hq, -, hsq⟩ := leading_certificate hQ hS hsym trivial hf
    refine ⟨Q2, some (fun q => Q2.symQuad (F q), ep), by simp only [lmiCall, hf, hw], hr,
      ⟨fun h => by simp at h, fun h => absurd (hb.2 h) (by simp)⟩, ?_⟩
    intro g ep' h
    simp only [Option.some.injEq, Prod.mk.injEq] at h
    obtain ⟨rfl, rfl⟩ := h
    have key : ∀ z, ∑ q, Q2.symQuad (F q) * (z q - x q) + ep = -quadOn (pencil F B z) 0 e Q2.v := by
      intro z
      rw [quadOn_pencil]
      rw [quadOn_pencil] at hq
      have : ∑ q, Q2.symQuad (F q) * (z q - x q) =
          ∑ q, z q * quadOn (F q) 0 e Q2.v - ∑ q, x q * quadOn (F q) 0 e Q2.v := by
        rw [← Finset.sum_sub_distrib]
        exact Finset.sum_congr rfl fun q _ => by rw [hsq]; ring
      rw [this]; linear_combination hq
    refine ⟨hep, fun z hz => ?_, fun z hz => ?_, fun z lam hl hz => ?_⟩ <;> rw [key z]
    · have := (hz.sub le_rfl hem) Q2.v; linarith
    · have := (hz.sub le_rfl hem) Q2.v ⟨e - 1, Nat.zero_le _, by omega, by rw [hv]; exact one_ne_zero⟩
      linarith
    · have := hz.cut hl he0 hem hv; linarith

/-- **C36**: `lmi0_oracle`. -/
theorem C36_lmi0 {F : Fin k → ℕ → ℕ → α} {m : ℕ} (hF : ∀ q, SymOn (F q) m)
    (x : Fin k → α) {Q : CholExt α} (hQ : Ready m Q) :
    ∃ Q' r, lmi0Call F m x Q = .ok (Q', r) ∧ Ready m Q' ∧ (r = none ↔ PDon (combo F x) 0 m) ∧
      ∀ g ep, r = some (g, ep) → 0 ≤ ep ∧
        (∀ z, PSDon (combo F z) 0 m → ∑ q, g q * (z q - x q) + ep ≤ 0) ∧
        (∀ z, PDon (combo F z) 0 m → ∑ q, g q * (z q - x q) + ep < 0) ∧
        ∀ z lam, 0 ≤ lam → AtLeast lam (combo F z) m → ∑ q, g q * (z q - x q) + ep ≤ -lam := by
  have hS : Serves (W := Unit) (readAt m (linEntry F x)) (combo F x) m (fun _ _ => True) (fun _ _ => True) :=
    serves_readAt le_rfl _ _ fun i j _ _ => by rw [linEntry_eq]
  have hsym := symOn_combo hF x
  obtain ⟨w', Q1, b, hf, hb⟩ := factor_ready_iff hQ hS hsym (w := ()) trivial
  cases b with
  | true =>
    refine ⟨Q1, none, by simp only [lmi0Call, hf], factor_ready hQ hf, ⟨fun _ => hb.1 rfl, fun _ => rfl⟩, ?_⟩
    intro g ep h; simp at h
  | false =>
    obtain ⟨Q2, ep, e, hw, hr, hep, hp, -, he0, hem, hv, hq, -, hsq⟩ := leading_certificate hQ hS hsym trivial hf
    refine ⟨Q2, some (fun q => -Q2.symQuad (F q), ep), by simp only [lmi0Call, hf, hw], hr,
      ⟨fun h => by simp at h, fun h => absurd (hb.2 h) (by simp)⟩, ?_⟩
    intro g ep' h
    simp only [Option.some.injEq, Prod.mk.injEq] at h
    obtain ⟨rfl, rfl⟩ := h
    have key : ∀ z, ∑ q, -Q2.symQuad (F q) * (z q - x q) + ep = -quadOn (combo F z) 0 e Q2.v := by
      intro z
      rw [quadOn_combo]
      rw [quadOn_combo] at hq
      have : ∑ q, -Q2.symQuad (F q) * (z q - x q) =
          ∑ q, x q * quadOn (F q) 0 e Q2.v - ∑ q, z q * quadOn (F q) 0 e Q2.v := by
        rw [← Finset.sum_sub_distrib]
        exact Finset.sum_congr rfl fun q _ => by rw [hsq]; ring
      rw [this]; linear_combination hq
    refine ⟨hep, fun z hz => ?_, fun z hz => ?_, fun z lam hl hz => ?_⟩ <;> rw [key z]
    · have := (hz.sub le_rfl hem) Q2.v; linarith
    · have := (hz.sub le_rfl hem) Q2.v ⟨e - 1, Nat.zero_le _, by omega, by rw [hv]; exact one_ne_zero⟩
      linarith
    · have := hz.cut hl he0 hem hv; linarith

omit [IsStrictOrderedRing α] in
/-- **C37**: the eager and the lazy oracle give the same answer — for arbitrary (even non-symmetric)
data and arbitrary earlier use of either object (same dimension and mode). -/
theorem C37_lmi_old_agrees (F : Fin k → ℕ → ℕ → α) (B : ℕ → ℕ → α) (m : ℕ) (x : Fin k → α)
    {Q1 Q2 : CholExt α} (hn : Q1.n = Q2.n) (ha : Q1.allowSemidefinite = Q2.allowSemidefinite) :
    (lmiCall F B m x Q1).map (·.2) = (lmiOldCall F B m x Q2).map (·.2) := by
  have hA : (fun i j => B i j - (List.finRange k).foldl (fun a q => a + F q i j * x q) 0) = affEntry F B x := by
    funext i j
    unfold affEntry
    congr 1
    have : ∀ (l : List (Fin k)) (a : α), l.foldl (fun a q => a + F q i j * x q) a =
        a + (l.map fun q => F q i j * x q).sum := by
      intro l
      induction l with
      | nil => simp
      | cons b l ih => intro a; rw [List.foldl_cons, ih, List.map_cons, List.sum_cons, add_assoc]
    rw [this, zero_add, Fin.sum_univ_def]
  simp only [lmiCall, lmiOldCall, hA, CholExt.factorize]
  have key := sameFactor hn ha (readAt (W := Unit) m (affEntry F B x)) ()
  generalize Q1.factor (readAt (W := Unit) m (affEntry F B x)) () = R1 at key ⊢
  generalize Q2.factor (readAt (W := Unit) m (affEntry F B x)) () = R2 at key ⊢
  rcases R1 with e1 | ⟨w1, c1, b1⟩ <;> rcases R2 with e2 | ⟨w2, c2, b2⟩ <;> simp only [SameFactor] at key ⊢
  · rw [key]
  obtain ⟨-, rfl, hp, hw⟩ := key
  cases b1 with
  | true => rfl
  | false =>
    simp only [if_true]
    generalize c1.witness = X1 at hw ⊢
    generalize c2.witness = X2 at hw ⊢
    rcases X1 with e1 | ⟨d1, ep1⟩ <;> rcases X2 with e2 | ⟨d2, ep2⟩ <;> simp only at hw ⊢
    · rw [hw]
    obtain ⟨rfl, -, hs⟩ := hw
    simp [Except.map, hs]

/-! ### QMI -/

omit [LinearOrder α] [IsStrictOrderedRing α] in
theorem quadOn_gram (nr : ℕ) (t : α) (M : ℕ → ℕ → α) (e : ℕ) (v : ℕ → α) :
    quadOn (tiMinusGram nr t M) 0 e v =
      t * (∑ i ∈ Ico 0 e, v i * v i) - ∑ l ∈ range nr, (∑ i ∈ Ico 0 e, v i * M l i) ^ 2 := by
  have h1 : quadOn (tiMinusGram nr t M) 0 e v = quadOn (fun i j => if i = j then t else 0) 0 e v -
      quadOn (fun i j => ∑ l ∈ range nr, M l i * M l j) 0 e v := by
    rw [← quadOn_sub]; rfl
  rw [h1]
  congr 1
  · unfold quadOn
    rw [Finset.mul_sum]
    refine Finset.sum_congr rfl fun i hi => ?_
    rw [Finset.sum_eq_single i]
    · simp only [if_true]; ring
    · intro j _ hj; simp only [if_neg (Ne.symm hj)]; ring
    · intro h; exact absurd hi h
  · unfold quadOn
    simp only [sq, Finset.sum_mul_sum]
    rw [Finset.sum_comm (s := range nr)]
    refine Finset.sum_congr rfl fun i _ => ?_
    rw [Finset.sum_comm (s := range nr)]
    refine Finset.sum_congr rfl fun j _ => ?_
    rw [Finset.mul_sum, Finset.sum_mul]
    exact Finset.sum_congr rfl fun l _ => by ring

omit [LinearOrder α] [IsStrictOrderedRing α] in
/-- The cached evaluation serves `t·I - F(x)'F(x)` once `count` has been reset. -/
theorem serves_qmi (F : Fin k → ℕ → ℕ → α) (F0 : ℕ → ℕ → α) (nr m : ℕ) (x : Fin k → α) (t : α) :
    Serves (qmiEval F F0 nr x) (tiMinusGram nr t (pencil F F0 x)) m
      (fun i s => s.t = t ∧ s.count = i ∧ ∀ r, r < i → ∀ l, s.Fx r l = pencil F F0 x l r)
      (fun i s => s.t = t ∧ s.count = i + 1 ∧ ∀ r, r < i + 1 → ∀ l, s.Fx r l = pencil F F0 x l r) := by
  have hp : ∀ i l, F0 l i - ∑ q, F q l i * x q = pencil F F0 x l i := fun i l => by
    unfold pencil
    congr 1
    exact Finset.sum_congr rfl fun q _ => mul_comm _ _
  have hval : ∀ i j (s : QmiSt α), j ≤ i → s.t = t → (∀ r, r < i + 1 → ∀ l, s.Fx r l = pencil F F0 x l r) →
      (if i = j then s.t + -(∑ l ∈ range nr, s.Fx i l * s.Fx j l) else
        -(∑ l ∈ range nr, s.Fx i l * s.Fx j l)) = tiMinusGram nr t (pencil F F0 x) i j := by
    intro i j s hj ht hr
    have : ∑ l ∈ range nr, s.Fx i l * s.Fx j l = ∑ l ∈ range nr, pencil F F0 x l i * pencil F F0 x l j :=
      Finset.sum_congr rfl fun l _ => by rw [hr i (by omega), hr j (by omega)]
    rw [this, ht]
    unfold tiMinusGram
    split_ifs <;> ring
  refine ⟨?_, ?_, fun i s h => h⟩
  · rintro i j s - hj ⟨h1, h2, h3⟩
    refine ⟨{ s with
        count := i + 1
        Fx := Function.update s.Fx i fun l => F0 l i - ∑ q, F q l i * x q }, ?_, h1, rfl, ?_⟩
    · simp only [qmiEval, if_neg (show ¬ i < j by omega), if_pos (show s.count < i + 1 by omega)]
      rw [← hval i j { s with
        count := i + 1
        Fx := Function.update s.Fx i fun l => F0 l i - ∑ q, F q l i * x q } hj h1 ?_]
      intro r hr l
      by_cases hri : r = i
      · subst hri; simp only [Function.update_self]; exact hp r l
      · simp only [Function.update_of_ne hri]; exact h3 r (by omega) l
    · intro r hr l
      by_cases hri : r = i
      · subst hri; simp only [Function.update_self]; exact hp r l
      · simp only [Function.update_of_ne hri]; exact h3 r (by omega) l
  · rintro i j s - hj ⟨h1, h2, h3⟩
    refine ⟨s, ?_, h1, h2, h3⟩
    simp only [qmiEval, if_neg (show ¬ i < j by omega), if_neg (show ¬ s.count < i + 1 by omega)]
    rw [← hval i j s hj h1 h3]

omit [LinearOrder α] [IsStrictOrderedRing α] in
theorem symOn_gram (nr : ℕ) (t : α) (M : ℕ → ℕ → α) (m : ℕ) : SymOn (tiMinusGram nr t M) m :=
  fun i j _ _ => by
    unfold tiMinusGram
    congr 1
    · by_cases h : i = j
      · rw [if_pos h, if_pos h.symm]
      · rw [if_neg h, if_neg (Ne.symm h)]
    · exact Finset.sum_congr rfl fun l _ => mul_comm _ _

/-- Everything about one call of `qmi_oracle`, including the dependence on `t` (used by `lsq_oracle`). -/
theorem qmi_core (F : Fin k → ℕ → ℕ → α) (F0 : ℕ → ℕ → α) (nr nc : ℕ)
    (x : Fin k → α) {o : QmiOracle α} (hQ : Ready nc o.Q) :
    (PDon (tiMinusGram nr o.qmi.t (pencil F F0 x)) 0 nc →
      ∃ o', qmiCall F F0 nr nc x o = .ok (o', none) ∧ Ready nc o'.Q) ∧
    (¬ PDon (tiMinusGram nr o.qmi.t (pencil F F0 x)) 0 nc → nr ≠ nc → k ≠ 0 →
      qmiCall F F0 nr nc x o = .error .valueError) ∧
    (¬ PDon (tiMinusGram nr o.qmi.t (pencil F F0 x)) 0 nc → nr = nc →
      ∃ o' g ep e, qmiCall F F0 nr nc x o = .ok (o', some (g, ep)) ∧ Ready nc o'.Q ∧ 0 ≤ ep ∧
        o'.Q.p = (0, e) ∧ 0 < e ∧ e ≤ nc ∧ o'.Q.v (e - 1) = 1 ∧ o'.Q.isSpd = false ∧
        (∃ c, o'.Q.witness = .ok (c, ep) ∧ c.p = o'.Q.p ∧ (∀ i, i < e → c.v i = o'.Q.v i) ∧ Ready nc c) ∧
        ((∀ q i j, i < nc → j < nc → F q i j = F q j i) → ∀ z s,
          quadOn (tiMinusGram nr s (pencil F F0 z)) 0 e o'.Q.v + ∑ q, g q * (z q - x q) + ep ≤
            (s - o.qmi.t) * ∑ i ∈ Ico 0 e, o'.Q.v i * o'.Q.v i)) := by
  have hS := serves_qmi F F0 nr nc x o.qmi.t
  have hsym := symOn_gram nr o.qmi.t (pencil F F0 x) nc
  have hpre : ({ o.qmi with count := 0 } : QmiSt α).t = o.qmi.t ∧ ({ o.qmi with count := 0 } : QmiSt α).count = 0 ∧
      ∀ r, r < 0 → ∀ l, ({ o.qmi with count := 0 } : QmiSt α).Fx r l = pencil F F0 x l r :=
    ⟨rfl, rfl, fun r hr => absurd hr (by omega)⟩
  obtain ⟨s1, Q1, b, hf, hb⟩ := factor_ready_iff hQ hS hsym hpre
  cases b with
  | true =>
    have hpd := hb.1 rfl
    exact ⟨fun _ => ⟨⟨s1, Q1⟩, by simp only [qmiCall, hf], factor_ready hQ hf⟩, fun h => absurd hpd h,
      fun h => absurd hpd h⟩
  | false =>
    have hnpd : ¬ PDon (tiMinusGram nr o.qmi.t (pencil F F0 x)) 0 nc := fun h => absurd (hb.2 h) (by simp)
    obtain ⟨Q2, ep, e, hw, hr, hep, hp, hp1, he0, hem, hv, hq, hin, -⟩ :=
      leading_certificate hQ hS hsym hpre hf
    refine ⟨fun h => absurd h hnpd, fun _ hne hk => ?_, fun _ heq => ?_⟩
    · simp only [qmiCall, hf, hw, qmiNegGrad, if_pos (And.intro hne hk)]
    · subst heq
      have hng : ¬ (nr ≠ nr ∧ k ≠ 0) := fun h => h.1 rfl
      refine ⟨⟨s1, Q2⟩, fun q => -2 * ∑ l ∈ range nr, (∑ i ∈ Ico 0 e, Q2.v i * F q i l) *
        (∑ i ∈ Ico 0 e, Q2.v i * s1.Fx i l), ep, e, ?_, hr, hep, hp, he0, hem, hv, ?_, ?_, ?_⟩
      · simp only [qmiCall, hf, hw, qmiNegGrad, if_neg hng, hp]
      · simp only [CholExt.isSpd, hp, beq_eq_false_iff_ne]; omega
      · obtain ⟨c, h1, h2, h3, h4, h5⟩ := witness_again hw (by rw [hp]; exact he0)
        exact ⟨c, h1, h2, fun i hi => h5 i (by rw [hp]; exact Nat.zero_le _) (by rw [hp]; exact hi),
          h3.trans hr.n, h4.trans hr.allow⟩
      · intro hFs z s
        have hFx : ∀ r, r < e → ∀ l, s1.Fx r l = pencil F F0 x l r := fun r hre => hin.2.2 r (by omega)
        simp only
        rw [quadOn_gram] at hq ⊢
        -- `a l` is the `l`-th entry of `F(x) v`, `b l` of `F(z) v`
        set a : ℕ → α := fun l => ∑ i ∈ Ico 0 e, Q2.v i * pencil F F0 x l i with ha
        set b : ℕ → α := fun l => ∑ i ∈ Ico 0 e, Q2.v i * pencil F F0 z l i with hb'
        have hab : ∀ l ∈ range nr, b l - a l =
            -∑ q, (z q - x q) * ∑ i ∈ Ico 0 e, Q2.v i * F q i l := by
          intro l hl
          rw [Finset.mem_range] at hl
          have h1 : ∀ i ∈ Ico 0 e, Q2.v i * pencil F F0 z l i - Q2.v i * pencil F F0 x l i =
              -∑ q, (z q - x q) * (Q2.v i * F q i l) := by
            intro i hi
            rw [Finset.mem_Ico] at hi
            unfold pencil
            rw [← mul_sub, sub_sub_sub_cancel_left, ← Finset.sum_sub_distrib, Finset.mul_sum,
              ← Finset.sum_neg_distrib]
            exact Finset.sum_congr rfl fun q _ => by rw [hFs q l i hl (by omega)]; ring
          rw [ha, hb', ← Finset.sum_sub_distrib, Finset.sum_congr rfl h1, Finset.sum_neg_distrib,
            Finset.sum_comm]
          simp only [Finset.mul_sum]
        have hg : ∑ q, (-2 * ∑ l ∈ range nr, (∑ i ∈ Ico 0 e, Q2.v i * F q i l) *
            (∑ i ∈ Ico 0 e, Q2.v i * s1.Fx i l)) * (z q - x q) = ∑ l ∈ range nr, 2 * a l * (b l - a l) := by
          have h2 : ∀ l ∈ range nr, 2 * a l * (b l - a l) =
              ∑ q, -2 * ((∑ i ∈ Ico 0 e, Q2.v i * F q i l) * a l) * (z q - x q) := by
            intro l hl
            rw [hab l hl, mul_neg, Finset.mul_sum, ← Finset.sum_neg_distrib]
            exact Finset.sum_congr rfl fun q _ => by ring
          rw [Finset.sum_congr rfl h2, Finset.sum_comm]
          refine Finset.sum_congr rfl fun q _ => ?_
          rw [Finset.mul_sum, Finset.sum_mul]
          refine Finset.sum_congr rfl fun l _ => ?_
          have : ∑ i ∈ Ico 0 e, Q2.v i * s1.Fx i l = a l :=
            Finset.sum_congr rfl fun i hi => by rw [Finset.mem_Ico] at hi; rw [hFx i hi.2]
          rw [this]
        rw [hg]
        have hsq : ∑ l ∈ range nr, 2 * a l * (b l - a l) + ∑ l ∈ range nr, a l ^ 2 - ∑ l ∈ range nr, b l ^ 2 =
            -∑ l ∈ range nr, (b l - a l) ^ 2 := by
          rw [← Finset.sum_add_distrib, ← Finset.sum_sub_distrib, ← Finset.sum_neg_distrib]
          exact Finset.sum_congr rfl fun l _ => by ring
        have hnn : 0 ≤ ∑ l ∈ range nr, (b l - a l) ^ 2 := Finset.sum_nonneg fun l _ => sq_nonneg _
        linarith

/-- **C38**: `qmi_oracle` after `update(t)`, on any earlier state of the object.  Acceptance decides
positive definiteness of `t·I - F(x)'F(x)`; with square, symmetric `F_q` a rejection gives a valid cut. -/
theorem C38_qmi (F : Fin k → ℕ → ℕ → α) (F0 : ℕ → ℕ → α) (m : ℕ) (hF : ∀ q, SymOn (F q) m) (t : α)
    (x : Fin k → α) {o : QmiOracle α} (hQ : Ready m o.Q) :
    ∃ o' r, qmiCall F F0 m m x (o.setT t) = .ok (o', r) ∧ Ready m o'.Q ∧
      (r = none ↔ PDon (tiMinusGram m t (pencil F F0 x)) 0 m) ∧
      ∀ g ep, r = some (g, ep) → 0 ≤ ep ∧
        (∀ z, PSDon (tiMinusGram m t (pencil F F0 z)) 0 m → ∑ q, g q * (z q - x q) + ep ≤ 0) ∧
        (∀ z, PDon (tiMinusGram m t (pencil F F0 z)) 0 m → ∑ q, g q * (z q - x q) + ep < 0) := by
  obtain ⟨h1, -, h3⟩ := qmi_core F F0 m m x (o := o.setT t) hQ
  have ht : (o.setT t).qmi.t = t := rfl
  rw [ht] at h1 h3
  by_cases hpd : PDon (tiMinusGram m t (pencil F F0 x)) 0 m
  · obtain ⟨o', e1, e2⟩ := h1 hpd
    exact ⟨o', none, e1, e2, ⟨fun _ => hpd, fun _ => rfl⟩, fun g ep h => by simp at h⟩
  · obtain ⟨o', g, ep, e, e1, e2, e3, -, e4, e5, e6, -, -, e7⟩ := h3 hpd rfl
    refine ⟨o', _, e1, e2, ⟨fun h => by simp at h, fun h => absurd h hpd⟩, ?_⟩
    intro g' ep' h
    simp only [Option.some.injEq, Prod.mk.injEq] at h
    obtain ⟨rfl, rfl⟩ := h
    have key := fun z => e7 hF z t
    simp only [sub_self, zero_mul] at key
    refine ⟨e3, fun z hz => ?_, fun z hz => ?_⟩
    · have := (hz.sub le_rfl e5) o'.Q.v
      linarith [key z]
    · have := (hz.sub le_rfl e5) o'.Q.v ⟨e - 1, Nat.zero_le _, by omega, by rw [e6]; exact one_ne_zero⟩
      linarith [key z]

/-- **C38**, any shape and any (non-symmetric) `F_q`: the decision is still right, but a rejection with
non-square matrices raises `ValueError` instead of returning a cut. -/
theorem C38_qmi_shapes (F : Fin k → ℕ → ℕ → α) (F0 : ℕ → ℕ → α) (nr nc : ℕ) (hne : nr ≠ nc) (hk : k ≠ 0)
    (t : α) (x : Fin k → α) {o : QmiOracle α} (hQ : Ready nc o.Q) :
    (PDon (tiMinusGram nr t (pencil F F0 x)) 0 nc → ∃ o', qmiCall F F0 nr nc x (o.setT t) = .ok (o', none)) ∧
    (¬ PDon (tiMinusGram nr t (pencil F F0 x)) 0 nc → qmiCall F F0 nr nc x (o.setT t) = .error .valueError) := by
  obtain ⟨h1, h2, -⟩ := qmi_core F F0 nr nc x (o := o.setT t) hQ
  exact ⟨fun h => (h1 h).imp fun _ h => h.1, fun h => h2 h hne hk⟩

/-- **C39**: `lsq_oracle`, for symmetric `F_q`, any earlier state and any level `t`, also `inf`.  Points are `z = (y, s)`. -/
theorem C39_lsq (F : Fin k → ℕ → ℕ → α) (F0 : ℕ → ℕ → α) (m : ℕ) (hF : ∀ q, SymOn (F q) m)
    (x : Fin (k + 1) → α) (t : WithTop α) {o : LsqOracle α} (h0 : Ready m o.lmi0) (hQ : Ready m o.qmi.Q) :
    ∃ o' g b t1, lsqCall F F0 m x t o = .ok (o', (g, b), t1) ∧ Ready m o'.lmi0 ∧ Ready m o'.qmi.Q ∧ 0 ≤ b ∧
      -- a value is reported exactly when `x` is strictly feasible and no worse than `t`
      (t1 = some ((x (Fin.last k) : α) : WithTop α) ∨ t1 = none) ∧
      (t1 ≠ none ↔ PDon (combo F (Fin.init x)) 0 m ∧
        PDon (tiMinusGram m (x (Fin.last k)) (pencil F F0 (Fin.init x))) 0 m ∧ ((x (Fin.last k) : α) : WithTop α) ≤ t) ∧
      -- the cut keeps every feasible point at least as good as the new best-so-far value
      (∀ z : Fin (k + 1) → α, PSDon (combo F (Fin.init z)) 0 m →
        PSDon (tiMinusGram m (z (Fin.last k)) (pencil F F0 (Fin.init z))) 0 m →
        ((z (Fin.last k) : α) : WithTop α) ≤ t1.getD t → ∑ q, g q * (z q - x q) + b ≤ 0) ∧
      -- with margin `lam` if the constraints and the value have that margin
      (∀ (z : Fin (k + 1) → α) (lam : α), 0 ≤ lam → AtLeast lam (combo F (Fin.init z)) m →
        AtLeast lam (tiMinusGram m (z (Fin.last k)) (pencil F F0 (Fin.init z))) m →
        ((z (Fin.last k) + lam : α) : WithTop α) ≤ t1.getD t → ∑ q, g q * (z q - x q) + b ≤ -lam) := by
  have hxi : (fun q : Fin k => x q.castSucc) = Fin.init x := rfl
  obtain ⟨Q0, r0, e1, e2, e3, e4⟩ := C36_lmi0 hF (Fin.init x) h0
  cases r0 with
  | some c =>
    obtain ⟨g1, fj⟩ := c
    have hnpd : ¬ PDon (combo F (Fin.init x)) 0 m := fun h => absurd (e3.2 h) (by simp)
    refine ⟨⟨o.qmi, Q0⟩, Fin.snoc g1 0, fj, none, by simp only [lsqCall, hxi, e1], e2, hQ, (e4 g1 fj rfl).1, .inr rfl,
      ⟨fun h => absurd rfl h, fun h => absurd h.1 hnpd⟩, fun z hz1 hz2 hz3 => ?_, fun z lam hl hz1 hz2 hz3 => ?_⟩ <;>
      rw [Fin.sum_univ_castSucc] <;>
      simp only [Fin.snoc_castSucc, Fin.snoc_last, zero_mul, add_zero]
    · exact (e4 g1 fj rfl).2.1 (Fin.init z) hz1
    · exact (e4 g1 fj rfl).2.2.2 (Fin.init z) lam hl hz1
  | none =>
    have hpd0 := e3.1 rfl
    obtain ⟨h1, -, h3⟩ := qmi_core F F0 m m (Fin.init x) (o := o.qmi.setT (x (Fin.last k))) hQ
    have ht : (o.qmi.setT (x (Fin.last k))).qmi.t = x (Fin.last k) := rfl
    rw [ht] at h1 h3
    by_cases hpd : PDon (tiMinusGram m (x (Fin.last k)) (pencil F F0 (Fin.init x))) 0 m
    · obtain ⟨q1, f1, f2⟩ := h1 hpd
      have hacc : ∀ {t' : WithTop α}, t' = ((x (Fin.last k) : α) : WithTop α) → ∀ (z : Fin (k + 1) → α) (lam : α),
          ((z (Fin.last k) + lam : α) : WithTop α) ≤ t' →
          ∑ q, (Fin.snoc (fun _ => 0) 1 : Fin (k + 1) → α) q * (z q - x q) + 0 ≤ -lam := by
        rintro _ rfl z lam hz
        rw [WithTop.coe_le_coe] at hz
        rw [Fin.sum_univ_castSucc]
        simp only [Fin.snoc_castSucc, Fin.snoc_last, zero_mul, Finset.sum_const_zero]
        linarith
      cases t with
      | top =>
        exact ⟨⟨q1, Q0⟩, Fin.snoc (fun _ => 0) 1, 0, some ((x (Fin.last k) : α) : WithTop α),
          by simp only [lsqCall, hxi, e1, f1], e2, f2, le_rfl, .inl rfl,
          ⟨fun _ => ⟨hpd0, hpd, le_top⟩, fun _ => by simp⟩, fun z hz1 hz2 hz3 => by simpa using hacc rfl z 0 (by simpa using hz3),
          fun z lam hl hz1 hz2 hz3 => hacc rfl z lam hz3⟩
      | coe t =>
        by_cases hfj : 0 < x (Fin.last k) - t
        · refine ⟨⟨q1, Q0⟩, Fin.snoc (fun _ => 0) 1, x (Fin.last k) - t, none,
            by simp only [lsqCall, hxi, e1, f1, if_pos hfj], e2, f2, hfj.le, .inr rfl,
            ⟨fun h => absurd rfl h, fun h => by have := WithTop.coe_le_coe.1 h.2.2; linarith⟩, fun z hz1 hz2 hz3 => ?_,
            fun z lam hl hz1 hz2 hz3 => ?_⟩ <;>
          rw [Fin.sum_univ_castSucc] <;>
          simp only [Fin.snoc_castSucc, Fin.snoc_last, zero_mul, Finset.sum_const_zero, Option.getD_none,
            WithTop.coe_le_coe] at hz3 ⊢ <;>
          linarith
        · exact ⟨⟨q1, Q0⟩, Fin.snoc (fun _ => 0) 1, 0, some ((x (Fin.last k) : α) : WithTop α),
            by simp only [lsqCall, hxi, e1, f1, if_neg hfj], e2, f2, le_rfl, .inl rfl,
            ⟨fun _ => ⟨hpd0, hpd, WithTop.coe_le_coe.2 (by linarith)⟩, fun _ => by simp⟩,
            fun z hz1 hz2 hz3 => by simpa using hacc rfl z 0 (by simpa using hz3),
            fun z lam hl hz1 hz2 hz3 => hacc rfl z lam hz3⟩
    · obtain ⟨q1, g1, fj, e, f1, f2, f3, f4, f5, f6, f7, f8, ⟨c, f9, f10, f11, f12⟩, f13⟩ := h3 hpd rfl
      refine ⟨⟨⟨q1.qmi, c⟩, Q0⟩, Fin.snoc g1 (-∑ i ∈ Ico c.p.1 c.p.2, c.v i * c.v i), fj, none,
        by simp only [lsqCall, hxi, e1, f1, f9], e2, f12, f3, .inr rfl,
        ⟨fun h => absurd rfl h, fun h => absurd h.2.1 hpd⟩, ?_⟩
      have hvv : ∑ i ∈ Ico c.p.1 c.p.2, c.v i * c.v i = ∑ i ∈ Ico 0 e, q1.Q.v i * q1.Q.v i := by
        rw [f10, f4]
        exact Finset.sum_congr rfl fun i hi => by rw [Finset.mem_Ico] at hi; rw [f11 i hi.2]
      have key : ∀ z : Fin (k + 1) → α, ∑ q, (Fin.snoc g1 (-∑ i ∈ Ico c.p.1 c.p.2, c.v i * c.v i) : Fin (k + 1) → α) q *
          (z q - x q) + fj ≤ -quadOn (tiMinusGram m (z (Fin.last k)) (pencil F F0 (Fin.init z))) 0 e q1.Q.v := by
        intro z
        have key := f13 hF (Fin.init z) (z (Fin.last k))
        rw [Fin.sum_univ_castSucc]
        simp only [Fin.snoc_castSucc, Fin.snoc_last, hvv]
        have hin : ∀ q : Fin k, g1 q * (z q.castSucc - x q.castSucc) = g1 q * (Fin.init z q - Fin.init x q) :=
          fun q => rfl
        rw [Finset.sum_congr rfl fun q _ => hin q]
        linarith
      refine ⟨fun z hz1 hz2 hz3 => ?_, fun z lam hl hz1 hz2 hz3 => ?_⟩
      · have := (hz2.sub le_rfl f6) q1.Q.v
        linarith [key z]
      · have := hz2.cut hl f5 f6 f7
        linarith [key z]

end

/-! ### The defect for non-symmetric `F_q`, and concrete runs -/

/-- **C38 fails for non-symmetric `F_q`**: one variable, `F_1 = [[0,0],[1,0]]`, `F0 = 2·F_1`, `t = 1`.
`z = 2` is strictly feasible (`F(2) = 0`), but at `x = 0` the oracle returns the cut `0·(z-0) + 3 ≤ 0`. -/
theorem C38_qmi_nonsymmetric_wrong :
    let F : Fin 1 → ℕ → ℕ → ℚ := fun _ i j => if i = 1 ∧ j = 0 then 1 else 0
    let F0 : ℕ → ℕ → ℚ := fun i j => if i = 1 ∧ j = 0 then 2 else 0
    ((qmiCall F F0 2 2 (fun _ => 0) ((⟨⟨0, 0, fun _ _ => 0⟩, CholExt.init 2⟩ : QmiOracle ℚ).setT 1)).toOption.bind
      (·.2)).map (fun c => (c.1 0, c.2)) = some (0, 3) ∧
    PDon (tiMinusGram 2 1 (pencil F F0 fun _ => 2)) 0 2 := by
  constructor
  · with_unfolding_all rfl
  · rintro x ⟨i, -, hi, hx⟩
    have : quadOn (tiMinusGram 2 1 (pencil (fun (_ : Fin 1) i j => if i = 1 ∧ j = 0 then (1 : ℚ) else 0)
        (fun i j => if i = 1 ∧ j = 0 then (2 : ℚ) else 0) fun _ => 2)) 0 2 x = x 0 ^ 2 + x 1 ^ 2 := by
      norm_num [quadOn, tiMinusGram, pencil, Finset.sum_range_succ]; ring
    rw [this]
    interval_cases i
    · have := sq_pos_of_ne_zero hx; linarith [sq_nonneg (x 1)]
    · have := sq_pos_of_ne_zero hx; linarith [sq_nonneg (x 0)]

namespace Examples

/-- Two symmetric 2x2 matrices and `B = [[3,1],[1,3]]`. -/
def exF : Fin 2 → ℕ → ℕ → ℚ := fun q i j => if q = 0 then (if i = j then 1 else 0) else (if i = j then 0 else 1)
def exB : ℕ → ℕ → ℚ := fun i j => if i = j then 3 else 1

theorem exF_sym (q : Fin 2) : SymOn (exF q) 2 := fun i j _ _ => by
  simp only [exF, eq_comm (a := i)]
theorem exB_sym : SymOn exB 2 := fun i j _ _ => by simp only [exB, eq_comm (a := i)]

/-- The hypotheses of C35-C37 are met; a rejection at `(1, 4)`: `B - F = [[2,-3],[-3,2]]`. -/
example : ((lmiCall exF exB 2 ![1, 4] (CholExt.init 2)).toOption.bind (·.2)).map
    (fun c => (c.1 0, c.1 1, c.2)) = some (13 / 4, 3, 5 / 2) := by with_unfolding_all rfl

example : (lmiCall exF exB 2 ![1, 2] (CholExt.init 2)).toOption.map (·.2.isNone) = some true := by
  with_unfolding_all rfl

/-- Feasible direction for C35: `z = 0` gives `B`, positive definite, so that cut is strict at 0. -/
example : PDon (pencil exF exB 0) 0 2 := by
  have h : (lmiCall exF exB 2 0 (CholExt.init 2)).toOption.map (·.2.isNone) = some true := by
    with_unfolding_all rfl
  obtain ⟨Q', r, h3, -, h4, -⟩ := C35_lmi exF_sym exB_sym 0 (ready_init 2)
  rw [h3] at h
  exact h4.1 (by simpa [Except.toOption] using h)

/-- A QMI rejection and a least-squares run with symmetric data (C38, C39). -/
example : ((qmiCall exF exB 2 2 ![0, 0] ((⟨⟨0, 5, fun _ _ => 9⟩, CholExt.init 2⟩ : QmiOracle ℚ).setT 1)).toOption.bind
      (·.2)).map (fun c => (c.1 0, c.1 1, c.2)) = some (-6, -2, 9) := by with_unfolding_all rfl

example : ((lsqCall exF exB 2 ![1, 0, 10] 20 (⟨⟨⟨0, 0, fun _ _ => 0⟩, CholExt.init 2⟩, CholExt.init 2⟩ :
    LsqOracle ℚ)).toOption.map (fun r => (r.2.1.1 2, r.2.1.2, r.2.2))) = some (1, 0, some 10) := by
  with_unfolding_all rfl

end Examples
end Verif
