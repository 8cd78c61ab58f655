import Verif.Model.MatOracle2
import Verif.Props.MatOracle

/-! # C82-C85: two-sided LMI, reversed LMI, square-root Cholesky, QMI on top of it -/
namespace Verif
open Finset

section
variable {α : Type _} [Field α] [LinearOrder α] [IsStrictOrderedRing α] {k : ℕ}

/-- `B ⪯ Σ z_q F_q`: the matrix of the constraint of `lmi3_oracle`. -/
def above (F : Fin k → ℕ → ℕ → α) (B : ℕ → ℕ → α) (z : Fin k → α) (i j : ℕ) : α := combo F z i j - B i j

omit [LinearOrder α] [IsStrictOrderedRing α] in
theorem sum_symQuad (F : Fin k → ℕ → ℕ → α) (x z : Fin k → α) (e : ℕ) (v : ℕ → α) :
    ∑ q, quadOn (F q) 0 e v * (z q - x q) = quadOn (combo F z) 0 e v - quadOn (combo F x) 0 e v := by
  rw [quadOn_combo, quadOn_combo, ← Finset.sum_sub_distrib]
  exact Finset.sum_congr rfl fun q _ => by ring

/-- **C82**: `lmi2_oracle` on any reused object.  It never raises; it accepts iff both `Σ x_q F_q` and
`U - Σ x_q F_q` are positive definite; otherwise the parallel cut `(g, (f, fj))` has `f ≥ 0`, and every `z` with
`0 ⪯ Σ z_q F_q ⪯ U` satisfies `-fj ≤ g·(z-x) ≤ -f`. -/
theorem C82_lmi2 {F : Fin k → ℕ → ℕ → α} {U : ℕ → ℕ → α} {m : ℕ} (hF : ∀ q, SymOn (F q) m) (hU : SymOn U m)
    (x : Fin k → α) {Q : CholExt α} (hQ : Ready m Q) :
    ∃ Q' r, lmi2Call F U m x Q = .ok (Q', r) ∧ Ready m Q' ∧
      (r = none ↔ PDon (combo F x) 0 m ∧ PDon (pencil F U x) 0 m) ∧
      ∀ g f fj, r = some (g, (f, fj)) → 0 ≤ f ∧
        (∀ z, PSDon (combo F z) 0 m → PSDon (pencil F U z) 0 m →
          ∑ q, g q * (z q - x q) + f ≤ 0 ∧ 0 ≤ ∑ q, g q * (z q - x q) + fj) ∧
        ((∃ z, PSDon (combo F z) 0 m ∧ PSDon (pencil F U z) 0 m) → f ≤ fj) := by
  have hS1 : Serves (W := Unit) (readAt m (affEntry F U x)) (pencil F U x) m (fun _ _ => True) (fun _ _ => True) :=
    serves_readAt le_rfl _ _ fun i j _ _ => by rw [affEntry_eq]
  have hS2 : Serves (W := Unit) (readAt m (linEntry F x)) (combo F x) m (fun _ _ => True) (fun _ _ => True) :=
    serves_readAt le_rfl _ _ fun i j _ _ => by rw [linEntry_eq]
  have hsym1 := symOn_pencil hF hU x
  have hsym2 := symOn_combo hF x
  have hpen : ∀ z e (v : ℕ → α), quadOn (pencil F U z) 0 e v = quadOn U 0 e v - quadOn (combo F z) 0 e v := fun z e v => by
    rw [quadOn_pencil, quadOn_combo]
  obtain ⟨w', Q1, b, hf, hb⟩ := factor_ready_iff hQ hS1 hsym1 (w := ()) trivial
  cases b with
  | false =>
    obtain ⟨Q2, ep, e, hw, hr, hep, hp, -, he0, hem, hv, hq, -, hsq⟩ := leading_certificate hQ hS1 hsym1 trivial hf
    refine ⟨Q2, some (fun q => Q2.symQuad (F q), (ep, ep + Q2.symQuad U)), by simp only [lmi2Call, hf, hw], hr,
      ⟨fun h => by simp at h, fun h => absurd (hb.2 h.2) (by simp)⟩, ?_⟩
    intro g f fj h
    simp only [Option.some.injEq, Prod.mk.injEq] at h
    obtain ⟨rfl, rfl, rfl⟩ := h
    simp only [hsq, sum_symQuad]
    rw [hpen] at hq
    refine ⟨hep, fun z hz1 hz2 => ?_, fun ⟨z, hz1, hz2⟩ => ?_⟩ <;>
    · have h1 := (hz1.sub le_rfl hem) Q2.v
      have h2 := (hz2.sub le_rfl hem) Q2.v
      rw [hpen] at h2
      first
        | exact ⟨by linarith, by linarith⟩
        | linarith
  | true =>
    have hr1 := factor_ready hQ hf
    obtain ⟨w2, Q2, b2, hf2, hb2⟩ := factor_ready_iff hr1 hS2 hsym2 (w := ()) trivial
    cases b2 with
    | true =>
      refine ⟨Q2, none, by simp only [lmi2Call, hf, hf2], factor_ready hr1 hf2,
        ⟨fun _ => ⟨hb2.1 rfl, hb.1 rfl⟩, fun _ => rfl⟩, ?_⟩
      intro g f fj h; simp at h
    | false =>
      obtain ⟨Q3, ep, e, hw, hr, hep, hp, -, he0, hem, hv, hq, -, hsq⟩ := leading_certificate hr1 hS2 hsym2 trivial hf2
      refine ⟨Q3, some (fun q => -Q3.symQuad (F q), (ep, ep + Q3.symQuad U)), by simp only [lmi2Call, hf, hf2, hw], hr,
        ⟨fun h => by simp at h, fun h => absurd (hb2.2 h.1) (by simp)⟩, ?_⟩
      intro g f fj h
      simp only [Option.some.injEq, Prod.mk.injEq] at h
      obtain ⟨rfl, rfl, rfl⟩ := h
      simp only [hsq, neg_mul, Finset.sum_neg_distrib, sum_symQuad]
      refine ⟨hep, fun z hz1 hz2 => ?_, fun ⟨z, hz1, hz2⟩ => ?_⟩ <;>
      · have h1 := (hz1.sub le_rfl hem) Q3.v
        have h2 := (hz2.sub le_rfl hem) Q3.v
        rw [hpen] at h2
        first
          | exact ⟨by linarith, by linarith⟩
          | linarith

/-- **C83**: `lmi3_oracle`, constraint `B ⪯ Σ x_q F_q`, on any reused object. -/
theorem C83_lmi3 {F : Fin k → ℕ → ℕ → α} {B : ℕ → ℕ → α} {m : ℕ} (hF : ∀ q, SymOn (F q) m) (hB : SymOn B m)
    (x : Fin k → α) {Q : CholExt α} (hQ : Ready m Q) :
    ∃ Q' r, lmi3Call F B m x Q = .ok (Q', r) ∧ Ready m Q' ∧ (r = none ↔ PDon (above F B x) 0 m) ∧
      ∀ g f, r = some (g, f) → 0 ≤ f ∧
        (∀ z, PSDon (above F B z) 0 m → ∑ q, g q * (z q - x q) + f ≤ 0) ∧
        (∀ z, PDon (above F B z) 0 m → ∑ q, g q * (z q - x q) + f < 0) ∧
        ∀ z lam, 0 ≤ lam → AtLeast lam (above F B z) m → ∑ q, g q * (z q - x q) + f ≤ -lam := by
  have he : aff3Entry F B x = above F B x := by
    funext i j
    simp only [aff3Entry, above, combo]
    rw [neg_add_eq_sub]
    exact congrArg (· - B i j) (Finset.sum_congr rfl fun q _ => mul_comm _ _)
  have hS : Serves (W := Unit) (readAt m (aff3Entry F B x)) (above F B x) m (fun _ _ => True) (fun _ _ => True) :=
    serves_readAt le_rfl _ _ fun i j _ _ => by rw [he]
  have hsym : SymOn (above F B x) m := fun i j hi hj => by
    simp only [above]; rw [symOn_combo hF x i j hi hj, hB i j hi hj]
  have hab : ∀ z e (v : ℕ → α), quadOn (above F B z) 0 e v = quadOn (combo F z) 0 e v - quadOn B 0 e v := fun z e v => by
    rw [← quadOn_sub]; rfl
  obtain ⟨w', Q1, b, hf, hb⟩ := factor_ready_iff hQ hS hsym (w := ()) trivial
  cases b with
  | true =>
    refine ⟨Q1, none, by simp only [lmi3Call, hf], factor_ready hQ hf, ⟨fun _ => hb.1 rfl, fun _ => rfl⟩, ?_⟩
    intro g ep h; simp at h
  | false =>
    obtain ⟨Q2, ep, e, hw, hr, hep, hp, -, he0, hem, hv, hq, -, hsq⟩ := leading_certificate hQ hS hsym trivial hf
    refine ⟨Q2, some (fun q => -Q2.symQuad (F q), ep), by simp only [lmi3Call, hf, hw], hr,
      ⟨fun h => by simp at h, fun h => absurd (hb.2 h) (by simp)⟩, ?_⟩
    intro g ep' h
    simp only [Option.some.injEq, Prod.mk.injEq] at h
    obtain ⟨rfl, rfl⟩ := h
    have key : ∀ z, ∑ q, -Q2.symQuad (F q) * (z q - x q) + ep = -quadOn (above F B z) 0 e Q2.v := by
      intro z
      rw [hab] at hq ⊢
      simp only [hsq, neg_mul, Finset.sum_neg_distrib, sum_symQuad]
      linear_combination hq
    refine ⟨hep, fun z hz => ?_, fun z hz => ?_, fun z lam hl hz => ?_⟩ <;> rw [key z]
    · have := (hz.sub le_rfl hem) Q2.v; linarith
    · have := (hz.sub le_rfl hem) Q2.v ⟨e - 1, Nat.zero_le _, by omega, by rw [hv]; exact one_ne_zero⟩
      linarith
    · have := hz.cut hl he0 hem hv; linarith
end

/-! ### `cholutil` -/

/-- Upper triangular part of `R`. -/
noncomputable def upper (R : ℕ → ℕ → ℝ) (r l : ℕ) : ℝ := if r ≤ l then R r l else 0

/-- `R' R` (upper triangle of `R` only) on indices below `n`. -/
noncomputable def gramU (R : ℕ → ℕ → ℝ) (n i j : ℕ) : ℝ := ∑ r ∈ range n, upper R r i * upper R r j

theorem quadOn_signed {A : ℕ → ℕ → ℝ} {e : ℕ} {c : ℕ → ℝ} {U : ℕ → ℕ → ℝ}
    (h : ∀ i j, i < e → j < e → A i j = ∑ r ∈ range e, c r * (U r i * U r j)) (v : ℕ → ℝ) :
    quadOn A 0 e v = ∑ r ∈ range e, c r * (∑ l ∈ range e, U r l * v l) ^ 2 := by
  unfold quadOn
  rw [← Finset.range_eq_Ico]
  have h1 : ∀ i ∈ range e, ∀ j ∈ range e, v i * A i j * v j = ∑ r ∈ range e, c r * (U r i * v i * (U r j * v j)) := by
    intro i hi j hj
    rw [h i j (mem_range.1 hi) (mem_range.1 hj), Finset.mul_sum, Finset.sum_mul]
    exact Finset.sum_congr rfl fun r _ => by ring
  rw [Finset.sum_congr rfl fun i hi => Finset.sum_congr rfl (h1 i hi)]
  rw [Finset.sum_congr rfl fun i _ => Finset.sum_comm (s := range e) (t := range e), Finset.sum_comm]
  refine Finset.sum_congr rfl fun r _ => ?_
  rw [sq, Finset.sum_mul_sum, Finset.mul_sum]
  exact Finset.sum_congr rfl fun i _ => by rw [Finset.mul_sum]

/-- Column `i` is finished above row `j`. -/
def ColTo (A R : ℕ → ℕ → ℝ) (i j : ℕ) : Prop :=
  ∀ q, q < j → A i q = ∑ l ∈ range (q + 1), R l i * R l q

theorem cuInner_spec {W : Type _} {getA : ℕ → ℕ → W → Except PyErr (W × ℝ)} {A : ℕ → ℕ → ℝ} {n : ℕ}
    {Pre In : ℕ → W → Prop} (hS : Serves getA A n Pre In) {i : ℕ} (hi : i < n) :
    ∀ r j R d w, j + r = i + 1 → 0 < r → (In i w ∨ Pre i w) → (∀ q, q < i → R q q ≠ 0) → ColTo A R i j →
      ∃ w' R' d', cuInner getA i r j R d w = .ok (w', R', d') ∧ In i w' ∧ ColTo A R' i i ∧
        d' = A i i - ∑ l ∈ range i, R' l i * R' l i ∧ ∀ a b, ¬ (b = i ∧ a < i) → R' a b = R a b := by
  intro r
  induction r with
  | zero => intro j R d w _ h; omega
  | succ r ih =>
    intro j R d w hj _ hw hpiv hcol
    obtain ⟨w1, hg, hin⟩ : ∃ w', getA i j w = .ok (w', A i j) ∧ In i w' := by
      rcases hw with h | h
      · exact hS.more i j w hi (by omega) h
      · exact hS.first i j w hi (by omega) h
    by_cases hij : i = j
    · subst hij
      obtain rfl : r = 0 := by omega
      refine ⟨w1, R, A i i - ∑ l ∈ range i, R l i * R l i, ?_, hin, hcol, rfl, fun _ _ _ => rfl⟩
      simp only [cuInner, hg, ne_eq, not_true, if_false]
    · have hlt : j < i := by omega
      set R1 := set2 R j i (1 / R j j * (A i j - ∑ l ∈ range j, R l i * R l j)) with hR1
      have hne : ∀ a b, ¬ (b = i ∧ a = j) → R1 a b = R a b := fun a b h => set2_ne (by tauto)
      obtain ⟨w', R', d', h1, h2, h3, h4, h5⟩ := ih (j + 1) R1 (A i j - ∑ l ∈ range j, R l i * R l j) w1 (by omega) (by omega)
        (.inl hin) (fun q hq => by rw [hne q q (by omega)]; exact hpiv q hq) (by
          intro q hq
          rcases Nat.lt_succ_iff_lt_or_eq.1 hq with hq | rfl
          · rw [hcol q hq]
            refine Finset.sum_congr rfl fun l hl => ?_
            rw [mem_range] at hl
            rw [hne l i (by omega), hne l q (by omega)]
          · rw [Finset.sum_range_succ]
            have e1 : ∑ l ∈ range q, R1 l i * R1 l q = ∑ l ∈ range q, R l i * R l q :=
              Finset.sum_congr rfl fun l hl => by
                rw [mem_range] at hl
                rw [hne l i (by omega), hne l q (by omega)]
            rw [e1, hne q q (by omega)]
            have e2 : R1 q i = 1 / R q q * (A i q - ∑ l ∈ range q, R l i * R l q) := set2_eq
            rw [e2]
            have := hpiv q hlt
            field_simp
            ring)
      refine ⟨w', R', d', ?_, h2, h3, h4, fun a b h => ?_⟩
      · simp only [cuInner, hg, ne_eq, hij, not_false_eq_true, if_true, pyDiv, if_neg (hpiv j hlt)]
        exact h1
      · rw [h5 a b h, hne a b (by rintro ⟨rfl, rfl⟩; exact h ⟨rfl, hlt⟩)]

/-- What one finished run leaves: `A = R'R` when `p = 0`, and up to the sign of the last pivot otherwise. -/
structure CuPost (A : ℕ → ℕ → ℝ) (n : ℕ) (R : ℕ → ℕ → ℝ) (p : ℕ) : Prop where
  le : p ≤ n
  full : p = 0 → (∀ i, i < n → 0 < R i i) ∧ ∀ i j, i < n → j < n → A i j = gramU R n i j
  part : ∀ e, p = e + 1 → (∀ i, i < e → 0 < R i i) ∧ 0 ≤ R e e ∧
    ∀ i j, i < e + 1 → j < e + 1 → A i j = ∑ r ∈ range (e + 1), (if r = e then -1 else 1) * (upper R r i * upper R r j)

theorem upper_of_le {R : ℕ → ℕ → ℝ} {r l : ℕ} (h : r ≤ l) : upper R r l = R r l := if_pos h
theorem upper_of_lt {R : ℕ → ℕ → ℝ} {r l : ℕ} (h : l < r) : upper R r l = 0 := if_neg (by omega)

/-- A sum with one triangular factor stops at the diagonal. -/
theorem sum_upper {R : ℕ → ℕ → ℝ} {c : ℕ → ℝ} {i q n : ℕ} (hq : q ≤ i) (hn : q < n) :
    ∑ r ∈ range n, c r * (upper R r i * upper R r q) = ∑ r ∈ range (q + 1), c r * (R r i * R r q) := by
  symm
  refine Finset.sum_subset_zero_on_sdiff (Finset.range_mono (by omega)) ?_ ?_
  · intro r hr
    rw [mem_sdiff, mem_range, mem_range] at hr
    rw [upper_of_lt (show q < r by omega)]; ring
  · intro r hr
    rw [mem_range] at hr
    rw [upper_of_le (by omega), upper_of_le (by omega)]

theorem cuRows_spec {W : Type _} {getA : ℕ → ℕ → W → Except PyErr (W × ℝ)} {A : ℕ → ℕ → ℝ} {n : ℕ}
    {Pre In : ℕ → W → Prop} (hS : Serves getA A n Pre In) (hsym : SymOn A n) :
    ∀ r i R w, i + r = n → Pre i w → (∀ q, q < i → 0 < R q q) →
      (∀ a q, a < i → q ≤ a → A a q = ∑ l ∈ range (q + 1), R l a * R l q) →
      ∃ w' R' p, cuRows getA r i R w = .ok (w', R', p) ∧ CuPost A n R' p ∧ (∀ e, p = e + 1 → In e w') := by
  intro r
  induction r with
  | zero =>
    intro i R w hi hw hpos hrow
    obtain rfl : i = n := by omega
    refine ⟨w, R, 0, rfl, ⟨by omega, fun _ => ⟨hpos, fun a b ha hb => ?_⟩, fun e h => by omega⟩, fun e h => by omega⟩
    unfold gramU
    have key : ∀ a b, a < i → b ≤ a → A a b = ∑ r ∈ range i, upper R r a * upper R r b := by
      intro a b ha hb
      have := sum_upper (R := R) (c := fun _ => 1) hb (show b < i by omega)
      simp only [one_mul] at this
      rw [this, hrow a b ha hb]
    rcases le_total b a with h | h
    · exact key a b ha h
    · rw [hsym a b ha hb, key b a hb h]
      exact Finset.sum_congr rfl fun r _ => mul_comm _ _
  | succ r ih =>
    intro i R w hi hw hpos hrow
    obtain ⟨w1, R1, d, h1, h2, h3, h4, h5⟩ := cuInner_spec hS (i := i) (by omega) (i + 1) 0 R 0 w (by omega) (by omega)
      (.inr hw) (fun q hq => (hpos q hq).ne') (fun q hq => by omega)
    have hR1 : ∀ a b, b ≠ i → R1 a b = R a b := fun a b h => h5 a b (by tauto)
    -- the rows up to `i` hold for any new diagonal entry, in terms of off-diagonal entries
    have hold : ∀ x a q, a < i + 1 → q ≤ a → (a, q) ≠ (i, i) →
        A a q = ∑ l ∈ range (q + 1), set2 R1 i i x l a * set2 R1 i i x l q := by
      intro x a q ha hq hne
      have hs : ∀ l, l < q + 1 → set2 R1 i i x l a = R1 l a ∧ set2 R1 i i x l q = R1 l q := by
        intro l hl
        have : ¬ (l = i ∧ a = i) := by
          rintro ⟨h1, h2⟩
          exact hne (by rw [h2, show q = i by omega])
        have h' : ¬ (l = i ∧ q = i) := by
          rintro ⟨h1, h2⟩
          exact hne (by rw [h2, show a = i by omega])
        exact ⟨set2_ne this, set2_ne h'⟩
      rw [Finset.sum_congr rfl fun l hl => by rw [(hs l (mem_range.1 hl)).1, (hs l (mem_range.1 hl)).2]]
      by_cases hai : a = i
      · subst hai
        exact h3 q (lt_of_le_of_ne hq fun h => hne (by rw [h]))
      · rw [hrow a q (by omega) hq]
        exact Finset.sum_congr rfl fun l _ => by rw [hR1 l a hai, hR1 l q (by omega)]
    have hdiag : ∀ x, ∑ l ∈ range i, set2 R1 i i x l i * set2 R1 i i x l i = A i i - d := by
      intro x
      rw [h4, sub_sub_cancel]
      exact Finset.sum_congr rfl fun l hl => by rw [mem_range] at hl; rw [set2_ne (by omega)]
    have hposx : ∀ x q, q < i → 0 < set2 R1 i i x q q := fun x q hq => by
      rw [set2_ne (by omega), hR1 q q (by omega)]; exact hpos q hq
    by_cases hd : d ≤ 0
    · refine ⟨w1, set2 R1 i i (√(-d)), i + 1, by simp only [cuRows, h1, if_pos hd], ⟨by omega, by omega, ?_⟩,
        fun e he => by rw [show e = i by omega]; exact h2⟩
      intro e he
      obtain rfl : i = e := by omega
      refine ⟨hposx _, by rw [set2_eq]; exact Real.sqrt_nonneg _, ?_⟩
      have key : ∀ a b, a < i + 1 → b ≤ a → A a b = ∑ r ∈ range (i + 1), (if r = i then -1 else 1) *
          (upper (set2 R1 i i (√(-d))) r a * upper (set2 R1 i i (√(-d))) r b) := by
        intro a b ha hb
        rw [sum_upper hb (by omega)]
        by_cases hab : (a, b) = (i, i)
        · simp only [Prod.mk.injEq] at hab
          obtain ⟨rfl, rfl⟩ := hab
          rw [Finset.sum_range_succ, if_pos rfl]
          have : ∑ x ∈ range b, (if x = b then (-1 : ℝ) else 1) * (set2 R1 b b (√(-d)) x b * set2 R1 b b (√(-d)) x b) = A b b - d := by
            rw [← hdiag (√(-d))]
            exact Finset.sum_congr rfl fun l hl => by rw [mem_range] at hl; rw [if_neg (by omega), one_mul]
          rw [this, set2_eq, Real.mul_self_sqrt (by linarith)]; ring
        · rw [hold _ a b ha hb hab]
          refine Finset.sum_congr rfl fun l hl => ?_
          rw [mem_range] at hl
          rw [if_neg, one_mul]
          rintro rfl
          exact hab (by rw [show a = l by omega, show b = l by omega])
      intro a b ha hb
      rcases le_total b a with h | h
      · exact key a b ha h
      · rw [hsym a b (by omega) (by omega), key b a hb h]
        exact Finset.sum_congr rfl fun r _ => by ring
    · rw [not_le] at hd
      obtain ⟨w', R', p, g1, g2, g3⟩ := ih (i + 1) (set2 R1 i i (√d)) w1 (by omega) (hS.next i w1 h2) (fun q hq => by
          rcases Nat.lt_succ_iff_lt_or_eq.1 hq with h | rfl
          · exact hposx _ q h
          · rw [set2_eq]; exact Real.sqrt_pos.2 hd) (fun a q ha hq => by
          by_cases hab : (a, q) = (i, i)
          · simp only [Prod.mk.injEq] at hab
            obtain ⟨rfl, rfl⟩ := hab
            rw [Finset.sum_range_succ, hdiag, set2_eq, Real.mul_self_sqrt hd.le]; ring
          · exact hold _ a q ha hq hab)
      exact ⟨w', R', p, by simp only [cuRows, h1, if_neg (not_le.2 hd)]; exact g1, g2, g3⟩

/-- Back substitution succeeds and makes every row above the last vanish. -/
theorem cuBack_spec {R : ℕ → ℕ → ℝ} {p : ℕ} : ∀ i v, i < p → (∀ q, q < i → R q q ≠ 0) →
    ∃ v', cuBack R p i v = .ok v' ∧ (∀ q, i ≤ q → v' q = v q) ∧ ∀ q, q < i → ∑ l ∈ Ico q p, R q l * v' l = 0 := by
  intro i
  induction i with
  | zero => intro v _ _; exact ⟨v, rfl, fun _ _ => rfl, fun q hq => by omega⟩
  | succ i ih =>
    intro v hi hR
    have hne := hR i (by omega)
    obtain ⟨v', h1, h2, h3⟩ := ih (Function.update v i (-(∑ l ∈ Ico (i + 1) p, R i l * v l) / R i i)) (by omega)
      fun q hq => hR q (by omega)
    refine ⟨v', by simp only [cuBack, pyDiv, if_neg hne]; exact h1, fun q hq => ?_, fun q hq => ?_⟩
    · rw [h2 q (by omega), Function.update_of_ne (by omega)]
    · rcases Nat.lt_succ_iff_lt_or_eq.1 hq with h | rfl
      · exact h3 q h
      · rw [Finset.sum_eq_sum_Ico_succ_bot (by omega), h2 q le_rfl, Function.update_self]
        have : ∑ l ∈ Ico (q + 1) p, R q l * v' l = ∑ l ∈ Ico (q + 1) p, R q l * v l :=
          Finset.sum_congr rfl fun l hl => by
            rw [mem_Ico] at hl
            rw [h2 l (by omega), Function.update_of_ne (by omega)]
        rw [this]
        field_simp
        ring

theorem row_sum {R : ℕ → ℕ → ℝ} {q p : ℕ} (v : ℕ → ℝ) :
    ∑ l ∈ range p, upper R q l * v l = ∑ l ∈ Ico q p, R q l * v l := by
  rw [Finset.range_eq_Ico]
  symm
  refine Finset.sum_subset_zero_on_sdiff (Finset.Ico_subset_Ico (Nat.zero_le _) le_rfl) ?_ ?_
  · intro r hr
    rw [mem_sdiff, mem_Ico, mem_Ico] at hr
    rw [upper_of_lt (show r < q by omega), zero_mul]
  · intro r hr
    rw [mem_Ico] at hr
    rw [upper_of_le hr.1]

theorem pd_of_gramU {A R : ℕ → ℕ → ℝ} {n : ℕ} (hpos : ∀ i, i < n → 0 < R i i)
    (h : ∀ i j, i < n → j < n → A i j = gramU R n i j) : PDon A 0 n := by
  rintro v ⟨i0, -, hi0, hv0⟩
  rw [quadOn_signed (c := fun _ => 1) (U := upper R) (fun i j hi hj => by rw [h i j hi hj, gramU]; simp) v]
  simp only [one_mul]
  -- the last nonzero entry
  have hex : ((range n).filter fun i => v i ≠ 0).Nonempty := ⟨i0, by simp [hi0, hv0]⟩
  obtain ⟨i, hi, hmax⟩ := Finset.exists_max_image _ id hex
  rw [mem_filter, mem_range] at hi
  refine lt_of_lt_of_le ?_ (Finset.single_le_sum (f := fun r => (∑ l ∈ range n, upper R r l * v l) ^ 2)
    (fun r _ => sq_nonneg _) (mem_range.2 hi.1))
  refine pow_pos_of_ne_zero ?_
  rw [row_sum, Finset.sum_eq_sum_Ico_succ_bot hi.1]
  have : ∑ l ∈ Ico (i + 1) n, R i l * v l = 0 := Finset.sum_eq_zero fun l hl => by
    rw [mem_Ico] at hl
    by_contra hne
    have := hmax l (by rw [mem_filter, mem_range]; exact ⟨hl.2, fun h0 => hne (by rw [h0, mul_zero])⟩)
    simp only [id] at this
    omega
  rw [this, add_zero]
  exact mul_ne_zero (hpos i hi.1).ne' hi.2
where
  pow_pos_of_ne_zero {x : ℝ} (hx : x ≠ 0) : 0 < x ^ 2 := by positivity

/-- **C84** `cholutil.factor`, any entry supplier that serves a symmetric `A`, any earlier state of the object: it
never raises, `is_spd()` decides positive definiteness; if positive definite, the upper triangle of `R`
satisfies `R'R = A` with positive diagonal, and `witness()` raises; otherwise `witness()` returns `(v, f)` with `v'A[:p,:p]v = -f`,
`f ∈ {0, 1}` and `v ≠ 0`. -/
theorem C84_cholutil {W : Type _} {getA : ℕ → ℕ → W → Except PyErr (W × ℝ)} {A : ℕ → ℕ → ℝ} {Pre In : ℕ → W → Prop}
    (c : CholUtil) (hS : Serves getA A c.N Pre In) (hsym : SymOn A c.N) {w : W} (hw : Pre 0 w) :
    ∃ w' c', c.factor getA w = .ok (w', c') ∧ c'.N = c.N ∧ (c'.isSpd = true ↔ PDon A 0 c.N) ∧
      (c'.isSpd = true → (∀ i, i < c.N → 0 < c'.R i i) ∧ (∀ i j, i < c.N → j < c.N → A i j = gramU c'.R c.N i j) ∧
        c'.witness = .error .assertion) ∧
      (c'.isSpd = false → 0 < c'.p ∧ c'.p ≤ c.N ∧ In (c'.p - 1) w' ∧
        ∃ v f, c'.witness = .ok (v, f) ∧ (f = 0 ∨ f = 1) ∧ quadOn A 0 c'.p v = -f ∧ 0 < v (c'.p - 1)) := by
  obtain ⟨w', R, p, h1, h2, h3⟩ := cuRows_spec hS hsym c.N 0 c.R w (by omega) hw (fun q h => by omega) (fun a q h => by omega)
  have hfac : c.factor getA w = .ok (w', { c with R := R, p := p }) := by simp only [CholUtil.factor, h1]
  have hwit : p ≠ 0 → ∃ v f, (CholUtil.mk c.N R p).witness = .ok (v, f) ∧ (f = 0 ∨ f = 1) ∧ quadOn A 0 p v = -f ∧ 0 < v (p - 1) := by
    intro hp
    obtain ⟨e, rfl⟩ := Nat.exists_eq_succ_of_ne_zero hp
    obtain ⟨g1, g2, g3⟩ := h2.part e rfl
    have hspd : ¬ (CholUtil.mk c.N R (e + 1)).isSpd = true := by simp [CholUtil.isSpd]
    obtain ⟨v, k1, k2, k3⟩ := cuBack_spec (R := R) (p := e + 1) e (Function.update (fun _ => 0) e (if R e e = 0 then 1 else 1 / R e e))
      (by omega) fun q hq => (g1 q hq).ne'
    have hv : v e = if R e e = 0 then 1 else 1 / R e e := by rw [k2 e le_rfl, Function.update_self]
    refine ⟨v, if R e e = 0 then 0 else 1, ?_, ?_, ?_, ?_⟩
    · simp only [CholUtil.witness, if_neg hspd, Nat.succ_eq_add_one, Nat.add_sub_cancel, k1]
    · split_ifs <;> simp
    · rw [quadOn_signed (c := fun r => if r = e then -1 else 1) (U := upper R) g3 v, Finset.sum_range_succ]
      rw [Finset.sum_eq_zero fun r hr => ?_]
      · simp only [if_true]
        rw [row_sum, Nat.Ico_succ_singleton, Finset.sum_singleton, hv]
        split_ifs with h0
        · rw [h0]; ring
        · field_simp; ring
      · rw [mem_range] at hr
        rw [row_sum, k3 r hr]; ring
    · simp only [Nat.succ_eq_add_one, Nat.add_sub_cancel]
      rw [hv]
      split_ifs with h0
      · exact one_pos
      · exact one_div_pos.2 (lt_of_le_of_ne g2 (Ne.symm h0))
  refine ⟨w', _, hfac, rfl, ?_, ?_, ?_⟩
  · constructor
    · intro h
      have hp : p = 0 := by simpa [CholUtil.isSpd] using h
      exact pd_of_gramU (h2.full hp).1 (h2.full hp).2
    · intro hpd
      by_contra hne
      have hp : p ≠ 0 := by simpa [CholUtil.isSpd] using hne
      obtain ⟨v, f, -, hf, hq, hv⟩ := hwit hp
      have := (hpd.sub le_rfl h2.le) v ⟨p - 1, by omega, by omega, hv.ne'⟩
      rcases hf with rfl | rfl <;> linarith
  · intro h
    have hp : p = 0 := by simpa [CholUtil.isSpd] using h
    refine ⟨(h2.full hp).1, (h2.full hp).2, ?_⟩
    simp [CholUtil.witness, CholUtil.isSpd, hp]
  · intro h
    have hp : p ≠ 0 := by simpa [CholUtil.isSpd] using h
    exact ⟨by simp only; omega, h2.le, h3 _ (by simp only; omega), hwit hp⟩

/-- **C84** `cholutil.sym_quad` with the vector of `witness`. -/
theorem C84_cholutil_sym_quad (c : CholUtil) (v : ℕ → ℝ) (F : ℕ → ℕ → ℝ) : c.symQuad v F = quadOn F 0 c.p v := by
  unfold CholUtil.symQuad quadOn
  rw [← Finset.range_eq_Ico]
  refine Finset.sum_congr rfl fun i _ => ?_
  rw [Finset.mul_sum]
  exact Finset.sum_congr rfl fun j _ => by ring

/-! ### `qmi_c_oracle` -/
variable {k : ℕ}

/-- `t·I - M M'` for an array `M` with `nc` columns. -/
def tiMinusOuter (nc : ℕ) (t : ℝ) (M : ℕ → ℕ → ℝ) (i j : ℕ) : ℝ :=
  (if i = j then t else 0) - ∑ l ∈ range nc, M i l * M j l

theorem tiMinusOuter_eq (nc : ℕ) (t : ℝ) (M : ℕ → ℕ → ℝ) : tiMinusOuter nc t M = tiMinusGram nc t fun l i => M i l := rfl

theorem serves_qmiC (F : Fin k → ℕ → ℕ → ℝ) (F0 : ℕ → ℕ → ℝ) (nc m : ℕ) (x : Fin k → ℝ) (t : ℝ) :
    Serves (qmiCGetA F F0 nc x) (tiMinusOuter nc t (pencil F F0 x)) m
      (fun i s => s.t = t ∧ s.count = (i : ℤ) - 1 ∧ ∀ r, r < i → ∀ l, s.Fx r l = pencil F F0 x r l)
      (fun i s => s.t = t ∧ s.count = (i : ℤ) ∧ ∀ r, r < i + 1 → ∀ l, s.Fx r l = pencil F F0 x r l) := by
  have hp : ∀ i l, F0 i l - ∑ q, F q i l * x q = pencil F F0 x i l := fun i l => by
    unfold pencil
    congr 1
    exact Finset.sum_congr rfl fun q _ => mul_comm _ _
  have hval : ∀ i j (s : QmiCSt), j ≤ i → s.t = t → (∀ r, r < i + 1 → ∀ l, s.Fx r l = pencil F F0 x r l) →
      (if i = j then -(∑ l ∈ range nc, s.Fx i l * s.Fx j l) + s.t else
        -(∑ l ∈ range nc, s.Fx i l * s.Fx j l)) = tiMinusOuter nc t (pencil F F0 x) i j := by
    intro i j s hj ht hr
    have : ∑ l ∈ range nc, s.Fx i l * s.Fx j l = ∑ l ∈ range nc, pencil F F0 x i l * pencil F F0 x j l :=
      Finset.sum_congr rfl fun l _ => by rw [hr i (by omega), hr j (by omega)]
    rw [this, ht]
    unfold tiMinusOuter
    split_ifs <;> ring
  refine ⟨?_, ?_, fun i s h => ⟨h.1, by rw [h.2.1]; push_cast; ring, h.2.2⟩⟩
  · rintro i j s - hj ⟨h1, h2, h3⟩
    have hFx : ∀ r, r < i + 1 → ∀ l, (Function.update s.Fx i fun l => F0 i l - ∑ q, F q i l * x q) r l = pencil F F0 x r l := by
      intro r hr l
      by_cases hri : r = i
      · subst hri; simp only [Function.update_self]; exact hp r l
      · simp only [Function.update_of_ne hri]; exact h3 r (by omega) l
    refine ⟨{ s with
        count := i
        Fx := Function.update s.Fx i fun l => F0 i l - ∑ q, F q i l * x q }, ?_, h1, rfl, hFx⟩
    simp only [qmiCGetA, if_neg (show ¬ i < j by omega), if_pos (show s.count < (i : ℤ) by omega)]
    rw [← hval i j { s with
      count := i
      Fx := Function.update s.Fx i fun l => F0 i l - ∑ q, F q i l * x q } hj h1 hFx]
  · rintro i j s - hj ⟨h1, h2, h3⟩
    refine ⟨s, ?_, h1, h2, h3⟩
    simp only [qmiCGetA, if_neg (show ¬ i < j by omega), if_neg (show ¬ s.count < (i : ℤ) by omega)]
    rw [← hval i j s hj h1 h3]

/-- **C85** `qmi_c_oracle`, every shape, every (also non-symmetric) `F`, every earlier state: at a point with
`t·I - F(x)F(x)'` positive definite the call raises `AssertionError` (`factor` returns `None`); at any other point it
returns a cut with `f ∈ {0, 1}` that every `z` with `F(z)F(z)' ⪯ t·I` satisfies. -/
theorem C85_qmi_c (F : Fin k → ℕ → ℕ → ℝ) (F0 : ℕ → ℕ → ℝ) (nc : ℕ) (x : Fin k → ℝ) (s : QmiCSt) (Q : CholUtil) :
    (PDon (tiMinusOuter nc s.t (pencil F F0 x)) 0 Q.N → qmiCCall F F0 nc x s Q = .error .assertion) ∧
    (¬ PDon (tiMinusOuter nc s.t (pencil F F0 x)) 0 Q.N →
      ∃ s' Q' g f, qmiCCall F F0 nc x s Q = .ok (s', Q', (g, f)) ∧ Q'.N = Q.N ∧ (f = 0 ∨ f = 1) ∧
        (∀ z, PSDon (tiMinusOuter nc s.t (pencil F F0 z)) 0 Q.N → ∑ q, g q * (z q - x q) + f ≤ 0) ∧
        (∀ z, PDon (tiMinusOuter nc s.t (pencil F F0 z)) 0 Q.N → ∑ q, g q * (z q - x q) + f < 0)) := by
  have hS := serves_qmiC F F0 nc Q.N x s.t
  have hsym : SymOn (tiMinusOuter nc s.t (pencil F F0 x)) Q.N := by rw [tiMinusOuter_eq]; exact symOn_gram _ _ _ _
  obtain ⟨s1, Q1, hf, hN, hiff, hyes, hno⟩ := C84_cholutil Q hS hsym (w := { s with count := -1 })
    ⟨rfl, by simp, fun r hr => by omega⟩
  refine ⟨fun hpd => ?_, fun hpd => ?_⟩
  · have := (hyes (hiff.2 hpd)).2.2
    simp only [qmiCCall, hf, this]
  · have hb : Q1.isSpd = false := by
      cases h : Q1.isSpd with
      | false => rfl
      | true => exact absurd (hiff.1 h) hpd
    obtain ⟨hp0, hpN, hin, v, f, hw, hf01, hq, hv⟩ := hno hb
    refine ⟨s1, Q1, fun q => -2 * ∑ l ∈ range nc, (∑ i ∈ range Q1.p, v i * F q i l) * ∑ i ∈ range Q1.p, v i * s1.Fx i l, f,
      by simp only [qmiCCall, hf, hw], hN, hf01, ?_⟩
    set e := Q1.p with he
    have hFx : ∀ r, r < e → ∀ l, s1.Fx r l = pencil F F0 x r l := fun r hr => hin.2.2 r (by omega)
    set a : ℕ → ℝ := fun l => ∑ i ∈ range e, v i * pencil F F0 x i l with ha
    have main : ∀ z, quadOn (tiMinusOuter nc s.t (pencil F F0 z)) 0 e v + (∑ q, (-2 * ∑ l ∈ range nc, (∑ i ∈ range e, v i * F q i l) *
        ∑ i ∈ range e, v i * s1.Fx i l) * (z q - x q) + f) ≤ 0 := by
      intro z
      set b : ℕ → ℝ := fun l => ∑ i ∈ range e, v i * pencil F F0 z i l with hb'
      have hab : ∀ l, b l - a l = -∑ q, (z q - x q) * ∑ i ∈ range e, v i * F q i l := by
        intro l
        have h1 : ∀ i ∈ range e, v i * pencil F F0 z i l - v i * pencil F F0 x i l = -∑ q, (z q - x q) * (v i * F q i l) := by
          intro i _
          unfold pencil
          rw [← mul_sub, sub_sub_sub_cancel_left, ← Finset.sum_sub_distrib, Finset.mul_sum, ← Finset.sum_neg_distrib]
          exact Finset.sum_congr rfl fun q _ => by ring
        rw [ha, hb', ← Finset.sum_sub_distrib, Finset.sum_congr rfl h1, Finset.sum_neg_distrib, Finset.sum_comm]
        simp only [Finset.mul_sum]
      have hg : ∑ q, (-2 * ∑ l ∈ range nc, (∑ i ∈ range e, v i * F q i l) * ∑ i ∈ range e, v i * s1.Fx i l) * (z q - x q) =
          ∑ l ∈ range nc, 2 * a l * (b l - a l) := by
        have h2 : ∀ l ∈ range nc, 2 * a l * (b l - a l) = ∑ q, -2 * ((∑ i ∈ range e, v i * F q i l) * a l) * (z q - x q) := by
          intro l _
          rw [hab l, mul_neg, Finset.mul_sum, ← Finset.sum_neg_distrib]
          exact Finset.sum_congr rfl fun q _ => by ring
        rw [Finset.sum_congr rfl h2, Finset.sum_comm]
        refine Finset.sum_congr rfl fun q _ => ?_
        rw [Finset.mul_sum, Finset.sum_mul]
        refine Finset.sum_congr rfl fun l _ => ?_
        have : ∑ i ∈ range e, v i * s1.Fx i l = a l :=
          Finset.sum_congr rfl fun i hi => by rw [Finset.mem_range] at hi; rw [hFx i hi]
        rw [this]
      rw [tiMinusOuter_eq, quadOn_gram] at hq
      rw [tiMinusOuter_eq, quadOn_gram, hg]
      simp only [← Finset.range_eq_Ico] at hq ⊢
      have hsq : ∑ l ∈ range nc, 2 * a l * (b l - a l) + ∑ l ∈ range nc, a l ^ 2 - ∑ l ∈ range nc, b l ^ 2 =
          -∑ l ∈ range nc, (b l - a l) ^ 2 := by
        rw [← Finset.sum_add_distrib, ← Finset.sum_sub_distrib, ← Finset.sum_neg_distrib]
        exact Finset.sum_congr rfl fun l _ => by ring
      have hnn : 0 ≤ ∑ l ∈ range nc, (b l - a l) ^ 2 := Finset.sum_nonneg fun l _ => sq_nonneg _
      simp only [ha, hb'] at hsq hnn ⊢
      linarith
    refine ⟨fun z hz => ?_, fun z hz => ?_⟩
    · have := (hz.sub le_rfl hpN) v
      linarith [main z]
    · have := (hz.sub le_rfl hpN) v ⟨e - 1, by omega, by omega, hv.ne'⟩
      linarith [main z]

/-! ### Concrete cases -/

/-- `F = (I)`, `U = 2 I` (size 1): `x = 3` is answered with the parallel cut `1 ≤ -(z-3) ≤ 3`, i.e. `0 ≤ z ≤ 2`. -/
example : (lmi2Call (α := ℚ) (k := 1) (fun _ _ _ => 1) (fun _ _ => 2) 1 (fun _ => 3) (CholExt.init 1)).map (·.2) =
    .ok (some (fun _ => 1, (1, 3))) := by
  norm_num [lmi2Call, CholExt.factor, CholExt.init, cholRows, cholInner, readAt, affEntry, CholExt.isSpd, CholExt.witness,
    witnessLoop, CholExt.symQuad, set2, Except.map, (by decide : ((1 : ℕ) == 0) = false)]

/-- The hypotheses of C82/C83 hold for every number of constant matrices and the new object. -/
example : (∀ q : Fin 1, SymOn ((fun _ _ _ => 1 : Fin 1 → ℕ → ℕ → ℚ) q) 1) ∧ SymOn (fun _ _ => (2 : ℚ)) 1 ∧
    Ready 1 (CholExt.init 1 : CholExt ℚ) := ⟨fun _ _ _ _ _ => rfl, fun _ _ _ _ => rfl, ready_init 1⟩

/-- An indefinite matrix is rejected by `cholutil` with a certificate: `A = [[1, 2], [2, 1]]`. -/
example : ∃ c', (CholUtil.init 2).factorize 2 (fun i j => if i = j then 1 else 2) = .ok c' ∧ c'.isSpd = false := by
  have hS := serves_readAt (W := Unit) (size := 2) (n := 2) le_rfl (fun i j => if i = j then (1 : ℝ) else 2) _ fun _ _ _ _ => rfl
  obtain ⟨w', c', h1, -, h3, -, -⟩ := C84_cholutil (CholUtil.init 2) hS (fun i j _ _ => by simp only [eq_comm]) (w := ()) trivial
  refine ⟨c', by simp only [CholUtil.factorize, h1], ?_⟩
  cases h : c'.isSpd with
  | false => rfl
  | true =>
    have := h3.1 h (fun i => if i = 0 then 1 else -1) ⟨0, by simp [CholUtil.init]⟩
    norm_num [quadOn, CholUtil.init, Finset.sum_range_succ] at this

/-- `qmi_c_oracle` with `F(x) = x` (size 1), `t = 4`: the feasible point 1 raises, the point 3 gives a cut. -/
example (Q : CholUtil) (hQ : Q.N = 1) :
    qmiCCall (k := 1) (fun _ _ _ => -1) (fun _ _ => 0) 1 (fun _ => 1) ⟨4, -1, fun _ _ => 0⟩ Q = .error .assertion ∧
    ∃ s' Q' g f, qmiCCall (k := 1) (fun _ _ _ => -1) (fun _ _ => 0) 1 (fun _ => 3) ⟨4, -1, fun _ _ => 0⟩ Q = .ok (s', Q', (g, f)) := by
  refine ⟨(C85_qmi_c _ _ _ _ _ _).1 ?_, ?_⟩
  · rw [hQ]
    rintro v ⟨i, -, hi, hv⟩
    obtain rfl : i = 0 := by omega
    have : 0 < v 0 * v 0 := mul_self_pos.2 hv
    norm_num [quadOn, tiMinusOuter, pencil]
    linarith
  · obtain ⟨s', Q', g, f, h, -⟩ := (C85_qmi_c (k := 1) (fun _ _ _ => -1) (fun _ _ => 0) 1 (fun _ => 3) ⟨4, -1, fun _ _ => 0⟩ Q).2 (by
      rw [hQ]
      intro h
      have := h (fun _ => 1) ⟨0, by simp⟩
      norm_num [quadOn, tiMinusOuter, pencil] at this)
    exact ⟨s', Q', g, f, h⟩

end Verif
