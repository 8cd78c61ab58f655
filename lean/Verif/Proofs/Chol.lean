import Verif.Model.Chol
import Verif.Spec.PdSpec
import Mathlib.Tactic

/-! # LDLᵀ algebra and the loop invariants of `factor` -/
namespace Verif
open Finset
variable {W α : Type _} [Field α] [LinearOrder α]

/-- Row `r` of the factorisation of the block starting at `s` is finished. -/
structure LdlRow (A T : ℕ → ℕ → α) (s r : ℕ) : Prop where
  up : ∀ j, s ≤ j → j < r → T j r = T r j * T j j
  val : ∀ j, s ≤ j → j ≤ r → A r j = (∑ m ∈ Ico s j, T r m * T m j) + T j r

/-- `x_m + Σ_{i>m} L_im x_i`, the `m`-th entry of `L'x`. -/
def ltx (T : ℕ → ℕ → α) (e : ℕ) (x : ℕ → α) (m : ℕ) : α := x m + ∑ i ∈ Ico (m + 1) e, T i m * x i

omit [LinearOrder α] in
theorem ltx_succ (T : ℕ → ℕ → α) {e m : ℕ} (x : ℕ → α) (h : m < e) :
    ltx T (e + 1) x m = ltx T e x m + T e m * x e := by
  unfold ltx
  rw [Finset.sum_Ico_succ_top (by omega : m + 1 ≤ e)]; ring

omit [LinearOrder α] in
theorem quadOn_succ (A : ℕ → ℕ → α) {s e : ℕ} (h : s ≤ e) (x : ℕ → α)
    (hsym : ∀ j, s ≤ j → j < e → A j e = A e j) :
    quadOn A s (e + 1) x = quadOn A s e x + 2 * x e * (∑ j ∈ Ico s e, A e j * x j) + A e e * x e ^ 2 := by
  unfold quadOn
  rw [Finset.sum_Ico_succ_top h, Finset.sum_Ico_succ_top h]
  have h1 : ∑ i ∈ Ico s e, ∑ j ∈ Ico s (e + 1), x i * A i j * x j =
      (∑ i ∈ Ico s e, ∑ j ∈ Ico s e, x i * A i j * x j) + x e * ∑ j ∈ Ico s e, A e j * x j := by
    rw [Finset.mul_sum, ← Finset.sum_add_distrib]
    refine Finset.sum_congr rfl fun i hi => ?_
    rw [Finset.mem_Ico] at hi
    rw [Finset.sum_Ico_succ_top h, hsym i hi.1 hi.2]; ring
  have h2 : ∑ j ∈ Ico s e, x e * A e j * x j = x e * ∑ j ∈ Ico s e, A e j * x j := by
    rw [Finset.mul_sum]; exact Finset.sum_congr rfl fun j _ => by ring
  rw [h1, h2]; ring

omit [LinearOrder α] in
/-- The row equation paired with a vector. -/
theorem row_dot {A T : ℕ → ℕ → α} {s e : ℕ} (hrow : ∀ r, s ≤ r → r < e → LdlRow A T s r)
    (he : LdlRow A T s e) (x : ℕ → α) :
    ∑ j ∈ Ico s e, A e j * x j = ∑ m ∈ Ico s e, T m e * ltx T e x m := by
  have h1 : ∀ j ∈ Ico s e, A e j * x j = T j e * x j + ∑ m ∈ Ico s j, T m e * (T j m * x j) := by
    intro j hj
    rw [Finset.mem_Ico] at hj
    rw [he.val j hj.1 hj.2.le, add_mul, add_comm, Finset.sum_mul]
    congr 1
    refine Finset.sum_congr rfl fun m hm => ?_
    rw [Finset.mem_Ico] at hm
    rw [(hrow j hj.1 hj.2).up m hm.1 hm.2, he.up m hm.1 (hm.2.trans hj.2)]; ring
  rw [Finset.sum_congr rfl h1, Finset.sum_add_distrib]
  have h2 : ∀ m ∈ Ico s e, T m e * ltx T e x m =
      T m e * x m + ∑ i ∈ Ico (m + 1) e, T m e * (T i m * x i) := by
    intro m _
    unfold ltx; rw [mul_add, Finset.mul_sum]
  rw [Finset.sum_congr rfl h2, Finset.sum_add_distrib]
  congr 1
  rw [Finset.sum_Ico_Ico_comm']

omit [LinearOrder α] in
/-- `x' A x = Σ_m D_m (L'x)_m²` on a factored block. -/
theorem quadOn_ldl {A T : ℕ → ℕ → α} {s e : ℕ} (h : s ≤ e) (hrow : ∀ r, s ≤ r → r < e → LdlRow A T s r)
    (hsym : SymOn A e) (x : ℕ → α) :
    quadOn A s e x = ∑ m ∈ Ico s e, T m m * ltx T e x m ^ 2 := by
  induction e, h using Nat.le_induction with
  | base => simp [quadOn]
  | succ e h ih =>
    have hrow' : ∀ r, s ≤ r → r < e → LdlRow A T s r := fun r h1 h2 => hrow r h1 (by omega)
    have he := hrow e h (by omega)
    rw [quadOn_succ A h x (fun j _ h2 => hsym j e (by omega) (by omega)),
      ih hrow' (fun i j hi hj => hsym i j (by omega) (by omega)), row_dot hrow' he,
      Finset.sum_Ico_succ_top h]
    have h1 : ∑ m ∈ Ico s e, T m m * ltx T (e + 1) x m ^ 2 =
        (∑ m ∈ Ico s e, T m m * ltx T e x m ^ 2) + 2 * x e * (∑ m ∈ Ico s e, T m e * ltx T e x m)
          + (∑ m ∈ Ico s e, T e m * T m e) * x e ^ 2 := by
      rw [Finset.mul_sum, Finset.sum_mul, ← Finset.sum_add_distrib, ← Finset.sum_add_distrib]
      refine Finset.sum_congr rfl fun m hm => ?_
      rw [Finset.mem_Ico] at hm
      rw [ltx_succ T x hm.2, he.up m hm.1 hm.2]; ring
    have h2 : ltx T (e + 1) x e = x e := by simp [ltx]
    rw [h1, h2, he.val e h le_rfl]; ring

variable [IsStrictOrderedRing α]

/-- Positive pivots: the block is positive definite. -/
theorem pd_of_pivots {A T : ℕ → ℕ → α} {s e : ℕ} (h : s ≤ e)
    (hrow : ∀ r, s ≤ r → r < e → LdlRow A T s r) (hsym : SymOn A e)
    (hpos : ∀ r, s ≤ r → r < e → 0 < T r r) : PDon A s e := by
  rintro x ⟨i0, hi1, hi2, hi3⟩
  rw [quadOn_ldl h hrow hsym]
  have hnn : ∀ m ∈ Ico s e, 0 ≤ T m m * ltx T e x m ^ 2 := fun m hm => by
    rw [Finset.mem_Ico] at hm
    exact mul_nonneg (hpos m hm.1 hm.2).le (sq_nonneg _)
  refine lt_of_le_of_ne (Finset.sum_nonneg hnn) fun h0 => hi3 ?_
  have h1 := (Finset.sum_eq_zero_iff_of_nonneg hnn).1 h0.symm
  -- back substitution
  have h2 : ∀ k m, s ≤ m → m < e → e - m ≤ k → x m = 0 := by
    intro k
    induction k with
    | zero => intro m _ hm hk; omega
    | succ k ih =>
      intro m hm1 hm2 hk
      have h3 := h1 m (Finset.mem_Ico.2 ⟨hm1, hm2⟩)
      have h4 : ltx T e x m = 0 := by
        rcases mul_eq_zero.1 h3 with h5 | h5
        · exact absurd h5 (hpos m hm1 hm2).ne'
        · exact pow_eq_zero_iff (two_ne_zero) |>.1 h5
      unfold ltx at h4
      rwa [Finset.sum_eq_zero, add_zero] at h4
      intro i hi
      rw [Finset.mem_Ico] at hi
      rw [ih i (by omega) hi.2 (by omega), mul_zero]
  exact h2 _ i0 hi1 hi2 le_rfl

theorem psd_of_pivots {A T : ℕ → ℕ → α} {s e : ℕ} (h : s ≤ e)
    (hrow : ∀ r, s ≤ r → r < e → LdlRow A T s r) (hsym : SymOn A e)
    (hpos : ∀ r, s ≤ r → r < e → 0 ≤ T r r) : PSDon A s e := by
  intro x
  rw [quadOn_ldl h hrow hsym]
  refine Finset.sum_nonneg fun m hm => ?_
  rw [Finset.mem_Ico] at hm
  exact mul_nonneg (hpos m hm.1 hm.2) (sq_nonneg _)

/-! ### witness -/

omit [LinearOrder α] [IsStrictOrderedRing α] in
theorem witnessLoop_high (T : ℕ → ℕ → α) (s n k : ℕ) (v : ℕ → α) (j : ℕ) (hj : s + k ≤ j) :
    witnessLoop T s n k v j = v j := by
  induction k generalizing v with
  | zero => rfl
  | succ k ih =>
    unfold witnessLoop
    rw [ih _ (by omega), Function.update_of_ne (by omega)]

omit [LinearOrder α] [IsStrictOrderedRing α] in
theorem witnessLoop_low (T : ℕ → ℕ → α) (s n k : ℕ) (v : ℕ → α) (j : ℕ) (hj : j < s) :
    witnessLoop T s n k v j = v j := by
  induction k generalizing v with
  | zero => rfl
  | succ k ih =>
    unfold witnessLoop
    rw [ih, Function.update_of_ne (by omega)]

omit [LinearOrder α] [IsStrictOrderedRing α] in
theorem witnessLoop_eq (T : ℕ → ℕ → α) (s n k : ℕ) (v : ℕ → α) (j : ℕ) (h1 : s ≤ j) (h2 : j < s + k) :
    ltx T n (witnessLoop T s n k v) j = 0 := by
  induction k generalizing v with
  | zero => omega
  | succ k ih =>
    unfold witnessLoop
    rcases Nat.lt_or_ge j (s + k) with h | h
    · exact ih _ h
    · have hj : j = s + k := by omega
      subst hj
      unfold ltx
      rw [witnessLoop_high _ _ _ _ _ _ le_rfl]
      simp only [show s + (k + 1) - 1 = s + k from rfl, Function.update_self]
      rw [neg_add_eq_zero]
      refine Finset.sum_congr rfl fun i hi => ?_
      rw [Finset.mem_Ico] at hi
      rw [witnessLoop_high _ _ _ _ _ _ (by omega), Function.update_of_ne (by omega)]

omit [LinearOrder α] [IsStrictOrderedRing α] in
/-- The quadratic form at the witness is the last pivot. -/
theorem quadOn_witness {A T : ℕ → ℕ → α} {s m : ℕ} (h : s ≤ m)
    (hrow : ∀ r, s ≤ r → r < m + 1 → LdlRow A T s r) (hsym : SymOn A (m + 1)) (v : ℕ → α) :
    quadOn A s (m + 1) (witnessLoop T s (m + 1) (m - s) (Function.update v m 1)) = T m m := by
  rw [quadOn_ldl (by omega) hrow hsym, Finset.sum_Ico_succ_top h, Finset.sum_eq_zero]
  · have h1 : ltx T (m + 1) (witnessLoop T s (m + 1) (m - s) (Function.update v m 1)) m = 1 := by
      simp [ltx, witnessLoop_high T s (m + 1) (m - s) (Function.update v m 1) m (by omega)]
    rw [h1]; ring
  · intro j hj
    rw [Finset.mem_Ico] at hj
    rw [witnessLoop_eq _ _ _ _ _ _ hj.1 (by omega)]; ring

omit [IsStrictOrderedRing α] in
theorem not_pd_of_witness {A T : ℕ → ℕ → α} {s m : ℕ} (h : s ≤ m)
    (hrow : ∀ r, s ≤ r → r < m + 1 → LdlRow A T s r) (hsym : SymOn A (m + 1)) (hd : T m m ≤ 0) :
    ¬ PDon A s (m + 1) := by
  intro hpd
  have h1 := hpd (witnessLoop T s (m + 1) (m - s) (Function.update 0 m 1)) ⟨m, h, by omega, by
    rw [witnessLoop_high _ _ _ _ _ _ (by omega)]; simp⟩
  rw [quadOn_witness h hrow hsym] at h1
  exact absurd h1 (not_lt.2 hd)

omit [IsStrictOrderedRing α] in
theorem not_psd_of_witness {A T : ℕ → ℕ → α} {s m : ℕ} (h : s ≤ m)
    (hrow : ∀ r, s ≤ r → r < m + 1 → LdlRow A T s r) (hsym : SymOn A (m + 1)) (hd : T m m < 0) :
    ¬ PSDon A s (m + 1) := by
  intro hpd
  have h1 := hpd (witnessLoop T s (m + 1) (m - s) (Function.update 0 m 1))
  rw [quadOn_witness h hrow hsym] at h1
  exact absurd h1 (not_le.2 hd)

/-! ### restriction to sub-blocks -/

omit [LinearOrder α] [IsStrictOrderedRing α] in
theorem quadOn_pad (A : ℕ → ℕ → α) {s e s' e' : ℕ} (h1 : s ≤ s') (h2 : e' ≤ e) (x : ℕ → α) :
    quadOn A s e (fun i => if s' ≤ i ∧ i < e' then x i else 0) = quadOn A s' e' x := by
  unfold quadOn
  have hs : Ico s' e' ⊆ Ico s e := Finset.Ico_subset_Ico h1 h2
  rw [← Finset.sum_subset hs]
  · refine Finset.sum_congr rfl fun i hi => ?_
    rw [← Finset.sum_subset hs]
    · refine Finset.sum_congr rfl fun j hj => ?_
      rw [Finset.mem_Ico] at hi hj
      simp only [if_pos hi, if_pos hj]
    · intro j _ hj
      rw [Finset.mem_Ico] at hj
      simp only [if_neg hj, mul_zero]
  · intro i _ hi
    rw [Finset.mem_Ico] at hi
    simp only [if_neg hi, zero_mul, Finset.sum_const_zero]

omit [IsStrictOrderedRing α] in
theorem PDon.sub {A : ℕ → ℕ → α} {s e s' e' : ℕ} (h : PDon A s e) (h1 : s ≤ s') (h2 : e' ≤ e) :
    PDon A s' e' := by
  rintro x ⟨i, hi1, hi2, hi3⟩
  rw [← quadOn_pad A h1 h2]
  exact h _ ⟨i, by omega, by omega, by simpa [hi1, hi2] using hi3⟩

omit [IsStrictOrderedRing α] in
theorem PSDon.sub {A : ℕ → ℕ → α} {s e s' e' : ℕ} (h : PSDon A s e) (h1 : s ≤ s') (h2 : e' ≤ e) :
    PSDon A s' e' := fun x => by
  rw [← quadOn_pad A h1 h2]; exact h _

omit [IsStrictOrderedRing α] in
theorem PDon.psd {A : ℕ → ℕ → α} {s e : ℕ} (h : PDon A s e) : PSDon A s e := fun x => by
  by_cases hx : ∃ i, s ≤ i ∧ i < e ∧ x i ≠ 0
  · exact (h x hx).le
  · push Not at hx
    refine le_of_eq (Eq.symm ?_)
    unfold quadOn
    refine Finset.sum_eq_zero fun i hi => Finset.sum_eq_zero fun j _ => ?_
    rw [Finset.mem_Ico] at hi
    rw [hx i hi.1 hi.2]; ring

end Verif
