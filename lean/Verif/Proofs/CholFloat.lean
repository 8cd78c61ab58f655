import Mathlib.Algebra.Order.BigOperators.Ring.Finset
import Mathlib.Tactic.Linarith
import Mathlib.Tactic.Positivity
import Mathlib.Tactic.Ring
import Verif.Model.CholFloat
import Verif.Spec.PdSpec
import Verif.Spec.RelErr
import Verif.Proofs.CholLoop

/-! # Rounding errors of `chol_ext.factor` -/
namespace Verif
open Finset
variable {W α : Type _} [Field α] [LinearOrder α]

theorem cholInnerF_exact (getA : ℕ → ℕ → W → Except PyErr (W × α)) (start i : ℕ) : ∀ r j T d w,
    cholInnerF id exactDot getA start i r j T d w = cholInner getA start i r j T d w
  | 0, _, _, _, _ => rfl
  | r + 1, j, T, d, w => by
    unfold cholInnerF cholInner
    simp only [exactDot, id_eq, cholInnerF_exact getA start i r]
    rfl

theorem cholRowsF_exact (getA : ℕ → ℕ → W → Except PyErr (W × α)) (allow : Bool) : ∀ r i start T w,
    cholRowsF id exactDot getA allow r i start T w = cholRows getA allow r i start T w
  | 0, _, _, _, _ => rfl
  | r + 1, i, start, T, w => by
    unfold cholRowsF cholRows
    simp only [cholInnerF_exact, cholRowsF_exact getA allow r]
    rfl

/-- Without rounding, the exact model. -/
theorem factorF_exact (c : CholExt α) (getA : ℕ → ℕ → W → Except PyErr (W × α)) (w : W) :
    c.factorF id exactDot getA w = c.factor getA w := by
  unfold CholExt.factorF CholExt.factor
  rw [cholRowsF_exact]
  rfl

omit [LinearOrder α] in
theorem witnessLoopF_exact (T : ℕ → ℕ → α) (start n : ℕ) : ∀ k v,
    witnessLoopF exactDot T start n k v = witnessLoop T start n k v
  | 0, _ => rfl
  | k + 1, _ => witnessLoopF_exact T start n k _

omit [LinearOrder α] in
/-- Without rounding, the exact model. -/
theorem witnessF_exact (c : CholExt α) : c.witnessF exactDot = c.witness := by
  unfold CholExt.witnessF CholExt.witness
  simp only [witnessLoopF_exact]

variable [IsStrictOrderedRing α]

/-- Finished part of row `i`, columns `[s, j)`, up to rounding. -/
def RowToF (A T : ℕ → ℕ → α) (γ κ : α) (s i j : ℕ) : Prop :=
  ∀ k, s ≤ k → k < j → |T k i - T i k * T k k| ≤ κ * |T i k * T k k| ∧
    |A i k - (∑ m ∈ Ico s k, T i m * T m k) - T k i| ≤ γ * (∑ m ∈ Ico s k, |T i m * T m k|) + κ * |T k i|

/-- A finished row. -/
structure LdlRowF (A T : ℕ → ℕ → α) (γ κ : α) (s r : ℕ) : Prop where
  up : ∀ k, s ≤ k → k < r → |T k r - T r k * T k k| ≤ κ * |T r k * T k k|
  val : ∀ k, s ≤ k → k ≤ r →
    |A r k - (∑ m ∈ Ico s k, T r m * T m k) - T k r| ≤ γ * (∑ m ∈ Ico s k, |T r m * T m k|) + κ * |T k r|

/-- The rounded value bounds the rounding error as well. -/
theorem RelErr.back {u : α} {fl : α → α} (h : RelErr u fl) (hu : u < 1) (x : α) : |x - fl x| ≤ u / (1 - u) * |fl x| := by
  have h1 := h x
  rw [abs_sub_comm] at h1
  have h0 : 0 < 1 - u := by linarith
  have h2 : |x| ≤ |fl x| + |x - fl x| := by
    have := abs_add_le (fl x) (x - fl x)
    rwa [add_sub_cancel] at this
  rw [div_mul_eq_mul_div, le_div_iff₀ h0]
  rcases le_or_gt 0 u with hu0 | hu0
  · nlinarith
  · have h3 : |x| ≤ 0 := by
      by_contra hc
      push Not at hc
      have := abs_nonneg (x - fl x)
      nlinarith
    have hx : x = 0 := abs_nonpos_iff.1 h3
    subst hx
    have h4 : |(0 : α) - fl 0| ≤ 0 := by simpa using h1
    have h5 : fl 0 = 0 := by simpa using h4
    simp [h5]

theorem cholInnerF_spec {getA : ℕ → ℕ → W → Except PyErr (W × α)} {A : ℕ → ℕ → α} {n : ℕ} {u γ κ : α} {fl : α → α}
    {dot : ℕ → ℕ → (ℕ → α) → (ℕ → α) → α} {Pre In : ℕ → W → Prop} (hS : Serves getA A n Pre In) (hfl : RelErr u fl)
    (hu : u < 1) (hκ : κ = u / (1 - u)) (hdot : DotErr γ n dot) {s i : ℕ} (hi : i < n) :
    ∀ r j T d w, s ≤ j → j + r = i → In i w → (∀ k, s ≤ k → k < i → T k k ≠ 0) → RowToF A T γ κ s i j →
      |A i j - (∑ m ∈ Ico s j, T i m * T m j) - d| ≤ γ * (∑ m ∈ Ico s j, |T i m * T m j|) + κ * |d| →
      ∃ w' T' d', cholInnerF fl dot getA s i r j T d w = .ok (w', T', d') ∧ In i w' ∧ RowToF A T' γ κ s i i ∧
        |A i i - (∑ m ∈ Ico s i, T' i m * T' m i) - d'| ≤ γ * (∑ m ∈ Ico s i, |T' i m * T' m i|) + κ * |d'| ∧
        ∀ a b, ¬ (a = i ∧ s ≤ b ∧ b < i) → ¬ (b = i ∧ s ≤ a ∧ a < i) → T' a b = T a b := by
  intro r
  induction r with
  | zero =>
    intro j T d w hj hji hw _ hrow hd
    have : j = i := by omega
    subst this
    exact ⟨w, T, d, rfl, hw, hrow, hd, fun _ _ _ _ => rfl⟩
  | succ r ih =>
    intro j T d w hj hji hw hpiv hrow hd
    have hjlt : j < i := by omega
    set T1 := set2 T j i d with hT1
    have h11 : T1 j j = T j j := set2_ne (by omega)
    have hdiv : pyDiv d (T1 j j) = .ok (d / T j j) := by
      rw [h11, pyDiv, if_neg (hpiv j hj hjlt)]
    set T2 := set2 T1 i j (fl (d / T j j)) with hT2
    obtain ⟨w1, hg, hw1⟩ := hS.more i (j + 1) w hi (by omega) hw
    have hfr : ∀ a b, ¬ (a = i ∧ b = j) → ¬ (a = j ∧ b = i) → T2 a b = T a b := fun a b h1 h2 => by
      rw [hT2, set2_ne h1, hT1, set2_ne h2]
    have e1 : T2 i j = fl (d / T j j) := set2_eq
    have e2 : T2 j i = d := by rw [hT2, set2_ne (by omega), hT1, set2_eq]
    have hrow2 : RowToF A T2 γ κ s i (j + 1) := by
      intro k hk1 hk2
      have hterm : ∀ m ∈ Ico s k, T2 i m * T2 m k = T i m * T m k := fun m hm => by
        rw [Finset.mem_Ico] at hm
        rw [hfr i m (by omega) (by omega), hfr m k (by omega) (by omega)]
      rw [Finset.sum_congr rfl hterm, Finset.sum_congr rfl fun m hm => congrArg abs (hterm m hm)]
      rcases Nat.lt_or_ge k j with hk | hk
      · rw [hfr k i (by omega) (by omega), hfr i k (by omega) (by omega), hfr k k (by omega) (by omega)]
        exact hrow k hk1 hk
      · have hkj : k = j := by omega
        subst hkj
        rw [e1, e2, hfr k k (by omega) (by omega)]
        refine ⟨?_, hd⟩
        have hne := hpiv k hj hjlt
        have h3 := hfl.back hu (d / T k k)
        rw [← hκ] at h3
        calc |d - fl (d / T k k) * T k k| = |d / T k k - fl (d / T k k)| * |T k k| := by
              rw [← abs_mul, sub_mul, div_mul_cancel₀ _ hne]
          _ ≤ κ * |fl (d / T k k)| * |T k k| := mul_le_mul_of_nonneg_right h3 (abs_nonneg _)
          _ = _ := by rw [abs_mul, mul_assoc]
    have hd2 : |A i (j + 1) - (∑ m ∈ Ico s (j + 1), T2 i m * T2 m (j + 1)) -
        fl (A i (j + 1) - dot s (j + 1) (T2 i) (fun m => T2 m (j + 1)))| ≤
        γ * (∑ m ∈ Ico s (j + 1), |T2 i m * T2 m (j + 1)|) +
          κ * |fl (A i (j + 1) - dot s (j + 1) (T2 i) (fun m => T2 m (j + 1)))| := by
      have h3 := hfl.back hu (A i (j + 1) - dot s (j + 1) (T2 i) (fun m => T2 m (j + 1)))
      have h4 := hdot s (j + 1) (T2 i) (fun m => T2 m (j + 1)) (by omega)
      rw [← hκ] at h3
      rw [abs_le] at *
      constructor <;> linarith [h3.1, h3.2, h4.1, h4.2]
    obtain ⟨w', T', d', h1, h2, h3, h4, h5⟩ := ih (j + 1) T2 _ w1 (by omega) (by omega) hw1
      (fun k hk1 hk2 => by rw [hfr k k (by omega) (by omega)]; exact hpiv k hk1 hk2) hrow2 hd2
    refine ⟨w', T', d', ?_, h2, h3, h4, fun a b ha hb => ?_⟩
    · unfold cholInnerF
      simp only [← hT1, hdiv, ← hT2, hg]
      exact h1
    · rw [h5 a b ha hb, hfr a b (by omega) (by omega)]

omit [IsStrictOrderedRing α] in
theorem LdlRowF.congr {A T T' : ℕ → ℕ → α} {γ κ : α} {s r : ℕ} (h : LdlRowF A T γ κ s r)
    (hT : ∀ a b, s ≤ a → s ≤ b → a ≤ r → b ≤ r → T' a b = T a b) : LdlRowF A T' γ κ s r := by
  refine ⟨fun j h1 h2 => ?_, fun j h1 h2 => ?_⟩
  · rw [hT j r (by omega) (by omega) (by omega) (by omega), hT r j (by omega) (by omega) (by omega) (by omega),
      hT j j (by omega) (by omega) (by omega) (by omega)]
    exact h.up j h1 h2
  · have hterm : ∀ m ∈ Ico s j, T' r m * T' m j = T r m * T m j := fun m hm => by
      rw [Finset.mem_Ico] at hm
      rw [hT r m (by omega) (by omega) (by omega) (by omega), hT m j (by omega) (by omega) (by omega) (by omega)]
    rw [Finset.sum_congr rfl hterm, Finset.sum_congr rfl fun m hm => congrArg abs (hterm m hm),
      hT j r (by omega) (by omega) (by omega) (by omega)]
    exact h.val j h1 h2

/-- What the outer loop, entered at block start `s`, establishes. -/
structure RowsPostF (A : ℕ → ℕ → α) (γ κ : α) (n : ℕ) (allow : Bool) (s : ℕ) (T' : ℕ → ℕ → α) (p : ℕ × ℕ) : Prop where
  fail : p.2 ≠ 0 → ∃ m, p.2 = m + 1 ∧ s ≤ p.1 ∧ p.1 ≤ m ∧ m < n ∧
    (∀ r, p.1 ≤ r → r < m + 1 → LdlRowF A T' γ κ p.1 r) ∧ (∀ r, p.1 ≤ r → r < m → 0 < T' r r) ∧
    T' m m ≤ 0 ∧ (allow = true → T' m m < 0) ∧ (allow = false → p.1 = s)
  good : p.2 = 0 → p = (0, 0) ∧ (allow = false →
    (∀ r, s ≤ r → r < n → LdlRowF A T' γ κ s r) ∧ ∀ r, s ≤ r → r < n → 0 < T' r r)

theorem cholRowsF_spec {getA : ℕ → ℕ → W → Except PyErr (W × α)} {A : ℕ → ℕ → α} {n : ℕ} {u γ κ : α} {fl : α → α}
    {dot : ℕ → ℕ → (ℕ → α) → (ℕ → α) → α} {Pre In : ℕ → W → Prop} (hS : Serves getA A n Pre In) (hfl : RelErr u fl)
    (hu0 : 0 ≤ u) (hu : u < 1) (hκ : κ = u / (1 - u)) (hdot : DotErr γ n dot) (allow : Bool) :
    ∀ r i s T w, s ≤ i → i + r = n → Pre i w → (∀ k, s ≤ k → k < i → LdlRowF A T γ κ s k) →
      (∀ k, s ≤ k → k < i → 0 < T k k) →
      ∃ w' T' p, cholRowsF fl dot getA allow r i s T w = .ok (w', T', p) ∧ RowsPostF A γ κ n allow s T' p ∧
        (p.2 = 0 → Pre n w') ∧ (∀ m, p.2 = m + 1 → In m w') := by
  have hκ0 : 0 ≤ κ := by rw [hκ]; exact div_nonneg hu0 (by linarith)
  intro r
  induction r with
  | zero =>
    intro i s T w hs hin hw hrow hpos
    have hin' : i = n := by omega
    subst hin'
    exact ⟨w, T, (0, 0), rfl, ⟨fun h => absurd rfl h, fun _ => ⟨rfl, fun _ => ⟨hrow, hpos⟩⟩⟩,
      fun _ => hw, fun m hm => absurd hm (by simp)⟩
  | succ r ih =>
    intro i s T w hs hin hw hrow hpos
    have hi : i < n := by omega
    obtain ⟨w1, hg, hw1⟩ := hS.first i s w hi hs hw
    obtain ⟨w2, T1, d, h1, hw2, hrowi, hd, hfr⟩ := cholInnerF_spec hS hfl hu hκ hdot hi (i - s) s T (A i s) w1 le_rfl
      (by omega) hw1 (fun k h1 h2 => (hpos k h1 h2).ne') (fun k h1 h2 => by omega) (by simp; positivity)
    set T2 := set2 T1 i i d with hT2
    have hfr2 : ∀ a b, a < i → b < i → T2 a b = T a b := fun a b ha hb => by
      rw [hT2, set2_ne (by omega), hfr a b (by omega) (by omega)]
    have hrow2 : ∀ k, s ≤ k → k < i + 1 → LdlRowF A T2 γ κ s k := by
      intro k hk1 hk2
      rcases Nat.lt_or_ge k i with hk | hk
      · exact (hrow k hk1 hk).congr fun a b _ _ ha hb => hfr2 a b (by omega) (by omega)
      · have hki : k = i := by omega
        subst hki
        refine ⟨fun j hj1 hj2 => ?_, fun j hj1 hj2 => ?_⟩
        · rw [hT2, set2_ne (by omega), set2_ne (by omega), set2_ne (by omega)]
          exact (hrowi j hj1 hj2).1
        · have hterm : ∀ m ∈ Ico s j, T2 k m * T2 m j = T1 k m * T1 m j := fun m hm => by
            rw [Finset.mem_Ico] at hm
            rw [hT2, set2_ne (by omega), set2_ne (by omega)]
          rw [Finset.sum_congr rfl hterm, Finset.sum_congr rfl fun m hm => congrArg abs (hterm m hm)]
          rcases Nat.lt_or_ge j k with hjk | hjk
          · rw [hT2, set2_ne (by omega)]
            exact (hrowi j hj1 hjk).2
          · have hjk' : j = k := by omega
            subst hjk'
            rw [hT2, set2_eq]; exact hd
    have hTii : T2 i i = d := set2_eq
    have hpos2 : ∀ k, s ≤ k → k < i → 0 < T2 k k := fun k hk1 hk2 => by
      rw [hfr2 k k hk2 hk2]; exact hpos k hk1 hk2
    have hrun : ∀ R, (if 0 < d then cholRowsF fl dot getA allow r (i + 1) s T2 w2
        else if d < 0 ∨ allow = false then .ok (w2, T2, (s, i + 1))
        else cholRowsF fl dot getA allow r (i + 1) (i + 1) T2 w2) = R →
        cholRowsF fl dot getA allow (r + 1) i s T w = R := by
      intro R hR
      unfold cholRowsF
      simp only [hg, h1, ← hT2]
      exact hR
    by_cases hd0 : 0 < d
    · obtain ⟨w', T', p, e1, e2, e4, e5⟩ := ih (i + 1) s T2 w2 (by omega) (by omega)
        (hS.next i w2 hw2) hrow2 (fun k hk1 hk2 => by
          rcases Nat.lt_or_ge k i with hk | hk
          · exact hpos2 k hk1 hk
          · have : k = i := by omega
            subst this; rw [hTii]; exact hd0)
      exact ⟨w', T', p, hrun _ (by rw [if_pos hd0]; exact e1), e2, e4, e5⟩
    · have hdle : T2 i i ≤ 0 := by rw [hTii]; exact not_lt.1 hd0
      by_cases hd1 : d < 0 ∨ allow = false
      · refine ⟨w2, T2, (s, i + 1), hrun _ (by rw [if_neg hd0, if_pos hd1]), ⟨fun _ =>
          ⟨i, rfl, le_rfl, hs, hi, hrow2, hpos2, hdle, ?_, fun _ => rfl⟩, fun h => by simp at h⟩,
          fun h => by simp at h, fun m hm => ?_⟩
        · intro ha
          rw [hTii]
          rcases hd1 with h | h
          · exact h
          · rw [ha] at h; exact absurd h (by decide)
        · simp only [Nat.add_right_cancel_iff] at hm; subst hm; exact hw2
      · push Not at hd1
        have hall : allow = true := by simpa using hd1.2
        obtain ⟨w', T', p, e1, e2, e4, e5⟩ := ih (i + 1) (i + 1) T2 w2 le_rfl (by omega)
          (hS.next i w2 hw2) (fun k h1 h2 => by omega) (fun k h1 h2 => by omega)
        refine ⟨w', T', p, hrun _ (by rw [if_neg hd0, if_neg (by push Not; exact hd1)]; exact e1),
          ⟨fun hp => ?_, fun hp => ⟨(e2.good hp).1, fun h => by rw [hall] at h; exact absurd h (by decide)⟩⟩, e4, e5⟩
        obtain ⟨m, f1, f2, f3, f4, f5, f6, f7, f8, f9⟩ := e2.fail hp
        exact ⟨m, f1, by omega, f3, f4, f5, f6, f7, f8, fun h => by rw [hall] at h; exact absurd h (by decide)⟩

/-- `factor` on any object state: outcome and invariants. -/
theorem factorF_spec {getA : ℕ → ℕ → W → Except PyErr (W × α)} {A : ℕ → ℕ → α} {u γ κ : α} {fl : α → α}
    {dot : ℕ → ℕ → (ℕ → α) → (ℕ → α) → α} {Pre In : ℕ → W → Prop} (c : CholExt α) (hS : Serves getA A c.n Pre In)
    (hfl : RelErr u fl) (hu0 : 0 ≤ u) (hu : u < 1) (hκ : κ = u / (1 - u)) (hdot : DotErr γ c.n dot) {w : W} (hw : Pre 0 w) :
    ∃ w' T' p, c.factorF fl dot getA w = .ok (w', { c with p := p, T := T' }, p.2 == 0) ∧
      RowsPostF A γ κ c.n c.allowSemidefinite 0 T' p ∧ (p.2 = 0 → Pre c.n w') ∧ (∀ m, p.2 = m + 1 → In m w') := by
  obtain ⟨w', T', p, h1, h2, h4, h5⟩ := cholRowsF_spec hS hfl hu0 hu hκ hdot c.allowSemidefinite c.n 0 0 c.T w le_rfl
    (by omega) hw (fun k _ h => absurd h (by omega)) (fun k _ h => absurd h (by omega))
  exact ⟨w', T', p, by simp only [CholExt.factorF, h1, CholExt.isSpd], h2, h4, h5⟩

/-! ## From the rounded recurrences to a backward error -/

/-- The unit lower triangular factor. -/
def lowL (T : ℕ → ℕ → α) (i k : ℕ) : α := if k < i then T i k else if k = i then 1 else 0

omit [LinearOrder α] [IsStrictOrderedRing α] in
theorem lowL_lt {T : ℕ → ℕ → α} {i k : ℕ} (h : k < i) : lowL T i k = T i k := if_pos h

omit [LinearOrder α] [IsStrictOrderedRing α] in
theorem lowL_eq {T : ℕ → ℕ → α} {i : ℕ} : lowL T i i = 1 := by simp [lowL]

omit [LinearOrder α] [IsStrictOrderedRing α] in
theorem lowL_gt {T : ℕ → ℕ → α} {i k : ℕ} (h : i < k) : lowL T i k = 0 := by
  rw [lowL, if_neg (by omega), if_neg (by omega)]

/-- Entrywise backward error. -/
theorem ldl_err {A T : ℕ → ℕ → α} {γ κ θ : α} {s e : ℕ} (hγ : 0 ≤ γ) (hκ : 0 ≤ κ) (h1 : κ + γ * (1 + κ) ≤ θ)
    (h2 : κ * (2 + κ) ≤ θ) (hrow : ∀ r, s ≤ r → r < e → LdlRowF A T γ κ s r) {i k : ℕ} (hk : s ≤ k) (hki : k ≤ i) (hi : i < e) :
    |A i k - ∑ m ∈ Ico s e, lowL T i m * T m m * lowL T k m| ≤
      θ * ∑ m ∈ Ico s e, |lowL T i m| * |T m m| * |lowL T k m| := by
  have hr := hrow i (by omega) hi
  have split : ∀ f : ℕ → α, (∀ m, k < m → f m = 0) → ∑ m ∈ Ico s e, f m = (∑ m ∈ Ico s k, f m) + f k := by
    intro f hf
    rw [← Finset.sum_Ico_consecutive f (show s ≤ k + 1 by omega) (show k + 1 ≤ e by omega),
      Finset.sum_eq_zero (s := Ico (k + 1) e) (fun m hm => hf m (by rw [Finset.mem_Ico] at hm; omega)), add_zero,
      Finset.sum_Ico_succ_top hk]
  rw [split _ (fun m hm => by rw [lowL_gt hm, mul_zero]), split _ (fun m hm => by rw [lowL_gt hm, abs_zero, mul_zero]), lowL_eq,
    mul_one, abs_one, mul_one]
  have e1 : ∑ m ∈ Ico s k, lowL T i m * T m m * lowL T k m = ∑ m ∈ Ico s k, T i m * (T k m * T m m) :=
    Finset.sum_congr rfl fun m hm => by
      rw [Finset.mem_Ico] at hm
      rw [lowL_lt (by omega), lowL_lt (by omega)]; ring
  have e2 : ∑ m ∈ Ico s k, |lowL T i m| * |T m m| * |lowL T k m| = ∑ m ∈ Ico s k, |T i m * (T k m * T m m)| :=
    Finset.sum_congr rfl fun m hm => by
      rw [Finset.mem_Ico] at hm
      rw [lowL_lt (by omega), lowL_lt (by omega), abs_mul, abs_mul]; ring
  rw [e1, e2]
  set G := ∑ m ∈ Ico s k, |T i m * (T k m * T m m)| with hG
  have hG0 : 0 ≤ G := Finset.sum_nonneg fun _ _ => abs_nonneg _
  have hup : ∀ m ∈ Ico s k, |T i m * T m k - T i m * (T k m * T m m)| ≤ κ * |T i m * (T k m * T m m)| := fun m hm => by
    rw [Finset.mem_Ico] at hm
    have := (hrow k hk (by omega)).up m hm.1 hm.2
    rw [← mul_sub, abs_mul, abs_mul (T i m)]
    calc _ ≤ |T i m| * (κ * |T k m * T m m|) := mul_le_mul_of_nonneg_left this (abs_nonneg _)
      _ = _ := by ring
  have h3 : |(∑ m ∈ Ico s k, T i m * T m k) - ∑ m ∈ Ico s k, T i m * (T k m * T m m)| ≤ κ * G := by
    rw [← Finset.sum_sub_distrib, hG, Finset.mul_sum]
    exact (Finset.abs_sum_le_sum_abs _ _).trans (Finset.sum_le_sum hup)
  have h4 : ∑ m ∈ Ico s k, |T i m * T m k| ≤ (1 + κ) * G := by
    rw [hG, Finset.mul_sum]
    refine Finset.sum_le_sum fun m hm => ?_
    have h5 := hup m hm
    have h6 := abs_sub_abs_le_abs_sub (T i m * T m k) (T i m * (T k m * T m m))
    linarith
  have h5 := hr.val k hk hki
  have h6 : γ * (∑ m ∈ Ico s k, |T i m * T m k|) ≤ γ * ((1 + κ) * G) := mul_le_mul_of_nonneg_left h4 hγ
  have h7 : |T k i - lowL T i k * T k k| ≤ κ * (|lowL T i k| * |T k k|) := by
    rcases Nat.lt_or_ge k i with h | h
    · rw [lowL_lt h, ← abs_mul]; exact hr.up k hk h
    · have : k = i := by omega
      subst this
      rw [lowL_eq]; simp; positivity
  set H := |lowL T i k| * |T k k| with hH
  have hH0 : 0 ≤ H := by positivity
  have h8 : |T k i| ≤ (1 + κ) * H := by
    have := abs_sub_abs_le_abs_sub (T k i) (lowL T i k * T k k)
    rw [abs_mul, ← hH] at this
    linarith
  have h9 : κ * |T k i| ≤ κ * ((1 + κ) * H) := mul_le_mul_of_nonneg_left h8 hκ
  have h10 : (κ + γ * (1 + κ)) * G ≤ θ * G := mul_le_mul_of_nonneg_right h1 hG0
  have h11 : κ * (2 + κ) * H ≤ θ * H := mul_le_mul_of_nonneg_right h2 hH0
  have h12 : (κ + γ * (1 + κ)) * G + κ * (2 + κ) * H = γ * ((1 + κ) * G) + κ * ((1 + κ) * H) + κ * G + κ * H := by ring
  rw [abs_le] at *
  constructor <;> linarith [h3.1, h3.2, h5.1, h5.2, h7.1, h7.2]

omit [LinearOrder α] [IsStrictOrderedRing α] in
/-- `x' (L D L') x = Σ_m D_m (L'x)_m²`. -/
theorem gram_quad (S I : Finset ℕ) (a : ℕ → ℕ → α) (d x : ℕ → α) :
    ∑ i ∈ I, ∑ j ∈ I, x i * (∑ m ∈ S, a i m * d m * a j m) * x j = ∑ m ∈ S, d m * (∑ i ∈ I, a i m * x i) ^ 2 := by
  have h : ∀ m, d m * (∑ i ∈ I, a i m * x i) ^ 2 = ∑ i ∈ I, ∑ j ∈ I, x i * (a i m * d m * a j m) * x j := by
    intro m
    rw [sq, Finset.sum_mul_sum, Finset.mul_sum]
    refine Finset.sum_congr rfl fun i _ => ?_
    rw [Finset.mul_sum]
    exact Finset.sum_congr rfl fun j _ => by ring
  rw [Finset.sum_congr rfl fun m _ => h m]
  symm
  rw [Finset.sum_comm]
  refine Finset.sum_congr rfl fun i _ => ?_
  rw [Finset.sum_comm]
  refine Finset.sum_congr rfl fun j _ => ?_
  rw [Finset.mul_sum, Finset.sum_mul]

/-- Backward error of the quadratic form. -/
theorem quad_err {A T : ℕ → ℕ → α} {γ κ θ : α} {s e : ℕ} (hγ : 0 ≤ γ) (hκ : 0 ≤ κ) (h1 : κ + γ * (1 + κ) ≤ θ)
    (h2 : κ * (2 + κ) ≤ θ) (hrow : ∀ r, s ≤ r → r < e → LdlRowF A T γ κ s r) (hsym : SymOn A e) (x : ℕ → α) :
    |quadOn A s e x - ∑ m ∈ Ico s e, T m m * (∑ i ∈ Ico s e, lowL T i m * x i) ^ 2| ≤
      θ * ∑ m ∈ Ico s e, |T m m| * (∑ i ∈ Ico s e, |lowL T i m| * |x i|) ^ 2 := by
  rw [← gram_quad, ← gram_quad, quadOn, ← Finset.sum_sub_distrib, Finset.mul_sum]
  refine (Finset.abs_sum_le_sum_abs _ _).trans (Finset.sum_le_sum fun i hi => ?_)
  rw [← Finset.sum_sub_distrib, Finset.mul_sum]
  refine (Finset.abs_sum_le_sum_abs _ _).trans (Finset.sum_le_sum fun j hj => ?_)
  rw [Finset.mem_Ico] at hi hj
  have key : |A i j - ∑ m ∈ Ico s e, lowL T i m * T m m * lowL T j m| ≤
      θ * ∑ m ∈ Ico s e, |lowL T i m| * |T m m| * |lowL T j m| := by
    rcases le_total j i with h | h
    · exact ldl_err hγ hκ h1 h2 hrow hj.1 h hi.2
    · have := ldl_err hγ hκ h1 h2 hrow hi.1 h hj.2
      rw [hsym i j hi.2 hj.2]
      calc _ = |A j i - ∑ m ∈ Ico s e, lowL T j m * T m m * lowL T i m| := by
            congr 2; exact Finset.sum_congr rfl fun m _ => by ring
        _ ≤ _ := this
        _ = _ := by congr 1; exact Finset.sum_congr rfl fun m _ => by ring
  rw [← sub_mul, ← mul_sub, abs_mul, abs_mul]
  calc _ ≤ |x i| * (θ * ∑ m ∈ Ico s e, |lowL T i m| * |T m m| * |lowL T j m|) * |x j| :=
        mul_le_mul_of_nonneg_right (mul_le_mul_of_nonneg_left key (abs_nonneg _)) (abs_nonneg _)
    _ = _ := by ring

/-- Cauchy–Schwarz, summed up. -/
theorem gram_le {S I : Finset ℕ} {a : ℕ → ℕ → α} {d x r : ℕ → α} {c : α} (hc : 0 ≤ c) (hd : ∀ m ∈ S, 0 ≤ d m)
    (hx : ∀ i, 0 ≤ x i) (hr : ∀ i, 0 ≤ r i) (h : ∀ i ∈ I, ∑ m ∈ S, a i m * d m * a i m ≤ c * r i ^ 2) :
    ∑ m ∈ S, d m * (∑ i ∈ I, a i m * x i) ^ 2 ≤ c * (∑ i ∈ I, r i * x i) ^ 2 := by
  rw [← gram_quad, sq, Finset.sum_mul_sum, Finset.mul_sum]
  refine Finset.sum_le_sum fun i hi => ?_
  rw [Finset.mul_sum]
  refine Finset.sum_le_sum fun j hj => ?_
  have key : ∑ m ∈ S, a i m * d m * a j m ≤ c * (r i * r j) := by
    have h1 := Finset.sum_sq_le_sum_mul_sum_of_sq_le_mul S (r := fun m => a i m * d m * a j m)
      (f := fun m => a i m * d m * a i m) (g := fun m => a j m * d m * a j m)
      (fun m hm => by have := mul_nonneg (hd m hm) (mul_self_nonneg (a i m)); linarith [show a i m * d m * a i m = d m * (a i m * a i m) by ring])
      (fun m hm => by have := mul_nonneg (hd m hm) (mul_self_nonneg (a j m)); linarith [show a j m * d m * a j m = d m * (a j m * a j m) by ring])
      (fun m _ => le_of_eq (by ring))
    have h2 : (∑ m ∈ S, a i m * d m * a i m) * (∑ m ∈ S, a j m * d m * a j m) ≤ (c * r i ^ 2) * (c * r j ^ 2) := by
      refine mul_le_mul (h i hi) (h j hj) (Finset.sum_nonneg fun m hm => ?_) (by positivity)
      have := mul_nonneg (hd m hm) (mul_self_nonneg (a j m))
      linarith [show a j m * d m * a j m = d m * (a j m * a j m) by ring]
    have h3 : 0 ≤ c * (r i * r j) := mul_nonneg hc (mul_nonneg (hr i) (hr j))
    refine le_of_abs_le (abs_le_of_sq_le_sq ?_ h3)
    calc _ ≤ _ := h1
      _ ≤ _ := h2
      _ = _ := by ring
  calc _ ≤ x i * (c * (r i * r j)) * x j :=
        mul_le_mul_of_nonneg_right (mul_le_mul_of_nonneg_left key (hx i)) (hx j)
    _ = _ := by ring

omit [LinearOrder α] [IsStrictOrderedRing α] in
/-- `(L'x)_k = x_k + Σ_{i > k} L_ik x_i`. -/
theorem lowL_sum {T : ℕ → ℕ → α} {s e k : ℕ} (hk : s ≤ k) (hke : k < e) (x : ℕ → α) :
    ∑ i ∈ Ico s e, lowL T i k * x i = x k + ∑ i ∈ Ico (k + 1) e, T i k * x i := by
  rw [← Finset.sum_Ico_consecutive _ hk hke.le, Finset.sum_eq_zero (s := Ico s k), zero_add, Finset.sum_eq_sum_Ico_succ_bot hke,
    lowL_eq, one_mul]
  · congr 1
    refine Finset.sum_congr rfl fun i hi => ?_
    rw [Finset.mem_Ico] at hi
    rw [lowL_lt (by omega)]
  · intro i hi
    rw [Finset.mem_Ico] at hi
    rw [lowL_gt (by omega), zero_mul]

/-- All pivots positive: the form is positive up to the rounding errors. -/
theorem quad_of_pivots {A T : ℕ → ℕ → α} {γ κ θ : α} {s e : ℕ} (hγ : 0 ≤ γ) (hκ : 0 ≤ κ) (h1 : κ + γ * (1 + κ) ≤ θ)
    (h2 : κ * (2 + κ) ≤ θ) (hθ : θ ≤ 1 / 5) (hrow : ∀ r, s ≤ r → r < e → LdlRowF A T γ κ s r) (hsym : SymOn A e)
    (hpos : ∀ r, s ≤ r → r < e → 0 < T r r) {ρ : ℕ → α} (hρ0 : ∀ i, 0 ≤ ρ i) (hρ : ∀ i, s ≤ i → i < e → A i i ≤ ρ i ^ 2)
    {x : ℕ → α} (hx : ∃ i, s ≤ i ∧ i < e ∧ x i ≠ 0) :
    -(5 / 4 * θ * (∑ i ∈ Ico s e, ρ i * |x i|) ^ 2) < quadOn A s e x := by
  have hθ0 : 0 ≤ θ := le_trans (by positivity) h2
  have herr := quad_err hγ hκ h1 h2 hrow hsym x
  have habs : ∀ m ∈ Ico s e, |T m m| = T m m := fun m hm => by
    rw [Finset.mem_Ico] at hm
    exact abs_of_pos (hpos m hm.1 hm.2)
  have hN : ∑ m ∈ Ico s e, |T m m| * (∑ i ∈ Ico s e, |lowL T i m| * |x i|) ^ 2 ≤ 5 / 4 * (∑ i ∈ Ico s e, ρ i * |x i|) ^ 2 := by
    refine gram_le (a := fun i m => |lowL T i m|) (d := fun m => |T m m|) (x := fun i => |x i|) (by norm_num)
      (fun m _ => abs_nonneg _) (fun i => abs_nonneg _) hρ0 fun i hi => ?_
    rw [Finset.mem_Ico] at hi
    have h3 := ldl_err hγ hκ h1 h2 hrow hi.1 le_rfl hi.2
    have h4 : ∑ m ∈ Ico s e, lowL T i m * T m m * lowL T i m = ∑ m ∈ Ico s e, |lowL T i m| * |T m m| * |lowL T i m| :=
      Finset.sum_congr rfl fun m hm => by
        rw [habs m hm, mul_right_comm, mul_right_comm |lowL T i m|, abs_mul_abs_self]
    rw [h4] at h3
    have h5 := hρ i hi.1 hi.2
    have h6 : 0 ≤ ∑ m ∈ Ico s e, |lowL T i m| * |T m m| * |lowL T i m| := Finset.sum_nonneg fun _ _ => by positivity
    have h7 := mul_le_mul_of_nonneg_right hθ h6
    linarith [(abs_le.1 h3).1]
  have hP : 0 < ∑ m ∈ Ico s e, T m m * (∑ i ∈ Ico s e, lowL T i m * x i) ^ 2 := by
    have hfin : ((Ico s e).filter fun i => x i ≠ 0).Nonempty := by
      obtain ⟨i, a, b, c⟩ := hx
      exact ⟨i, by simp [a, b, c]⟩
    obtain ⟨k, hk, hmax⟩ := Finset.exists_max_image _ id hfin
    rw [Finset.mem_filter, Finset.mem_Ico] at hk
    refine Finset.sum_pos' (fun m hm => ?_) ⟨k, Finset.mem_Ico.2 hk.1, ?_⟩
    · rw [Finset.mem_Ico] at hm
      exact mul_nonneg (hpos m hm.1 hm.2).le (sq_nonneg _)
    · rw [lowL_sum hk.1.1 hk.1.2, Finset.sum_eq_zero, add_zero]
      · exact mul_pos (hpos k hk.1.1 hk.1.2) (sq_pos_of_ne_zero hk.2)
      · intro i hi
        rw [Finset.mem_Ico] at hi
        by_contra hc
        have := hmax i (by rw [Finset.mem_filter, Finset.mem_Ico]; exact ⟨by omega, right_ne_zero_of_mul hc⟩)
        simp only [id_eq] at this
        omega
  have h8 := mul_le_mul_of_nonneg_left hN hθ0
  have h9 := (abs_le.1 herr).1
  linarith

/-- A nonpositive pivot with a nearly exact solution of `L'x = e_m`: the form at `x` is the pivot, up to the rounding errors. -/
theorem quad_of_fail {A T : ℕ → ℕ → α} {γ κ θ : α} {s m : ℕ} (hsm : s ≤ m) (hγ : 0 ≤ γ) (hκ : 0 ≤ κ) (h1 : κ + γ * (1 + κ) ≤ θ)
    (h2 : κ * (2 + κ) ≤ θ) (hθ : θ ≤ 1 / 5) (hrow : ∀ r, s ≤ r → r < m + 1 → LdlRowF A T γ κ s r) (hsym : SymOn A (m + 1))
    (hpos : ∀ r, s ≤ r → r < m → 0 < T r r) (hm : T m m ≤ 0) {ρ : ℕ → α} (hρ0 : ∀ i, 0 ≤ ρ i)
    (hρ : ∀ i, s ≤ i → i ≤ m → A i i ≤ ρ i ^ 2) {x : ℕ → α} (hxm : x m = 1)
    (hx : ∀ k, s ≤ k → k < m → |x k + ∑ i ∈ Ico (k + 1) (m + 1), T i k * x i| ≤ γ * ∑ i ∈ Ico (k + 1) (m + 1), |T i k * x i|) :
    quadOn A s (m + 1) x ≤ 3 * θ * (∑ i ∈ Ico s (m + 1), ρ i * |x i|) ^ 2 ∧
    |quadOn A s (m + 1) x - T m m| ≤ 5 * θ * ((∑ i ∈ Ico s (m + 1), ρ i * |x i|) ^ 2 - T m m) := by
  have hθ0 : 0 ≤ θ := le_trans (by positivity) h2
  have hγθ : γ ≤ θ := by nlinarith [mul_nonneg hγ hκ]
  have herr := quad_err hγ hκ h1 h2 hrow hsym x
  have habs : ∀ k ∈ Ico s m, |T k k| = T k k := fun k hk => by
    rw [Finset.mem_Ico] at hk
    exact abs_of_pos (hpos k hk.1 hk.2)
  rw [Finset.sum_Ico_succ_top hsm, Finset.sum_Ico_succ_top hsm (fun k => |T k k| * _), lowL_sum hsm (Nat.lt_succ_self m),
    Finset.Ico_self, Finset.sum_empty, hxm] at herr
  have hz : ∑ i ∈ Ico s (m + 1), |lowL T i m| * |x i| = 1 := by
    rw [Finset.sum_Ico_succ_top hsm, lowL_eq, hxm, Finset.sum_eq_zero]
    · simp
    · intro i hi
      rw [Finset.mem_Ico] at hi
      rw [lowL_gt hi.2]; simp
  have hB' : ∑ k ∈ Ico s m, |T k k| * (∑ i ∈ Ico s (m + 1), |lowL T i k| * |x i|) ^ 2 =
      ∑ k ∈ Ico s m, T k k * (∑ i ∈ Ico s (m + 1), |lowL T i k| * |x i|) ^ 2 :=
    Finset.sum_congr rfl fun k hk => by rw [habs k hk]
  rw [hz, abs_of_nonpos hm, hB', add_zero, one_pow, mul_one, mul_one] at herr
  set B := ∑ k ∈ Ico s m, T k k * (∑ i ∈ Ico s (m + 1), |lowL T i k| * |x i|) ^ 2 with hB
  set δ := -T m m with hδ
  have hδ0 : 0 ≤ δ := by linarith
  have hTm : T m m = -δ := by linarith
  rw [hTm] at herr ⊢
  -- the residual of the computed certificate
  have hw : ∑ k ∈ Ico s m, T k k * (∑ i ∈ Ico s (m + 1), lowL T i k * x i) ^ 2 ≤ γ ^ 2 * B := by
    rw [hB, Finset.mul_sum]
    refine Finset.sum_le_sum fun k hk => ?_
    have hk' := hk
    rw [Finset.mem_Ico] at hk
    have h3 := hx k hk.1 hk.2
    rw [← lowL_sum hk.1 (by omega)] at h3
    have h4 : ∑ i ∈ Ico (k + 1) (m + 1), |T i k * x i| ≤ ∑ i ∈ Ico s (m + 1), |lowL T i k| * |x i| := by
      calc _ = ∑ i ∈ Ico (k + 1) (m + 1), |lowL T i k| * |x i| := Finset.sum_congr rfl fun i hi => by
            rw [Finset.mem_Ico] at hi
            rw [lowL_lt (by omega), abs_mul]
        _ ≤ _ := Finset.sum_le_sum_of_subset_of_nonneg (Finset.Ico_subset_Ico (by omega) le_rfl) fun _ _ _ => by positivity
    have h5 : |∑ i ∈ Ico s (m + 1), lowL T i k * x i| ≤ γ * ∑ i ∈ Ico s (m + 1), |lowL T i k| * |x i| :=
      h3.trans (mul_le_mul_of_nonneg_left h4 hγ)
    have h6 := sq_le_sq' (by linarith [(abs_le.1 h5).1]) (abs_le.1 h5).2
    have h7 := mul_le_mul_of_nonneg_left h6 (hpos k hk.1 hk.2).le
    linarith [show T k k * (γ * ∑ i ∈ Ico s (m + 1), |lowL T i k| * |x i|) ^ 2 =
      γ ^ 2 * (T k k * (∑ i ∈ Ico s (m + 1), |lowL T i k| * |x i|) ^ 2) by ring]
  have hw0 : 0 ≤ ∑ k ∈ Ico s m, T k k * (∑ i ∈ Ico s (m + 1), lowL T i k * x i) ^ 2 := Finset.sum_nonneg fun k hk => by
    rw [Finset.mem_Ico] at hk
    exact mul_nonneg (hpos k hk.1 hk.2).le (sq_nonneg _)
  -- the size of the rounding errors
  set Y := ∑ i ∈ Ico s m, ρ i * |x i| with hY
  have hX : ∑ i ∈ Ico s (m + 1), ρ i * |x i| = Y + ρ m := by
    rw [Finset.sum_Ico_succ_top hsm, hxm, abs_one, mul_one]
  rw [hX]
  have hY0 : 0 ≤ Y := Finset.sum_nonneg fun i _ => mul_nonneg (hρ0 i) (abs_nonneg _)
  set S := ∑ k ∈ Ico s m, |lowL T m k| * T k k * |lowL T m k| with hS
  have hS0 : 0 ≤ S := Finset.sum_nonneg fun k hk => by
    rw [Finset.mem_Ico] at hk
    have := hpos k hk.1 hk.2
    positivity
  have hSle : S ≤ 5 / 4 * ρ m ^ 2 + 3 / 2 * δ := by
    have h3 := ldl_err hγ hκ h1 h2 hrow hsm le_rfl (Nat.lt_succ_self m)
    rw [Finset.sum_Ico_succ_top hsm, Finset.sum_Ico_succ_top hsm (fun k => |lowL T m k| * _ * _), lowL_eq, hTm, abs_neg, abs_of_nonneg hδ0] at h3
    have h4 : ∑ k ∈ Ico s m, lowL T m k * T k k * lowL T m k = S := Finset.sum_congr rfl fun k hk => by
      rw [mul_right_comm, mul_right_comm |lowL T m k|, abs_mul_abs_self]
    have h5 : ∑ k ∈ Ico s m, |lowL T m k| * |T k k| * |lowL T m k| = S := Finset.sum_congr rfl fun k hk => by rw [habs k hk]
    rw [h4, h5] at h3
    simp only [one_mul, mul_one, abs_one] at h3
    have h6 := hρ m hsm le_rfl
    have h7 := mul_le_mul_of_nonneg_right hθ hS0
    have h8 := mul_le_mul_of_nonneg_right hθ hδ0
    linarith [(abs_le.1 h3).1]
  have hyle : ∑ k ∈ Ico s m, T k k * (∑ i ∈ Ico s m, |lowL T i k| * |x i|) ^ 2 ≤ 5 / 4 * Y ^ 2 := by
    refine gram_le (a := fun i k => |lowL T i k|) (d := fun k => T k k) (x := fun i => |x i|) (by norm_num)
      (fun k hk => ?_) (fun i => abs_nonneg _) hρ0 fun i hi => ?_
    · rw [Finset.mem_Ico] at hk
      exact (hpos k hk.1 hk.2).le
    · rw [Finset.mem_Ico] at hi
      have h3 := ldl_err hγ hκ h1 h2 hrow hi.1 le_rfl (show i < m + 1 by omega)
      rw [Finset.sum_Ico_succ_top hsm, Finset.sum_Ico_succ_top hsm (fun k => |lowL T i k| * _ * _), lowL_gt hi.2] at h3
      have h4 : ∑ k ∈ Ico s m, lowL T i k * T k k * lowL T i k = ∑ k ∈ Ico s m, |lowL T i k| * T k k * |lowL T i k| :=
        Finset.sum_congr rfl fun k hk => by rw [mul_right_comm, mul_right_comm |lowL T i k|, abs_mul_abs_self]
      have h5 : ∑ k ∈ Ico s m, |lowL T i k| * |T k k| * |lowL T i k| = ∑ k ∈ Ico s m, |lowL T i k| * T k k * |lowL T i k| :=
        Finset.sum_congr rfl fun k hk => by rw [habs k hk]
      rw [h4, h5] at h3
      have h6 : 0 ≤ ∑ k ∈ Ico s m, |lowL T i k| * T k k * |lowL T i k| := Finset.sum_nonneg fun k hk => by
        rw [Finset.mem_Ico] at hk
        have := hpos k hk.1 hk.2
        positivity
      simp only [mul_zero, zero_mul, abs_zero, add_zero] at h3
      have h7 := hρ i hi.1 hi.2.le
      have h8 := mul_le_mul_of_nonneg_right hθ h6
      linarith [(abs_le.1 h3).1]
  have hBle : B ≤ 5 / 2 * (Y + ρ m) ^ 2 + 3 * δ := by
    have h3 : B ≤ ∑ k ∈ Ico s m, (2 * (T k k * (∑ i ∈ Ico s m, |lowL T i k| * |x i|) ^ 2) +
        2 * (|lowL T m k| * T k k * |lowL T m k|)) := by
      refine Finset.sum_le_sum fun k hk => ?_
      rw [Finset.mem_Ico] at hk
      rw [Finset.sum_Ico_succ_top hsm, hxm, abs_one, mul_one]
      have := mul_nonneg (hpos k hk.1 hk.2).le (sq_nonneg ((∑ i ∈ Ico s m, |lowL T i k| * |x i|) - |lowL T m k|))
      linarith [this, show T k k * ((∑ i ∈ Ico s m, |lowL T i k| * |x i|) - |lowL T m k|) ^ 2 =
        2 * (T k k * (∑ i ∈ Ico s m, |lowL T i k| * |x i|) ^ 2) + 2 * (|lowL T m k| * T k k * |lowL T m k|) -
        T k k * ((∑ i ∈ Ico s m, |lowL T i k| * |x i|) + |lowL T m k|) ^ 2 by ring]
    rw [Finset.sum_add_distrib, ← Finset.mul_sum, ← Finset.mul_sum] at h3
    have h4 := mul_nonneg hY0 (hρ0 m)
    nlinarith
  have hB0 : 0 ≤ B := Finset.sum_nonneg fun k hk => by
    rw [Finset.mem_Ico] at hk
    exact mul_nonneg (hpos k hk.1 hk.2).le (sq_nonneg _)
  have hγ2 : γ ^ 2 * B ≤ 1 / 5 * θ * B := mul_le_mul_of_nonneg_right (by nlinarith) hB0
  have hθB := mul_le_mul_of_nonneg_left hBle hθ0
  have hθδ := mul_le_mul_of_nonneg_right hθ hδ0
  have hθX : 0 ≤ θ * (Y + ρ m) ^ 2 := by positivity
  have hθδ0 : 0 ≤ θ * δ := by positivity
  rw [abs_le] at herr
  refine ⟨by linarith [herr.2], abs_le.2 ⟨by linarith [herr.1], by linarith [herr.2]⟩⟩

omit [IsStrictOrderedRing α] in
/-- The certificate computed by back substitution nearly solves `L'v = e_m`. -/
theorem witnessLoopF_spec {dot : ℕ → ℕ → (ℕ → α) → (ℕ → α) → α} {γ : α} {N : ℕ} (hdot : DotErr γ N dot) (T : ℕ → ℕ → α)
    {s e : ℕ} (he : e ≤ N) : ∀ k v, s + k < e →
    (∀ i, s + k ≤ i → witnessLoopF dot T s e k v i = v i) ∧
    ∀ i, s ≤ i → i < s + k →
      |witnessLoopF dot T s e k v i + ∑ m ∈ Ico (i + 1) e, T m i * witnessLoopF dot T s e k v m| ≤
        γ * ∑ m ∈ Ico (i + 1) e, |T m i * witnessLoopF dot T s e k v m|
  | 0, v, _ => ⟨fun _ _ => rfl, fun i h1 h2 => by omega⟩
  | k + 1, v, hk => by
    have hidx : s + (k + 1) - 1 = s + k := by omega
    have heq : witnessLoopF dot T s e (k + 1) v =
        witnessLoopF dot T s e k (Function.update v (s + k) (-(dot (s + (k + 1)) e (fun m => T m (s + k)) v))) := by
      rw [witnessLoopF]
      simp only [hidx]
    obtain ⟨h1, h2⟩ := witnessLoopF_spec (s := s) hdot T he k
      (Function.update v (s + k) (-(dot (s + (k + 1)) e (fun m => T m (s + k)) v))) (by omega)
    rw [heq]
    refine ⟨fun i hi => ?_, fun i hi1 hi2 => ?_⟩
    · rw [h1 i (by omega), Function.update_of_ne (by omega)]
    · rcases Nat.lt_or_ge i (s + k) with h | h
      · exact h2 i hi1 h
      · have : i = s + k := by omega
        subst this
        have hterm : ∀ m ∈ Ico (s + k + 1) e, T m (s + k) * witnessLoopF dot T s e k
            (Function.update v (s + k) (-(dot (s + (k + 1)) e (fun m => T m (s + k)) v))) m = T m (s + k) * v m := fun m hm => by
          rw [Finset.mem_Ico] at hm
          rw [h1 m (by omega), Function.update_of_ne (by omega)]
        rw [Finset.sum_congr rfl hterm, Finset.sum_congr rfl fun m hm => congrArg abs (hterm m hm), h1 _ le_rfl,
          Function.update_self]
        have := hdot (s + (k + 1)) e (fun m => T m (s + k)) v he
        rw [neg_add_eq_sub, abs_sub_comm]
        exact this

end Verif
