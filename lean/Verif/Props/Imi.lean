import Verif.Model.Imi
import Verif.Proofs.MatOracle
import Mathlib.Tactic.LinearCombination

/-!
# C126: `imi_oracle`, the block matrix `[Sig(x1), I; I, Sig(x2)]`
-/
namespace Verif
open Finset
variable {α : Type _} [Field α] [LinearOrder α] {n : ℕ}

/-- The block matrix of the docstring: `[Σ x1_q F_q, I; I, Σ x2_q F_q]` with blocks of size `N`. -/
def imiMat (F : Fin n → ℕ → ℕ → α) (N : ℕ) (x1 x2 : Fin n → α) (i j : ℕ) : α :=
  if i < N then (if j < N then combo F x1 i j else if j = N + i then 1 else 0)
  else if j < N then (if i = N + j then 1 else 0) else combo F x2 (i - N) (j - N)

omit [LinearOrder α] in
theorem imiMat_sym {F : Fin n → ℕ → ℕ → α} {N : ℕ} (hF : ∀ q, SymOn (F q) N) (x1 x2 : Fin n → α) : SymOn (imiMat F N x1 x2) (N + N) := by
  intro i j hi hj
  have hc : ∀ z i j, i < N → j < N → combo F z i j = combo F z j i := fun z i j hi hj => by
    simp only [combo, fun q => hF q i j hi hj]
  unfold imiMat
  by_cases h1 : i < N <;> by_cases h2 : j < N <;> simp only [h1, h2, if_true, if_false]
  · exact hc _ _ _ h1 h2
  · exact hc _ _ _ (by omega) (by omega)

omit [LinearOrder α] in
theorem imiEntry_eq {F : Fin n → ℕ → ℕ → α} {N : ℕ} (x1 x2 : Fin n → α) {i j : ℕ} (hj : j ≤ i) :
    imiMat F N x1 x2 i j = imiEntry F N x1 x2 i j := by
  have hl : ∀ z i j, combo F z i j = linEntry F z i j := fun z i j => by
    simp only [combo, linEntry]; exact sum_congr rfl fun q _ => mul_comm _ _
  unfold imiMat imiEntry
  by_cases h1 : i < N
  · have h2 : j < N := by omega
    simp only [h1, h2, if_true, hl]
  · by_cases h2 : j < N
    · simp only [h1, h2, if_true, if_false]
      by_cases h3 : i = N + j
      · rw [if_pos h3, if_pos (by omega)]
      · rw [if_neg h3, if_neg (by omega)]
    · simp only [h1, h2, if_false, hl]

omit [LinearOrder α] in
/-- The quadratic form of a leading block that ends in the first half. -/
theorem quad_imi_left {F : Fin n → ℕ → ℕ → α} {N p : ℕ} (hp : p ≤ N) (x1 x2 : Fin n → α) (v : ℕ → α) :
    quadOn (imiMat F N x1 x2) 0 p v = quadOn (combo F x1) 0 p v :=
  quadOn_congr (fun i j hi hj => by rw [imiMat, if_pos (by omega), if_pos (by omega)]) v

omit [LinearOrder α] in
/-- The quadratic form of a leading block that ends in the second half. -/
theorem quad_imi_right {F : Fin n → ℕ → ℕ → α} {N r : ℕ} (hr : r ≤ N) (x1 x2 : Fin n → α) (v : ℕ → α) :
    quadOn (imiMat F N x1 x2) 0 (N + r) v =
      quadOn (combo F x1) 0 N v + quadOn (combo F x2) 0 r (fun i => v (N + i)) + 2 * ∑ i ∈ range r, v i * v (N + i) := by
  unfold quadOn
  simp only [← range_eq_Ico, sum_range_add, sum_add_distrib]
  have e1 : ∑ i ∈ range N, ∑ j ∈ range N, v i * imiMat F N x1 x2 i j * v j = ∑ i ∈ range N, ∑ j ∈ range N, v i * combo F x1 i j * v j :=
    sum_congr rfl fun i hi => sum_congr rfl fun j hj => by
      rw [imiMat, if_pos (mem_range.1 hi), if_pos (mem_range.1 hj)]
  have e2 : ∑ i ∈ range r, ∑ j ∈ range r, v (N + i) * imiMat F N x1 x2 (N + i) (N + j) * v (N + j) =
      ∑ i ∈ range r, ∑ j ∈ range r, v (N + i) * combo F x2 i j * v (N + j) :=
    sum_congr rfl fun i hi => sum_congr rfl fun j hj => by
      rw [imiMat, if_neg (by omega), if_neg (by omega), Nat.add_sub_cancel_left, Nat.add_sub_cancel_left]
  have e3 : ∑ i ∈ range N, ∑ j ∈ range r, v i * imiMat F N x1 x2 i (N + j) * v (N + j) = ∑ j ∈ range r, v j * v (N + j) := by
    rw [sum_comm]
    refine sum_congr rfl fun j hj => ?_
    rw [sum_eq_single j]
    · rw [imiMat, if_pos (by have := mem_range.1 hj; omega), if_neg (by omega), if_pos rfl, mul_one]
    · intro i hi hij
      rw [imiMat, if_pos (mem_range.1 hi), if_neg (by omega), if_neg (by omega), mul_zero, zero_mul]
    · intro h; exact absurd (mem_range.2 (by have := mem_range.1 hj; omega)) h
  have e4 : ∑ i ∈ range r, ∑ j ∈ range N, v (N + i) * imiMat F N x1 x2 (N + i) j * v j = ∑ i ∈ range r, v i * v (N + i) := by
    refine sum_congr rfl fun i hi => ?_
    rw [sum_eq_single i]
    · rw [imiMat, if_neg (by omega), if_pos (by have := mem_range.1 hi; omega), if_pos rfl]; ring
    · intro j hj hij
      rw [imiMat, if_neg (by omega), if_pos (mem_range.1 hj), if_neg (by omega), mul_zero, zero_mul]
    · intro h; exact absurd (mem_range.2 (by have := mem_range.1 hi; omega)) h
  rw [e1, e2, e3, e4]
  ring

omit [LinearOrder α] in
theorem quad_range (A : ℕ → ℕ → α) (p : ℕ) (v : ℕ → α) : ∑ i ∈ range p, v i * ∑ j ∈ range p, A i j * v j = quadOn A 0 p v := by
  unfold quadOn
  rw [← range_eq_Ico]
  exact sum_congr rfl fun i _ => by rw [mul_sum]; exact sum_congr rfl fun j _ => by ring

variable [IsStrictOrderedRing α]

/-- **C126** (the verdict and the cut, without line 61).  Never raises; accepts iff the block matrix is positive definite; otherwise the cut holds for every point at which the block matrix is
positive semidefinite, strictly where it is positive definite. -/
theorem C126_imi {F : Fin n → ℕ → ℕ → α} {N : ℕ} (hF : ∀ q, SymOn (F q) N) (x1 x2 : Fin n → α) {Q : CholExt α} (hQ : Ready (N + N) Q) :
    ∃ Q' r, imiCall .corrected F N x1 x2 Q = .ok (Q', r) ∧ Ready (N + N) Q' ∧ (r = none ↔ PDon (imiMat F N x1 x2) 0 (N + N)) ∧
      ∀ g1 g2 ep, r = some ((g1, g2), ep) → 0 ≤ ep ∧
        (∀ z1 z2, PSDon (imiMat F N z1 z2) 0 (N + N) → ∑ q, g1 q * (z1 q - x1 q) + ∑ q, g2 q * (z2 q - x2 q) + ep ≤ 0) ∧
        ∀ z1 z2, PDon (imiMat F N z1 z2) 0 (N + N) → ∑ q, g1 q * (z1 q - x1 q) + ∑ q, g2 q * (z2 q - x2 q) + ep < 0 := by
  have hS : Serves (W := Unit) (readAt (N + N) (imiEntry F N x1 x2)) (imiMat F N x1 x2) (N + N) (fun _ _ => True) (fun _ _ => True) :=
    serves_readAt le_rfl _ _ fun i j _ hj => imiEntry_eq x1 x2 hj
  have hsym := imiMat_sym hF x1 x2
  obtain ⟨w', Q1, b, hf, hb⟩ := factor_ready_iff hQ hS hsym (w := ()) trivial
  cases b with
  | true =>
    refine ⟨Q1, none, by simp only [imiCall, hf], factor_ready hQ hf, ⟨fun _ => hb.1 rfl, fun _ => rfl⟩, ?_⟩
    intro _ _ _ h; simp at h
  | false =>
    obtain ⟨Q2, ep, e, hw, hr, hep, hp, -, he0, hem, hv, hq, -, -⟩ := leading_certificate hQ hS hsym trivial hf
    have hlin : ∀ (A : Fin n → α) (z x : Fin n → α), ∑ q, -A q * (z q - x q) = ∑ q, x q * A q - ∑ q, z q * A q := fun A z x => by
      rw [← sum_sub_distrib]; exact sum_congr rfl fun q _ => by ring
    obtain ⟨g1, g2, hcall, key⟩ : ∃ g1 g2, imiCall .corrected F N x1 x2 Q = .ok (Q2, some ((g1, g2), ep)) ∧
        ∀ z1 z2, ∑ q, g1 q * (z1 q - x1 q) + ∑ q, g2 q * (z2 q - x2 q) + ep = -quadOn (imiMat F N z1 z2) 0 e Q2.v := by
      by_cases hlt : e < N
      · refine ⟨fun q => -∑ i ∈ range e, Q2.v i * ∑ j ∈ range e, F q i j * Q2.v j, fun _ => 0,
          by simp only [imiCall, hf, hw, hp, hlt, if_true, reduceCtorEq, if_false], fun z1 z2 => ?_⟩
        simp only [zero_mul, sum_const_zero, quad_range]
        rw [quad_imi_left hlt.le, quadOn_combo] at hq ⊢
        rw [hlin]; linear_combination hq
      · obtain ⟨r, rfl⟩ : ∃ r, e = N + r := ⟨e - N, by omega⟩
        refine ⟨fun q => -∑ i ∈ range N, Q2.v i * ∑ j ∈ range N, F q i j * Q2.v j + 0,
          fun q => -∑ i ∈ range (N + r - N), Q2.v (N + i) * ∑ j ∈ range (N + r - N), F q i j * Q2.v (N + j) + 0,
          by simp only [imiCall, hf, hw, hp, hlt, if_true, reduceCtorEq, if_false], fun z1 z2 => ?_⟩
        simp only [Nat.add_sub_cancel_left, add_zero, quad_range]
        rw [quad_imi_right (by omega), quadOn_combo, quadOn_combo] at hq ⊢
        rw [hlin, hlin]; linear_combination hq
    refine ⟨Q2, some ((g1, g2), ep), hcall, hr, ⟨fun h => by simp at h, fun h => absurd (hb.2 h) (by simp)⟩, ?_⟩
    intro g1' g2' ep' h
    simp only [Option.some.injEq, Prod.mk.injEq] at h
    obtain ⟨⟨rfl, rfl⟩, rfl⟩ := h
    refine ⟨hep, fun z1 z2 hz => ?_, fun z1 z2 hz => ?_⟩ <;> rw [key z1 z2]
    · have := (hz.sub le_rfl hem) Q2.v; linarith
    · have := (hz.sub le_rfl hem) Q2.v ⟨e - 1, Nat.zero_le _, by omega, by rw [hv]; exact one_ne_zero⟩
      linarith

/-- **C126** (what acceptance means).  If the block matrix is positive definite, both diagonal blocks are, and `Sig(x1) Sig(x2) - I` is positive in the sense of the Schur complement:
`(u'u)² < (u'Sig(x1)u)(u'Sig(x2)u)` for `u ≠ 0`. -/
theorem C126_meaning {F : Fin n → ℕ → ℕ → α} {N : ℕ} {x1 x2 : Fin n → α} (h : PDon (imiMat F N x1 x2) 0 (N + N)) :
    PDon (combo F x1) 0 N ∧ PDon (combo F x2) 0 N ∧
      ∀ u : ℕ → α, (∃ i < N, u i ≠ 0) → (∑ i ∈ range N, u i * u i) ^ 2 < quadOn (combo F x1) 0 N u * quadOn (combo F x2) 0 N u := by
  have key : ∀ (a b : α) (u w : ℕ → α), (∃ i < N, a * u i ≠ 0 ∨ b * w i ≠ 0) →
      0 < a ^ 2 * quadOn (combo F x1) 0 N u + b ^ 2 * quadOn (combo F x2) 0 N w + 2 * (a * b) * ∑ i ∈ range N, u i * w i := by
    intro a b u w hne
    have h1 := h (fun i => if i < N then a * u i else b * w (i - N)) (by
      obtain ⟨i, hi, h1 | h1⟩ := hne
      · exact ⟨i, Nat.zero_le _, by omega, by simpa [hi] using h1⟩
      · exact ⟨N + i, Nat.zero_le _, by omega, by simpa using h1⟩)
    rw [quad_imi_right le_rfl] at h1
    have e1 : quadOn (combo F x1) 0 N (fun i => if i < N then a * u i else b * w (i - N)) = a ^ 2 * quadOn (combo F x1) 0 N u := by
      unfold quadOn
      rw [mul_sum]
      refine sum_congr rfl fun i hi => ?_
      rw [mul_sum]
      refine sum_congr rfl fun j hj => ?_
      rw [mem_Ico] at hi hj
      simp only [if_pos hi.2, if_pos hj.2]; ring
    have e2 : quadOn (combo F x2) 0 N (fun i => if N + i < N then a * u (N + i) else b * w (N + i - N)) = b ^ 2 * quadOn (combo F x2) 0 N w := by
      unfold quadOn
      rw [mul_sum]
      refine sum_congr rfl fun i hi => ?_
      rw [mul_sum]
      refine sum_congr rfl fun j hj => ?_
      simp only [Nat.add_sub_cancel_left, if_neg (show ¬ N + i < N by omega), if_neg (show ¬ N + j < N by omega)]; ring
    have e3 : ∑ i ∈ range N, (if i < N then a * u i else b * w (i - N)) * (if N + i < N then a * u (N + i) else b * w (N + i - N)) =
        (a * b) * ∑ i ∈ range N, u i * w i := by
      rw [mul_sum]
      refine sum_congr rfl fun i hi => ?_
      rw [if_pos (mem_range.1 hi), if_neg (by omega), Nat.add_sub_cancel_left]; ring
    rw [e1, e2, e3] at h1
    linarith
  have h1 : PDon (combo F x1) 0 N := fun u ⟨i, _, hi, hne⟩ => by
    have := key 1 0 u u ⟨i, hi, .inl (by simpa using hne)⟩
    simpa using this
  have h2 : PDon (combo F x2) 0 N := fun u ⟨i, _, hi, hne⟩ => by
    have := key 0 1 u u ⟨i, hi, .inr (by simpa using hne)⟩
    simpa using this
  refine ⟨h1, h2, fun u ⟨i, hi, hne⟩ => ?_⟩
  have p1 := h1 u ⟨i, Nat.zero_le _, hi, hne⟩
  set A := quadOn (combo F x1) 0 N u
  set B := quadOn (combo F x2) 0 N u
  set s := ∑ i ∈ range N, u i * u i
  have h3 := key (-s) A u u ⟨i, hi, .inr (mul_ne_zero p1.ne' hne)⟩
  have h4 : 0 < A * (A * B - s ^ 2) := by
    have e : A * (A * B - s ^ 2) = (-s) ^ 2 * A + A ^ 2 * B + 2 * (-s * A) * s := by ring
    rw [e]; exact h3
  have h5 := (mul_pos_iff_of_pos_left p1).1 h4
  linarith

/-- **C126** (finding: the present `chol_ext`).  With the `chol_ext.py` of the repository every rejection ends in `TypeError`: the oracle never returns a cut. -/
theorem C126_no_cut {F : Fin n → ℕ → ℕ → α} {N : ℕ} (hF : ∀ q, SymOn (F q) N) (x1 x2 : Fin n → α) {Q : CholExt α} (hQ : Ready (N + N) Q) :
    (PDon (imiMat F N x1 x2) 0 (N + N) → ∃ Q', imiCall .asWritten F N x1 x2 Q = .ok (Q', none)) ∧
      (¬ PDon (imiMat F N x1 x2) 0 (N + N) → imiCall .asWritten F N x1 x2 Q = .error .oracle) := by
  have hS : Serves (W := Unit) (readAt (N + N) (imiEntry F N x1 x2)) (imiMat F N x1 x2) (N + N) (fun _ _ => True) (fun _ _ => True) :=
    serves_readAt le_rfl _ _ fun i j _ hj => imiEntry_eq x1 x2 hj
  have hsym := imiMat_sym hF x1 x2
  obtain ⟨w', Q1, b, hf, hb⟩ := factor_ready_iff hQ hS hsym (w := ()) trivial
  cases b with
  | true => exact ⟨fun _ => ⟨Q1, by simp only [imiCall, hf]⟩, fun h => absurd (hb.1 rfl) h⟩
  | false =>
    obtain ⟨Q2, ep, e, hw, -⟩ := leading_certificate hQ hS hsym trivial hf
    exact ⟨fun h => absurd (hb.2 h) (by simp), fun _ => by simp only [imiCall, hf, hw, if_true]⟩

/-- **C126** (finding: line 61, in general).  Wherever the version without line 61 returns the (correct) cut `g1, g2, ep`, the version with line 61 adds the same number to every entry of
`g1` and `g2`: the part of `ep` that does not depend on the point, `ep - g1·x1 - g2·x2`. -/
theorem C126_line61_shift {F : Fin n → ℕ → ℕ → α} {N : ℕ} (hF : ∀ q, SymOn (F q) N) (x1 x2 : Fin n → α) {Q Q' : CholExt α} (hQ : Ready (N + N) Q)
    {g1 g2 : Fin n → α} {ep : α} (h : imiCall .corrected F N x1 x2 Q = .ok (Q', some ((g1, g2), ep))) :
    ∃ s, s = ep - (∑ q, g1 q * x1 q + ∑ q, g2 q * x2 q) ∧
      imiCall .oldApi F N x1 x2 Q = .ok (Q', some ((fun q => g1 q + s, fun q => g2 q + s), ep)) := by
  have hS : Serves (W := Unit) (readAt (N + N) (imiEntry F N x1 x2)) (imiMat F N x1 x2) (N + N) (fun _ _ => True) (fun _ _ => True) :=
    serves_readAt le_rfl _ _ fun i j _ hj => imiEntry_eq x1 x2 hj
  have hsym := imiMat_sym hF x1 x2
  obtain ⟨w', Q1, b, hf, -⟩ := factor_ready_iff hQ hS hsym (w := ()) trivial
  cases b with
  | true => simp only [imiCall, hf, Except.ok.injEq, Prod.mk.injEq, reduceCtorEq, and_false] at h
  | false =>
    obtain ⟨Q2, ep', e, hw, hr, hep, hp, -, he0, hem, hv, hq, -, -⟩ := leading_certificate hQ hS hsym trivial hf
    have hlin : ∀ (A x : Fin n → α), ∑ q, -A q * x q = -∑ q, x q * A q := fun A x => by
      rw [← sum_neg_distrib]; exact sum_congr rfl fun q _ => by ring
    by_cases hlt : e < N
    · simp only [imiCall, hf, hw, hp, hlt, if_true, reduceCtorEq, if_false, Except.ok.injEq, Prod.mk.injEq, Option.some.injEq] at h ⊢
      obtain ⟨rfl, ⟨rfl, rfl⟩, rfl⟩ := h
      refine ⟨0, ?_, by simp⟩
      simp only [zero_mul, sum_const_zero, quad_range]
      rw [quad_imi_left hlt.le, quadOn_combo] at hq
      rw [hlin]; linear_combination -hq
    · obtain ⟨r, rfl⟩ : ∃ r, e = N + r := ⟨e - N, by omega⟩
      simp only [imiCall, hf, hw, hp, hlt, if_true, reduceCtorEq, if_false, Except.ok.injEq, Prod.mk.injEq, Option.some.injEq] at h ⊢
      obtain ⟨rfl, ⟨rfl, rfl⟩, rfl⟩ := h
      refine ⟨-2 * ∑ i ∈ range (N + r - N), Q2.v i * Q2.v (N + i), ?_, by simp⟩
      simp only [Nat.add_sub_cancel_left, add_zero, quad_range]
      rw [quad_imi_right (by omega), quadOn_combo, quadOn_combo] at hq
      rw [hlin, hlin]; linear_combination -hq

omit [IsStrictOrderedRing α] in
/-- **C126** (finding: line 61).  Even with a `witness` that returns the vector, the cut is wrong: the constant part `2 v1·v2` of the quadratic form is added to every entry of the
gradient.  For the matrix `[x1, 1; 1, x2]` at `(1, 0)` the cut is `(z1 - 1) + z2 + 1 ≤ 0`, which no feasible point satisfies. -/
theorem C126_line61 : ∃ (F : Fin 1 → ℕ → ℕ → ℝ) (Q' : CholExt ℝ) (g1 g2 : Fin 1 → ℝ) (ep : ℝ),
    imiCall .oldApi F 1 (fun _ => 1) (fun _ => 0) (CholExt.init (1 + 1)) = .ok (Q', some ((g1, g2), ep)) ∧
      ∀ z1 z2, PSDon (imiMat F 1 z1 z2) 0 (1 + 1) → 0 < ∑ q, g1 q * (z1 q - 1) + ∑ q, g2 q * (z2 q - 0) + ep := by
  refine ⟨fun _ _ _ => 1, ?_⟩
  have hcall : ∃ Q', imiCall .oldApi (fun _ _ _ => (1 : ℝ)) 1 (fun _ : Fin 1 => 1) (fun _ => 0) (CholExt.init (1 + 1)) =
      .ok (Q', some ((fun _ => 1, fun _ => 1), 1)) := by
    have hf : ∃ T : ℕ → ℕ → ℝ, (CholExt.init (1 + 1) : CholExt ℝ).factor (W := Unit)
        (readAt (1 + 1) (imiEntry (fun _ _ _ => (1 : ℝ)) 1 (fun _ : Fin 1 => 1) fun _ => 0)) () = .ok ((), ⟨2, false, (0, 2), fun _ => 0, T⟩, false) ∧
          T 1 0 = 1 ∧ T 1 1 = -1 := by
      refine ⟨set2 (set2 (set2 (set2 (fun _ _ => 0) 0 0 1) 0 1 1) 1 0 1) 1 1 (-1), ?_, by simp [set2], by simp [set2]⟩
      simp only [CholExt.init, CholExt.factor, cholRows, cholInner, readAt, imiEntry, linEntry, pyDiv]
      norm_num [cholInner, set2, readAt, imiEntry, linEntry, CholExt.isSpd]
    obtain ⟨T, hf, h10, h11⟩ := hf
    refine ⟨⟨2, false, (0, 2), Function.update (Function.update (fun _ => 0) 1 1) 0 (-1), T⟩, ?_⟩
    have hw : CholExt.witness ⟨2, false, (0, 2), fun _ => 0, T⟩ =
        .ok (⟨2, false, (0, 2), Function.update (Function.update (fun _ => 0) 1 1) 0 (-1), T⟩, 1) := by
      simp [CholExt.witness, CholExt.isSpd, witnessLoop, h10, h11]
    simp only [imiCall, hf, hw, reduceCtorEq, if_false]
    norm_num [Function.update]
  obtain ⟨Q', hQ'⟩ := hcall
  refine ⟨Q', _, _, _, hQ', fun z1 z2 h => ?_⟩
  have h1 := h fun i => if i = 0 then 1 else -1
  rw [quad_imi_right le_rfl] at h1
  norm_num [quadOn, combo] at h1
  norm_num
  linarith

/-- A point of the corrected oracle's acceptance region: `[2, 1; 1, 2]`. -/
example : PDon (imiMat (fun (_ : Fin 1) _ _ => (1 : ℝ)) 1 (fun _ => 2) fun _ => 2) 0 (1 + 1) := by
  rintro u ⟨i, -, hi, hne⟩
  rw [quad_imi_right le_rfl]
  norm_num [quadOn, combo]
  have : u 0 ≠ 0 ∨ u 1 ≠ 0 := by
    interval_cases i
    · exact .inl hne
    · exact .inr hne
  rcases this with h | h
  · have := mul_self_pos.2 h; nlinarith [sq_nonneg (u 0 + u 1), mul_self_nonneg (u 1)]
  · have := mul_self_pos.2 h; nlinarith [sq_nonneg (u 0 + u 1), mul_self_nonneg (u 0)]

end Verif
