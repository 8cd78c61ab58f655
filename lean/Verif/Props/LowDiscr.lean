import Mathlib.Data.Nat.ChineseRemainder
import Mathlib.Data.Nat.Digits.Defs
import Mathlib.Tactic.LinearCombination
import Mathlib.Tactic.Positivity
import Mathlib.Data.Fin.VecNotation
import Mathlib.Algebra.BigOperators.Intervals
import Mathlib.Algebra.BigOperators.Fin
import Mathlib.Algebra.Order.BigOperators.Ring.Finset
import Mathlib.Algebra.BigOperators.Field
import Mathlib.RingTheory.Coprime.Lemmas
import Verif.Model.LowDiscr

/-!
# C79-C81: the low-discrepancy sequences
-/
namespace Verif
namespace LowDiscr
open Finset

/-- Digit `i` of `k` in base `b`. -/
def digit (b k i : ℕ) : ℕ := k / b ^ i % b

/-- Radical inverse from the first `L` digits: the digits of `k` mirrored at the radix point. -/
def radInv (b L k : ℕ) : ℚ := ∑ i ∈ range L, (digit b k i : ℚ) / (b : ℚ) ^ (i + 1)

theorem vdcLoop_done {b fuel : ℕ} {d v : ℚ} : vdcLoop b fuel 0 d v = .ok (some v) := by
  cases fuel <;> simp [vdcLoop]

theorem vdcLoop_stop {b : ℕ} {k : ℤ} (hk : k ≠ 0) {d v : ℚ} : vdcLoop b 0 k d v = .ok none := by
  simp [vdcLoop, hk]

theorem vdcLoop_step {b fuel : ℕ} {k : ℤ} (hk : k ≠ 0) (hb : b ≠ 0) {d v : ℚ} : vdcLoop b (fuel + 1) k d v =
    vdcLoop b fuel (Int.fdiv k b) (d * b) (v + Int.fmod k b / (d * b)) := by
  conv_lhs => rw [vdcLoop.eq_def]
  simp [hk, hb]

theorem vdcLoop_eq {b : ℕ} (hb : 2 ≤ b) (k : ℕ) : ∀ fuel i, k / b ^ i ≤ fuel →
    ∃ L, k < b ^ L ∧ vdcLoop b fuel ((k / b ^ i : ℕ) : ℤ) ((b : ℚ) ^ i) (radInv b i k) = .ok (some (radInv b L k)) := by
  intro fuel
  induction fuel with
  | zero =>
    intro i h
    have h0 : k / b ^ i = 0 := Nat.le_zero.1 h
    refine ⟨i, (Nat.div_eq_zero_iff_lt (by positivity)).1 h0, ?_⟩
    rw [h0]; exact vdcLoop_done
  | succ fuel ih =>
    intro i h
    rcases Nat.eq_zero_or_pos (k / b ^ i) with h0 | h0
    · refine ⟨i, (Nat.div_eq_zero_iff_lt (by positivity)).1 h0, ?_⟩
      rw [h0]; exact vdcLoop_done
    · have hlt : k / b ^ (i + 1) ≤ fuel := by
        rw [pow_succ, ← Nat.div_div_eq_div_mul]
        have := Nat.div_lt_self h0 (show 1 < b by omega)
        omega
      obtain ⟨L, hL, he⟩ := ih (i + 1) hlt
      refine ⟨L, hL, ?_⟩
      rw [vdcLoop_step (by exact_mod_cast h0.ne') (by omega), ← he]
      have e1 : Int.fdiv ((k / b ^ i : ℕ) : ℤ) b = ((k / b ^ (i + 1) : ℕ) : ℤ) := by
        rw [Int.fdiv_eq_ediv_of_nonneg _ (by positivity), pow_succ, ← Nat.div_div_eq_div_mul]; norm_cast
      have e2 : Int.fmod ((k / b ^ i : ℕ) : ℤ) b = (digit b k i : ℤ) := by
        rw [Int.fmod_eq_emod_of_nonneg _ (by positivity)]; rfl
      have e3 : radInv b (i + 1) k = radInv b i k + (digit b k i : ℚ) / (b : ℚ) ^ (i + 1) := by
        simp only [radInv]; rw [sum_range_succ]
      rw [e1, e2, e3, ← pow_succ, Int.cast_natCast]

/-- The radical inverse does not depend on the number of leading zeros. -/
theorem radInv_stable {b L L' k : ℕ} (hb : 0 < b) (h : k < b ^ L) (hL : L ≤ L') : radInv b L' k = radInv b L k := by
  simp only [radInv]
  rw [← sum_range_add_sum_Ico _ hL, add_eq_left]
  refine sum_eq_zero fun i hi => ?_
  obtain ⟨h1, -⟩ := mem_Ico.1 hi
  have : k / b ^ i = 0 := Nat.div_eq_of_lt (h.trans_le (Nat.pow_le_pow_right hb h1))
  rw [digit, this]; simp

/-- More rounds do not change the result. -/
theorem vdcLoop_mono {b : ℕ} : ∀ fuel k d v r, vdcLoop b fuel k d v = .ok (some r) →
    ∀ fuel' ≥ fuel, vdcLoop b fuel' k d v = .ok (some r) := by
  intro fuel
  induction fuel with
  | zero =>
    intro k d v r h fuel' _
    by_cases h0 : k = 0
    · subst h0; rw [vdcLoop_done] at h ⊢; exact h
    · rw [vdcLoop_stop h0] at h; simp at h
  | succ fuel ih =>
    intro k d v r h fuel' hf
    obtain ⟨f', rfl⟩ : ∃ f', fuel' = f' + 1 := ⟨fuel' - 1, by omega⟩
    by_cases h0 : k = 0
    · subst h0; rw [vdcLoop_done] at h ⊢; exact h
    · by_cases hb : b = 0
      · rw [vdcLoop.eq_def] at h
        simp [h0, hb] at h
      · rw [vdcLoop_step h0 hb] at h ⊢
        exact ih _ _ _ _ h f' (by omega)

theorem vdcReturns_unique {b : ℕ} {k : ℤ} {v v' : ℚ} (h : VdcReturns k b v) (h' : VdcReturns k b v') : v = v' := by
  obtain ⟨f, h⟩ := h
  obtain ⟨f', h'⟩ := h'
  have h1 := vdcLoop_mono f k 1 0 v h (max f f') (le_max_left _ _)
  have h2 := vdcLoop_mono f' k 1 0 v' h' (max f f') (le_max_right _ _)
  rw [h1] at h2
  simpa using h2

/-- **C79** (meaning).  For a base `b ≥ 2` and an index `k ≥ 0`, `vdc(k, b)` returns the radical inverse of `k`: the
base-`b` digits mirrored at the radix point, and this is its only result. -/
theorem C79_vdc {b k L : ℕ} (hb : 2 ≤ b) (hL : k < b ^ L) (v : ℚ) : VdcReturns k b v ↔ v = radInv b L k := by
  have key : VdcReturns k b (radInv b L k) := by
    obtain ⟨L', hL', h⟩ := vdcLoop_eq hb k k 0 (by simp)
    refine ⟨k, ?_⟩
    have : radInv b L' k = radInv b L k := by
      rw [← radInv_stable (by omega) hL (le_max_left L L'), ← radInv_stable (by omega) hL' (le_max_right L L')]
    rw [← this, ← h]
    simp [vdc, radInv]
  exact ⟨fun h => vdcReturns_unique h key, fun h => h ▸ key⟩

/-- **C79** (non-termination).  A negative index (after `reseed` with a seed below `-1`), or base 1 with a nonzero
index, loops for ever. -/
theorem C79_vdc_diverges {b : ℕ} {k : ℤ} (h : (k < 0 ∧ 1 ≤ b) ∨ (b = 1 ∧ k ≠ 0)) : VdcDiverges k b := by
  intro fuel
  rw [vdc]
  generalize (1 : ℚ) = d
  generalize (0 : ℚ) = v
  have hk : k ≠ 0 := by
    rcases h with ⟨h, -⟩ | ⟨-, h⟩
    · omega
    · exact h
  induction fuel generalizing k d v with
  | zero => exact vdcLoop_stop hk
  | succ fuel ih =>
    rw [vdcLoop_step hk (by omega)]
    have key : ((Int.fdiv k b) < 0 ∧ 1 ≤ b) ∨ (b = 1 ∧ (Int.fdiv k b) ≠ 0) := ?_
    · refine ih key _ _ ?_
      rcases key with ⟨h, -⟩ | ⟨-, h⟩
      · omega
      · exact h
    rcases h with ⟨h, hb⟩ | ⟨rfl, h⟩
    · left
      refine ⟨?_, hb⟩
      have hb' : (0 : ℤ) < b := by exact_mod_cast hb
      rw [Int.fdiv_eq_ediv_of_nonneg _ hb'.le]
      exact Int.ediv_neg_of_neg_of_pos h hb'
    · right
      refine ⟨rfl, ?_⟩
      simpa using h

/-- **C79** (base 0).  A nonzero index with base 0 raises `ZeroDivisionError` in the first round (line 23); index 0 returns 0
whatever the base, for the loop is not entered. -/
theorem C79_vdc_base_zero : (∀ (fuel : ℕ) {k : ℤ}, k ≠ 0 → vdc (fuel + 1) k 0 = .error .zeroDivision) ∧
    ∀ b, VdcReturns 0 b 0 := by
  refine ⟨fun fuel k hk => by rw [vdc, vdcLoop, if_neg hk]; simp, fun b => ⟨0, ?_⟩⟩
  rw [vdc, vdcLoop, if_pos rfl]

/-! ### Equidistribution -/

/-- The first `m` digits of `k` mirrored, as an integer below `b^m`. -/
def rev (b : ℕ) : ℕ → ℕ → ℕ
  | 0, _ => 0
  | m + 1, k => k % b * b ^ m + rev b m (k / b)

theorem rev_lt {b : ℕ} (hb : 0 < b) : ∀ m k, rev b m k < b ^ m
  | 0, k => by simp [rev]
  | m + 1, k => by
    have h1 := rev_lt hb m (k / b)
    have h2 : k % b + 1 ≤ b := Nat.mod_lt k hb
    calc k % b * b ^ m + rev b m (k / b) < k % b * b ^ m + b ^ m := by omega
      _ = (k % b + 1) * b ^ m := by ring
      _ ≤ b * b ^ m := Nat.mul_le_mul_right _ h2
      _ = b ^ (m + 1) := by ring

theorem rev_eq_iff {b : ℕ} (hb : 0 < b) : ∀ m k k', rev b m k = rev b m k' ↔ k ≡ k' [MOD b ^ m]
  | 0, k, k' => by simp [rev, Nat.modEq_one]
  | m + 1, k, k' => by
    have h1 := rev_lt hb m (k / b)
    have h2 := rev_lt hb m (k' / b)
    have ih := rev_eq_iff hb m (k / b) (k' / b)
    rw [rev, rev, pow_succ', Nat.ModEq, Nat.mod_mul, Nat.mod_mul]
    rw [Nat.ModEq] at ih
    have hp : 0 < b ^ m := by positivity
    constructor
    · intro h
      have e1 : k % b = k' % b := by
        have := congrArg (· / b ^ m) h
        rwa [Nat.mul_comm, Nat.mul_add_div hp, Nat.div_eq_of_lt h1, Nat.mul_comm, Nat.mul_add_div hp, Nat.div_eq_of_lt h2, add_zero, add_zero] at this
      rw [e1] at h ⊢
      rw [ih.1 (by omega)]
    · intro h
      have e1 : k % b = k' % b := by
        have := congrArg (· % b) h
        simp only [Nat.add_mul_mod_self_left, Nat.mod_mod] at this
        exact this
      rw [e1] at h ⊢
      have : k / b % b ^ m = k' / b % b ^ m := by
        have h3 : b * (k / b % b ^ m) = b * (k' / b % b ^ m) := by omega
        exact Nat.eq_of_mul_eq_mul_left hb h3
      rw [ih.2 this]

theorem digit_div (b k i : ℕ) : digit b k (i + 1) = digit b (k / b) i := by
  rw [digit, digit, pow_succ', Nat.div_div_eq_div_mul]

theorem radInv_succ {b : ℕ} (hb : 0 < b) (L k : ℕ) : radInv b (L + 1) k = ((k % b : ℕ) + radInv b L (k / b)) / b := by
  have hb' : (b : ℚ) ≠ 0 := by exact_mod_cast hb.ne'
  simp only [radInv]
  rw [sum_range_succ', add_div, sum_div, add_comm]
  congr 1
  · simp [digit]
  · refine sum_congr rfl fun i _ => ?_
    rw [digit_div, pow_succ _ (i + 1)]; field_simp

theorem radInv_range {b : ℕ} (hb : 0 < b) (L : ℕ) : ∀ k, 0 ≤ radInv b L k ∧ radInv b L k < 1 := by
  have hb' : (0 : ℚ) < b := by exact_mod_cast hb
  induction L with
  | zero => intro k; simp [radInv]
  | succ L ih =>
    intro k
    obtain ⟨h1, h2⟩ := ih (k / b)
    have h3 : ((k % b : ℕ) : ℚ) + 1 ≤ b := by exact_mod_cast Nat.mod_lt k hb
    rw [radInv_succ hb]
    refine ⟨by positivity, ?_⟩
    rw [div_lt_one hb']; linarith

/-- The leading `m` digits of the radical inverse. -/
theorem radInv_cell {b : ℕ} (hb : 0 < b) : ∀ m L k, m ≤ L →
    (rev b m k : ℚ) ≤ b ^ m * radInv b L k ∧ b ^ m * radInv b L k < rev b m k + 1 := by
  have hb' : (b : ℚ) ≠ 0 := by exact_mod_cast hb.ne'
  intro m
  induction m with
  | zero => intro L k _; simpa [rev] using radInv_range hb L k
  | succ m ih =>
    intro L k hL
    obtain ⟨L, rfl⟩ : ∃ L', L = L' + 1 := ⟨L - 1, by omega⟩
    obtain ⟨h1, h2⟩ := ih L (k / b) (by omega)
    have e : (b : ℚ) ^ (m + 1) * radInv b (L + 1) k = (k % b : ℕ) * b ^ m + b ^ m * radInv b L (k / b) := by
      rw [radInv_succ hb]; field_simp; ring
    rw [e, rev]
    push_cast at h1 h2 ⊢
    constructor <;> linarith

/-- **C79** (range).  The values are in `[0, 1)`. -/
theorem C79_vdc_range {b : ℕ} (hb : 2 ≤ b) (k : ℕ) : ∃ v, VdcReturns k b v ∧ 0 ≤ v ∧ v < 1 := by
  have hL : k < b ^ k := Nat.lt_pow_self (by omega)
  exact ⟨_, (C79_vdc hb hL _).2 rfl, radInv_range (by omega) _ _⟩

/-- A value of the sequence lies in the elementary interval `[a/b^m, (a+1)/b^m)`. -/
def InCell (b m a : ℕ) (v : ℚ) : Prop := (a : ℚ) / b ^ m ≤ v ∧ v < ((a : ℚ) + 1) / b ^ m

theorem inCell_iff {b m a k : ℕ} (hb : 2 ≤ b) {v : ℚ} (hv : VdcReturns k b v) : InCell b m a v ↔ rev b m k = a := by
  have hL : k < b ^ (max k m) := (Nat.lt_pow_self (by omega)).trans_le (Nat.pow_le_pow_right (by omega) (le_max_left _ _))
  have hv' := (C79_vdc hb hL v).1 hv
  obtain ⟨h1, h2⟩ := radInv_cell (show 0 < b by omega) m (max k m) k (le_max_right _ _)
  rw [← hv'] at h1 h2
  have hp : (0 : ℚ) < (b : ℚ) ^ m := by
    have : (0 : ℚ) < b := by exact_mod_cast (show 0 < b by omega)
    positivity
  rw [InCell, div_le_iff₀ hp, lt_div_iff₀ hp, mul_comm]
  constructor
  · rintro ⟨h3, h4⟩
    have a1 : (a : ℚ) < (rev b m k : ℚ) + 1 := by linarith
    have a2 : (rev b m k : ℚ) < (a : ℚ) + 1 := by linarith
    have a1' : a < rev b m k + 1 := by exact_mod_cast a1
    have a2' : rev b m k < a + 1 := by exact_mod_cast a2
    omega
  · rintro rfl
    exact ⟨h1, h2⟩

/-- Every cell is hit by some residue class. -/
theorem rev_surj {b : ℕ} (hb : 0 < b) {m a : ℕ} (ha : a < b ^ m) : ∃ k, rev b m k = a := by
  have hmap : Set.MapsTo (rev b m) (range (b ^ m) : Finset ℕ) (range (b ^ m) : Finset ℕ) := fun k _ => by
    simpa using rev_lt hb m k
  have hinj : Set.InjOn (rev b m) (range (b ^ m) : Finset ℕ) := fun k hk k' hk' h => by
    have := (rev_eq_iff hb m k k').1 h
    rw [Nat.ModEq, Nat.mod_eq_of_lt (by simpa using hk), Nat.mod_eq_of_lt (by simpa using hk')] at this
    exact this
  obtain ⟨k, -, hk⟩ := Finset.surjOn_of_injOn_of_card_le _ hmap hinj le_rfl (show a ∈ ((range (b ^ m) : Finset ℕ) : Set ℕ) by simpa using ha)
  exact ⟨k, hk⟩

theorem existsUnique_window {N c : ℕ} (hN : 0 < N) (s : ℕ) : ∃! k, (s ≤ k ∧ k < s + N) ∧ k ≡ c [MOD N] := by
  obtain ⟨d, hd⟩ : ∃ d, d ≡ c + N * s - s [MOD N] ∧ d < N := ⟨(c + N * s - s) % N, Nat.mod_modEq _ _, Nat.mod_lt _ hN⟩
  have hs : s ≤ N * s := Nat.le_mul_of_pos_left s hN
  have hds : s + d ≡ c [MOD N] := by
    have h1 : s + d ≡ s + (c + N * s - s) [MOD N] := Nat.ModEq.add_left s hd.1
    rw [show s + (c + N * s - s) = c + N * s by omega] at h1
    exact h1.trans (by simp [Nat.ModEq])
  refine ⟨s + d, ⟨⟨by omega, by omega⟩, hds⟩, ?_⟩
  rintro k ⟨⟨h1, h2⟩, h3⟩
  have h4 : s + (k - s) ≡ s + d [MOD N] := by rw [show s + (k - s) = k by omega]; exact h3.trans hds.symm
  have h5 := Nat.ModEq.add_left_cancel' s h4
  rw [Nat.ModEq, Nat.mod_eq_of_lt (by omega), Nat.mod_eq_of_lt hd.2] at h5
  omega

/-- **C79** (equidistribution).  Among any `b^m` consecutive indices, exactly one value falls into each of the `b^m`
intervals `[a/b^m, (a+1)/b^m)`. -/
theorem C79_vdc_equidistributed {b m a : ℕ} (hb : 2 ≤ b) (ha : a < b ^ m) (s : ℕ) :
    ∃! k : ℕ, (s ≤ k ∧ k < s + b ^ m) ∧ ∃ v, VdcReturns k b v ∧ InCell b m a v := by
  obtain ⟨c, hc⟩ := rev_surj (show 0 < b by omega) ha
  have hiff : ∀ k : ℕ, (∃ v, VdcReturns k b v ∧ InCell b m a v) ↔ k ≡ c [MOD b ^ m] := by
    intro k
    rw [← rev_eq_iff (show 0 < b by omega), hc]
    constructor
    · rintro ⟨v, hv, h⟩; exact (inCell_iff hb hv).1 h
    · intro h
      obtain ⟨v, hv, -⟩ := C79_vdc_range hb k
      exact ⟨v, hv, (inCell_iff hb hv).2 h⟩
  simp only [hiff]
  exact existsUnique_window (by positivity) s

/-- **C79** (no repetition).  Different indices give different values. -/
theorem C79_vdc_injective {b : ℕ} (hb : 2 ≤ b) {k k' : ℕ} {v : ℚ} (h : VdcReturns k b v) (h' : VdcReturns k' b v) : k = k' := by
  set m := max k k'
  have h1 : rev b m k = rev b m k' := (inCell_iff hb h).1 ((inCell_iff hb h').2 rfl)
  have h2 := (rev_eq_iff (show 0 < b by omega) m k k').1 h1
  have h3 : m < b ^ m := Nat.lt_pow_self (by omega)
  rw [Nat.ModEq, Nat.mod_eq_of_lt ((le_max_left k k').trans_lt h3), Nat.mod_eq_of_lt ((le_max_right k k').trans_lt h3)] at h2
  exact h2

/-! ### Halton sequences -/

theorem Halton.gens_iterate (g : Halton) (k : ℕ) : (Halton.next^[k] g).gens = g.gens.map fun v => ⟨v.base, v.count + k⟩ := by
  induction k with
  | zero => simp
  | succ k ih =>
    rw [Function.iterate_succ_apply', Halton.next, ih, List.map_map]
    refine List.map_congr_left fun v _ => ?_
    simp only [Function.comp_apply, Vdcorput.next, Vdcorput.mk.injEq, true_and]
    push_cast; ring

/-- Reseeding a new generator is the same as advancing it. -/
theorem Halton.reseed_gens {n : ℕ} {bs : List ℕ} {g : Halton} (hg : Halton.init n bs = .ok g) (seed : ℤ) :
    (g.reseed seed).gens = (bs.take n).map fun b => ⟨b, seed⟩ := by
  unfold Halton.init at hg
  split at hg
  · simp at hg
  · simp only [Except.ok.injEq] at hg
    subst hg
    simp only [Halton.reseed, List.map_map]
    exact List.map_congr_left fun b _ => rfl

/-- **C80** (reseed).  A newly built `halton_n` (or `halton`, `n = 2`) reseeded with `s` is in the same state as after `s` calls. -/
theorem C80_halton_reseed {n : ℕ} {bs : List ℕ} {g : Halton} (hg : Halton.init n bs = .ok g) (s : ℕ) :
    g.reseed s = Halton.next^[s] g := by
  have h1 := Halton.reseed_gens hg s
  have h2 := Halton.gens_iterate g s
  have h3 : g.gens = (bs.take n).map Vdcorput.init := by
    unfold Halton.init at hg
    split at hg
    · simp at hg
    · simp only [Except.ok.injEq] at hg; rw [← hg]
  rw [h3, List.map_map] at h2
  have : (g.reseed s).gens = (Halton.next^[s] g).gens := by
    rw [h1, h2]
    exact List.map_congr_left fun b _ => by simp [Vdcorput.init]
  cases hx : g.reseed s; cases hy : Halton.next^[s] g
  rw [hx, hy] at this
  simpa using this

/-- **C80** (equidistribution).  `halton_n` with pairwise coprime bases `b_i ≥ 2`, started anywhere: among
any `∏ b_i^m_i` consecutive points exactly one falls into each box `∏ [a_i/b_i^m_i, (a_i+1)/b_i^m_i)`. -/
theorem C80_halton_equidistributed {n : ℕ} {b m a : Fin n → ℕ} (hb : ∀ i, 2 ≤ b i)
    (hco : ∀ i j, i ≠ j → Nat.Coprime (b i) (b j)) (ha : ∀ i, a i < b i ^ m i) {g : Halton}
    (hg : Halton.init n (List.ofFn b) = .ok g) (seed : ℕ) :
    ∃! k, k < ∏ i, b i ^ m i ∧ ∃ vs : Fin n → ℚ, (Halton.next^[k] (g.reseed seed)).Yields (List.ofFn vs) ∧
      ∀ i, InCell (b i) (m i) (a i) (vs i) := by
  have hy : ∀ k (vs : Fin n → ℚ), (Halton.next^[k] (g.reseed seed)).Yields (List.ofFn vs) ↔
      ∀ i, VdcReturns ((seed + 1 + k : ℕ) : ℤ) (b i) (vs i) := by
    intro k vs
    rw [Halton.Yields, Halton.gens_iterate, Halton.reseed_gens hg, List.take_of_length_le (by simp), List.map_map,
      List.map_ofFn, List.forall₂_iff_get]
    simp only [List.length_ofFn, true_and, List.get_eq_getElem, List.getElem_ofFn, Function.comp_apply, Vdcorput.Yields]
    have e : ((seed : ℤ) + k + 1) = ((seed + 1 + k : ℕ) : ℤ) := by push_cast; ring
    rw [e]
    exact ⟨fun h i => h i i.2 i.2, fun h i h1 _ => h ⟨i, h1⟩⟩
  have hc : ∀ i, ∃ c, rev (b i) (m i) c = a i := fun i => rev_surj (by have := hb i; omega) (ha i)
  choose c hc using hc
  obtain ⟨C, hC⟩ := Nat.chineseRemainderOfFinset c (fun i => b i ^ m i) Finset.univ
    (fun i _ => pow_ne_zero _ (by have := hb i; omega)) (fun i _ j _ hij => Nat.Coprime.pow _ _ (hco i j hij))
  have hiff : ∀ k, (∃ vs : Fin n → ℚ, (Halton.next^[k] (g.reseed seed)).Yields (List.ofFn vs) ∧
      ∀ i, InCell (b i) (m i) (a i) (vs i)) ↔ seed + 1 + k ≡ C [MOD ∏ i, b i ^ m i] := by
    intro k
    simp only [hy]
    have h1 : (∃ vs : Fin n → ℚ, (∀ i, VdcReturns ((seed + 1 + k : ℕ) : ℤ) (b i) (vs i)) ∧ ∀ i, InCell (b i) (m i) (a i) (vs i)) ↔
        ∀ i, seed + 1 + k ≡ C [MOD b i ^ m i] := by
      have h2 : ∀ i, (seed + 1 + k ≡ C [MOD b i ^ m i] ↔ rev (b i) (m i) (seed + 1 + k) = a i) := by
        intro i
        have h3 := hC i (Finset.mem_univ i)
        rw [← hc i, rev_eq_iff (by have := hb i; omega)]
        exact ⟨fun h => h.trans h3, fun h => h.trans h3.symm⟩
      simp only [h2]
      constructor
      · rintro ⟨vs, h3, h4⟩ i
        exact (inCell_iff (hb i) (h3 i)).1 (h4 i)
      · intro h
        have h5 := fun i => C79_vdc_range (hb i) (seed + 1 + k)
        choose vs h6 _ using h5
        exact ⟨vs, h6, fun i => (inCell_iff (hb i) (h6 i)).2 (h i)⟩
    rw [h1]
    constructor
    · intro h
      rw [Nat.modEq_iff_dvd]
      push_cast
      refine Finset.prod_dvd_of_coprime (fun i _ j _ hij => ?_) fun i _ => ?_
      · exact (Nat.isCoprime_iff_coprime.2 (hco i j hij)).pow
      · have := (Nat.modEq_iff_dvd.1 (h i))
        push_cast at this
        exact this
    · intro h i
      exact h.of_dvd (Finset.dvd_prod_of_mem (fun i => b i ^ m i) (Finset.mem_univ i))
  simp only [hiff]
  have hN : 0 < ∏ i, b i ^ m i := Finset.prod_pos fun i _ => pow_pos (by have := hb i; omega) _
  obtain ⟨k, ⟨⟨h1, h2⟩, h3⟩, h4⟩ := existsUnique_window (c := C) hN (seed + 1)
  refine ⟨k - (seed + 1), ⟨by omega, by rwa [show seed + 1 + (k - (seed + 1)) = k by omega]⟩, ?_⟩
  rintro k' ⟨h5, h6⟩
  have := h4 (seed + 1 + k') ⟨⟨by omega, by omega⟩, h6⟩
  omega

/-! ### Points on spheres -/

/-- **C81** `circle` returns points of the unit circle. -/
theorem C81_circle (v : ℝ) : ∑ i, circlePt v i ^ 2 = 1 := by
  rw [Fin.sum_univ_two]; simp [circlePt]

/-- **C81** `sphere`: no exception for generator values in `[0, 1)`, and the point is on the unit sphere. -/
theorem C81_sphere {v : ℝ} (h0 : 0 ≤ v) (h1 : v < 1) (u : ℝ) : ∃ p, spherePt v u = .ok p ∧ ∑ i, p i ^ 2 = 1 := by
  have h : 0 ≤ 1 - (2 * v - 1) * (2 * v - 1) := by nlinarith
  refine ⟨![√(1 - (2 * v - 1) * (2 * v - 1)) * circlePt u 0, √(1 - (2 * v - 1) * (2 * v - 1)) * circlePt u 1, 2 * v - 1], ?_, ?_⟩
  · simp [spherePt, pySqrt, not_lt.2 h]
  · have hc := C81_circle u
    rw [Fin.sum_univ_two] at hc
    rw [Fin.sum_univ_three]
    simp only [Matrix.cons_val_zero, Matrix.cons_val_one, Matrix.cons_val]
    rw [mul_pow, mul_pow, Real.sq_sqrt h]
    linear_combination (1 - (2 * v - 1) * (2 * v - 1)) * hc

/-- **C81** `sphere3_hopf`: no exception for generator values in `[0, 1)`, and the point is on the unit 3-sphere. -/
theorem C81_sphere3_hopf (v0 v1 : ℝ) {v2 : ℝ} (h0 : 0 ≤ v2) (h1 : v2 < 1) :
    ∃ p, hopfPt v0 v1 v2 = .ok p ∧ ∑ i, p i ^ 2 = 1 := by
  have h2 : ¬ v2 < 0 := not_lt.2 h0
  have h3 : ¬ 1 - v2 < 0 := by linarith
  refine ⟨![√v2 * Real.cos (v1 * (2 * Real.pi)), √v2 * Real.sin (v1 * (2 * Real.pi)),
    √(1 - v2) * Real.cos (v0 * (2 * Real.pi) + v1 * (2 * Real.pi)), √(1 - v2) * Real.sin (v0 * (2 * Real.pi) + v1 * (2 * Real.pi))], ?_, ?_⟩
  · simp only [hopfPt, pySqrt, if_neg h2, if_neg h3]
  · rw [Fin.sum_univ_four]
    simp only [Matrix.cons_val_zero, Matrix.cons_val_one, Matrix.cons_val]
    rw [mul_pow, mul_pow, mul_pow, mul_pow, Real.sq_sqrt h0, Real.sq_sqrt (not_lt.1 h3)]
    linear_combination v2 * Real.sin_sq_add_cos_sq (v1 * (2 * Real.pi)) +
      (1 - v2) * Real.sin_sq_add_cos_sq (v0 * (2 * Real.pi) + v1 * (2 * Real.pi))

/-- Concrete: `vdc(11, 2) = 13/16` (1011 mirrored), and `vdc(-1, 2)` never returns. -/
example : VdcReturns 11 2 (13 / 16) ∧ VdcDiverges (-1) 2 := by
  refine ⟨(C79_vdc (k := 11) (L := 4) (by norm_num) (by norm_num) _).2 ?_, C79_vdc_diverges (.inl ⟨by norm_num, by norm_num⟩)⟩
  simp only [radInv, sum_range_succ, digit]; norm_num

/-- Concrete: of any 6 consecutive points of `halton([2, 3])`, exactly one is in `[1/2, 1) × [1/3, 2/3)`. -/
example (s : ℕ) : ∃! k, k < ∏ i, (![2, 3] : Fin 2 → ℕ) i ^ (![1, 1] : Fin 2 → ℕ) i ∧ ∃ vs : Fin 2 → ℚ,
    (Halton.next^[k] ((⟨[⟨2, 0⟩, ⟨3, 0⟩]⟩ : Halton).reseed s)).Yields (List.ofFn vs) ∧
      ∀ i, InCell ((![2, 3] : Fin 2 → ℕ) i) ((![1, 1] : Fin 2 → ℕ) i) ((![1, 1] : Fin 2 → ℕ) i) (vs i) :=
  C80_halton_equidistributed (b := ![2, 3]) (m := ![1, 1]) (a := ![1, 1]) (by decide) (by decide) (by decide) rfl s

end LowDiscr
end Verif
