import Mathlib.Analysis.Real.Pi.Bounds
import Verif.Model.LowpassCase
import Verif.Proofs.Bernstein
import Verif.Props.LowpassSolve
import Verif.Props.SpectralFact2

/-!
# C90, C91: from the frequency grid to all frequencies

`create_lowpass_case` replaces the bands by `15 N` samples ("rule-of-thumb discretization", `test_lowpass.py:72`).
-/
namespace Verif
open Finset Matrix
variable {n : ℕ}

theorem gridRow_dot (z : Fin n → ℝ) (w : ℝ) : gridRow n w ⬝ᵥ z = powerSpectrum z w := by
  simp only [dotProduct, gridRow, powerSpectrum]
  exact sum_congr rfl fun t _ => by rw [mul_comm w]

/-- The power spectrum is a trigonometric polynomial of degree `n - 1`. -/
theorem powerSpectrum_trigPoly (r : Fin n → ℝ) : ∃ a : ℕ → ℝ, ∀ w, powerSpectrum r w = trigPoly (n - 1) a 0 w := by
  rcases Nat.eq_zero_or_pos n with rfl | hn
  · exact ⟨0, fun w => by simp [powerSpectrum, trigPoly]⟩
  refine ⟨fun j => if h : j < n then (if j = 0 then 1 else 2) * r ⟨j, h⟩ else 0, fun w => ?_⟩
  rw [powerSpectrum, trigPoly, Nat.sub_add_cancel hn, Finset.sum_range]
  refine sum_congr rfl fun t _ => ?_
  simp only [t.isLt, dite_true, Pi.zero_apply, zero_mul, add_zero]
  split_ifs with h
  · have : t = ⟨0, hn⟩ := Fin.ext h
    subst this; simp
  · ring

theorem powerSpectrum_continuous (r : Fin n → ℝ) : Continuous (powerSpectrum r) := by
  unfold powerSpectrum
  refine continuous_finsetSum _ fun t _ => ?_
  split_ifs <;> fun_prop

/-- Every value is taken on `[0, π]`. -/
theorem powerSpectrum_fold (r : Fin n → ℝ) (θ : ℝ) :
    ∃ w, 0 ≤ w ∧ w ≤ Real.pi ∧ powerSpectrum r w = powerSpectrum r θ := by
  refine ⟨Real.arccos (Real.cos θ), Real.arccos_nonneg _, Real.arccos_le_pi _, ?_⟩
  have h := Real.cos_arccos (Real.neg_one_le_cos θ) (Real.cos_le_one θ)
  set w := Real.arccos (Real.cos θ)
  have hc : ∀ t : ℕ, Real.cos (t * w) = Real.cos (t * θ) := by
    intro t
    obtain ⟨k, hk⟩ := Real.cos_eq_cos_iff.1 h
    rcases hk with hk | hk
    · rw [hk, mul_add, show (t : ℝ) * (2 * k * Real.pi) = ((t * k : ℤ) : ℝ) * (2 * Real.pi) by push_cast; ring,
        add_comm, Real.cos_add_int_mul_two_pi]
    · rw [hk, mul_sub, show (t : ℝ) * (2 * k * Real.pi) = ((t * k : ℤ) : ℝ) * (2 * Real.pi) by push_cast; ring,
        Real.cos_int_mul_two_pi_sub]
  simp only [powerSpectrum, hc]

theorem freq_cell {m : ℕ} (hm : 2 ≤ m) {w : ℝ} (h0 : 0 ≤ w) (h1 : w ≤ Real.pi) :
    ∃ i, i + 1 < m ∧ freq m i ≤ w ∧ w ≤ freq m (i + 1) := by
  have hpi := Real.pi_pos
  have hm1 : (0 : ℝ) < (m : ℝ) - 1 := by
    have : (2 : ℝ) ≤ m := by exact_mod_cast hm
    linarith
  set q := w * ((m : ℝ) - 1) / Real.pi with hq
  have hq0 : 0 ≤ q := by positivity
  have hwq : w = q * Real.pi / ((m : ℝ) - 1) := by rw [hq]; field_simp
  have hq1 : q ≤ (m : ℝ) - 1 := by rw [hq, div_le_iff₀ hpi]; nlinarith
  have hstep : ∀ a b : ℝ, a ≤ b → a * Real.pi / ((m : ℝ) - 1) ≤ b * Real.pi / ((m : ℝ) - 1) := fun a b h => by
    gcongr
  by_cases hf : ⌊q⌋₊ + 1 < m
  · refine ⟨⌊q⌋₊, hf, ?_, ?_⟩
    · rw [hwq]; exact hstep _ _ (Nat.floor_le hq0)
    · rw [hwq]; exact hstep _ _ (by push_cast; exact (Nat.lt_floor_add_one q).le)
  · refine ⟨m - 2, by omega, ?_, ?_⟩
    · rw [hwq]
      refine hstep _ _ ?_
      have h2 : m - 2 ≤ ⌊q⌋₊ := by omega
      exact le_trans (by exact_mod_cast h2) (Nat.floor_le hq0)
    · rw [hwq]
      refine hstep _ _ ?_
      have : ((m - 2 + 1 : ℕ) : ℝ) = (m : ℝ) - 1 := by
        rw [show m - 2 + 1 = m - 1 by omega, Nat.cast_sub (by omega)]; simp
      rw [this]; exact hq1

/-- **C90** (discretisation).  `m ≥ 2` equispaced samples of the spectrum of `n` coefficients on `[0, π]`, with
`c = ((n-1)π/(m-1))²/8 < 1`.  If the samples are bounded by `G` in absolute value, the spectrum is bounded by `G/(1-c)`
everywhere, and between two neighbouring samples it exceeds their range by at most `G·c/(1-c)`. -/
theorem C90_between {m : ℕ} (hm : 2 ≤ m) (r : Fin n → ℝ) {c G : ℝ} (hcdef : c = (((n - 1 : ℕ) : ℝ) * Real.pi / ((m : ℝ) - 1)) ^ 2 / 8)
    (hc : c < 1) (hG : ∀ i < m, |powerSpectrum r (freq m i)| ≤ G) :
    (∀ w, |powerSpectrum r w| ≤ G / (1 - c)) ∧
    ∀ i, i + 1 < m → ∀ w, freq m i ≤ w → w ≤ freq m (i + 1) →
      min (powerSpectrum r (freq m i)) (powerSpectrum r (freq m (i + 1))) - G * (c / (1 - c)) ≤ powerSpectrum r w ∧
      powerSpectrum r w ≤ max (powerSpectrum r (freq m i)) (powerSpectrum r (freq m (i + 1))) + G * (c / (1 - c)) := by
  obtain ⟨a, ha⟩ := powerSpectrum_trigPoly r
  have hc0 : 0 ≤ c := by rw [hcdef]; positivity
  have hc1 : 0 < 1 - c := by linarith
  have hstep : ∀ i : ℕ, freq m (i + 1) - freq m i = Real.pi / ((m : ℝ) - 1) := fun i => by
    simp only [freq]; push_cast; ring
  -- between samples, for any bound `M`
  have hb : ∀ M, (∀ w, |powerSpectrum r w| ≤ M) → ∀ i, i + 1 < m → ∀ w, freq m i ≤ w → w ≤ freq m (i + 1) →
      min (powerSpectrum r (freq m i)) (powerSpectrum r (freq m (i + 1))) - c * M ≤ powerSpectrum r w ∧
      powerSpectrum r w ≤ max (powerSpectrum r (freq m i)) (powerSpectrum r (freq m (i + 1))) + c * M := by
    intro M hM i hi w h1 h2
    have hcM : (((n - 1 : ℕ) : ℝ) * (freq m (i + 1) - freq m i)) ^ 2 / 8 * M = c * M := by
      rw [hstep, hcdef]; ring
    have hneg : ∀ w, trigPoly (n - 1) (-a) 0 w = -powerSpectrum r w := fun w => by
      rw [ha]; simp [trigPoly]
    have k1 := trigPoly_between (a := a) (b := 0) (d := n - 1) (M := M) (fun θ => by rw [← ha]; exact hM θ) h1 h2
    have k2 := trigPoly_between (a := -a) (b := 0) (d := n - 1) (M := M) (fun θ => by rw [hneg, abs_neg]; exact hM θ) h1 h2
    rw [hcM] at k1 k2
    simp only [← ha] at k1
    simp only [hneg, max_neg_neg] at k2
    exact ⟨by linarith, k1⟩
  have hbd : ∀ w, |powerSpectrum r w| ≤ G / (1 - c) := by
    obtain ⟨ws, hws, hmax⟩ := isCompact_Icc.exists_isMaxOn (s := Set.Icc 0 Real.pi) ⟨0, le_rfl, Real.pi_pos.le⟩
      (f := fun w => |powerSpectrum r w|) (powerSpectrum_continuous r).abs.continuousOn
    have hM : ∀ w, |powerSpectrum r w| ≤ |powerSpectrum r ws| := fun θ => by
      obtain ⟨w, h0, h1, h2⟩ := powerSpectrum_fold r θ
      rw [← h2]; exact hmax ⟨h0, h1⟩
    obtain ⟨i, hi, h1, h2⟩ := freq_cell hm hws.1 hws.2
    obtain ⟨k1, k2⟩ := hb _ hM i hi ws h1 h2
    have g1 := abs_le.1 (hG i (by omega))
    have g2 := abs_le.1 (hG (i + 1) hi)
    have e1 : max (powerSpectrum r (freq m i)) (powerSpectrum r (freq m (i + 1))) ≤ G := max_le g1.2 g2.2
    have e2 : -G ≤ min (powerSpectrum r (freq m i)) (powerSpectrum r (freq m (i + 1))) := le_min g1.1 g2.1
    have e3 : |powerSpectrum r ws| ≤ G + c * |powerSpectrum r ws| := abs_le.2 ⟨by linarith, by linarith⟩
    intro w
    refine (hM w).trans ?_
    rw [le_div_iff₀ hc1]
    linarith
  refine ⟨hbd, fun i hi w h1 h2 => ?_⟩
  have := hb _ hbd i hi w h1 h2
  rwa [show c * (G / (1 - c)) = G * (c / (1 - c)) by ring] at this

/-- The specification of `create_lowpass_case` in terms of the spectrum at the `15 N` frequencies. -/
structure GridSpec (N : ℕ) [NeZero N] (L U S : ℝ) (z : Fin N → ℝ) : Prop where
  pass : ∀ i < 15 * N, freq (15 * N) i ≤ 0.12 * Real.pi →
    L ≤ powerSpectrum z (freq (15 * N) i) ∧ powerSpectrum z (freq (15 * N) i) ≤ U
  stop : ∀ i < 15 * N, 0.20 * Real.pi ≤ freq (15 * N) i →
    0 ≤ powerSpectrum z (freq (15 * N) i) ∧ powerSpectrum z (freq (15 * N) i) ≤ S
  rest : ∀ i < 15 * N, 0.12 * Real.pi < freq (15 * N) i → freq (15 * N) i < 0.20 * Real.pi →
    0 ≤ powerSpectrum z (freq (15 * N) i)
  first : 0 ≤ z 0

theorem freq_mono {m : ℕ} (hm : 2 ≤ m) {i j : ℕ} (h : i ≤ j) : freq m i ≤ freq m j := by
  have hm1 : (0 : ℝ) < (m : ℝ) - 1 := by
    have : (2 : ℝ) ≤ m := by exact_mod_cast hm
    linarith
  have hpi := Real.pi_pos
  have hij : (i : ℝ) ≤ j := by exact_mod_cast h
  unfold freq; gcongr

theorem getLast?_filter {m a : ℕ} {p : ℕ → Bool} (h : ((List.range m).filter p).getLast? = some a) :
    a < m ∧ p a ∧ ∀ i < m, p i → i ≤ a := by
  obtain ⟨l, hl⟩ := List.getLast?_eq_some_iff.1 h
  have hs : List.Pairwise (· < ·) ((List.range m).filter p) := List.Pairwise.filter _ List.pairwise_lt_range
  have ha : a ∈ (List.range m).filter p := by rw [hl]; simp
  refine ⟨by simpa using (List.mem_filter.1 ha).1, (List.mem_filter.1 ha).2, fun i hi hp => ?_⟩
  have hmem : i ∈ (List.range m).filter p := List.mem_filter.2 ⟨by simpa using hi, hp⟩
  rw [hl] at hmem hs
  rcases List.mem_append.1 hmem with h1 | h1
  · exact ((List.pairwise_append.1 hs).2.2 i h1 a (by simp)).le
  · simp at h1; exact h1.le

theorem head?_filter {m b : ℕ} {p : ℕ → Bool} (h : ((List.range m).filter p).head? = some b) :
    b < m ∧ p b ∧ ∀ i < m, p i → b ≤ i := by
  obtain ⟨l, hl⟩ := List.head?_eq_some_iff.1 h
  have hs : List.Pairwise (· < ·) ((List.range m).filter p) := List.Pairwise.filter _ List.pairwise_lt_range
  have ha : b ∈ (List.range m).filter p := by rw [hl]; simp
  refine ⟨by simpa using (List.mem_filter.1 ha).1, (List.mem_filter.1 ha).2, fun i hi hp => ?_⟩
  have hmem : i ∈ (List.range m).filter p := List.mem_filter.2 ⟨by simpa using hi, hp⟩
  rw [hl] at hmem hs
  rcases List.mem_cons.1 hmem with h1 | h1
  · exact h1.ge
  · exact ((List.pairwise_cons.1 hs).1 i h1).le

/-- A statement about all rows of a band of grid rows. -/
theorem gridBand_forall {n m : ℕ} {ind : List ℕ} (P : (Fin n → ℝ) → Prop) :
    (∀ k, P ((gridBand n m ind).row k)) ↔ ∀ i ∈ ind, P (gridRow n (freq m i)) := by
  constructor
  · intro h i hi
    obtain ⟨k, hk⟩ := List.get_of_mem hi
    have := h k
    simpa only [gridBand, hk] using this
  · intro h k
    exact h _ (List.get_mem _ _)

theorem rpow_logb_div {x : ℝ} (hx : 0 < x) : (10 : ℝ) ^ (20 * Real.logb 10 x / 20) = x := by
  rw [mul_div_cancel_left₀ _ (by norm_num), Real.rpow_logb (by norm_num) (by norm_num) hx]

/-- **C91** (set-up).  For every `N ≥ 1` `create_lowpass_case(N)` succeeds with `Lpsq = 1.025⁻²`, `Upsq = 1.025²`,
`Spsq = 1/64`, round-robin counters in range and a nonempty stopband; and its three matrices cover every grid frequency
exactly as intended: a design meets the oracle's specification iff its spectrum does at all `15 N` frequencies. -/
theorem C91_create_lowpass_case (N : ℕ) [NeZero N] :
    ∃ o, createLowpassCase N = .ok (o, 1 / 64) ∧ o.Inv ∧ 0 < o.As.N ∧ o.Lpsq = (1.025 ^ 2)⁻¹ ∧ o.Upsq = 1.025 ^ 2 ∧
      ∀ S z, o.Meets S z ↔ GridSpec N ((1.025 ^ 2)⁻¹) (1.025 ^ 2) S z := by
  have hN : 0 < N := Nat.pos_of_ne_zero (NeZero.ne N)
  have hm : 2 ≤ 15 * N := by omega
  have hpi := Real.pi_pos
  have hL : ((10 : ℝ) ^ (-(20 * Real.logb 10 (1 + 0.025)) / 20)) ^ 2 = (1.025 ^ 2)⁻¹ := by
    rw [neg_div, Real.rpow_neg (by norm_num), rpow_logb_div (by norm_num)]; norm_num
  have hU : ((10 : ℝ) ^ (20 * Real.logb 10 (1 + 0.025) / 20)) ^ 2 = 1.025 ^ 2 := by
    rw [rpow_logb_div (by norm_num)]; norm_num
  have hS : ((10 : ℝ) ^ (20 * Real.logb 10 0.125 / 20)) ^ 2 = 1 / 64 := by
    rw [rpow_logb_div (by norm_num)]; norm_num
  unfold createLowpassCase
  simp only [hL, hU, hS]
  set m := 15 * N with hmdef
  have h0 : (0 : ℕ) ∈ (List.range m).filter (fun i => decide (freq m i ≤ 0.12 * Real.pi)) := by
    refine List.mem_filter.2 ⟨by simp; omega, ?_⟩
    simp only [freq]; norm_num; positivity
  have h1 : m - 1 ∈ (List.range m).filter (fun i => decide (0.20 * Real.pi ≤ freq m i)) := by
    refine List.mem_filter.2 ⟨by simp; omega, ?_⟩
    have hm1 : ((m - 1 : ℕ) : ℝ) = (m : ℝ) - 1 := by rw [Nat.cast_sub (by omega)]; simp
    have hm2 : (0 : ℝ) < (m : ℝ) - 1 := by rw [← hm1]; exact_mod_cast (by omega : 0 < m - 1)
    simp only [freq, decide_eq_true_eq, hm1]
    rw [mul_div_assoc, mul_div_left_comm, div_self hm2.ne']; linarith
  cases ha : ((List.range m).filter (fun i => decide (freq m i ≤ 0.12 * Real.pi))).getLast? with
  | none => rw [List.getLast?_eq_none_iff] at ha; rw [ha] at h0; simp at h0
  | some a =>
  cases hb : ((List.range m).filter (fun i => decide (0.20 * Real.pi ≤ freq m i))).head? with
  | none => rw [List.head?_eq_none_iff] at hb; rw [hb] at h1; simp at h1
  | some b =>
  obtain ⟨a1, a2, a3⟩ := getLast?_filter ha
  obtain ⟨b1, b2, b3⟩ := head?_filter hb
  simp only [decide_eq_true_eq] at a2 a3 b2 b3
  refine ⟨_, rfl, ⟨Nat.zero_le _, Nat.zero_le _, Nat.zero_le _⟩, List.length_pos_of_mem h1, rfl, rfl, fun S z => ?_⟩
  have hr : ∀ i, i ∈ List.range' (a + 1) (b - (a + 1)) ↔
      i < m ∧ 0.12 * Real.pi < freq m i ∧ freq m i < 0.20 * Real.pi := by
    intro i
    rw [List.mem_range'_1]
    constructor
    · rintro ⟨h2, h3⟩
      have him : i < m := by omega
      refine ⟨him, ?_, ?_⟩
      · by_contra h4
        have := a3 i him (not_lt.1 h4); omega
      · by_contra h4
        have := b3 i him (not_lt.1 h4); omega
    · rintro ⟨h2, h3, h4⟩
      have k1 : a < i := by
        by_contra h5
        exact absurd (freq_mono hm (not_lt.1 h5)) (not_le.2 (lt_of_le_of_lt a2 h3))
      have k2 : i < b := by
        by_contra h5
        exact absurd (freq_mono hm (not_lt.1 h5)) (not_le.2 (lt_of_lt_of_le h4 b2))
      omega
  unfold Lowpass.Meets
  constructor
  · rintro ⟨m1, m2, m3, m4⟩
    rw [gridBand_forall (fun g => _ ≤ g ⬝ᵥ z ∧ g ⬝ᵥ z ≤ _)] at m1 m2
    rw [gridBand_forall (fun g => 0 ≤ g ⬝ᵥ z)] at m3
    simp only [gridRow_dot, List.mem_filter, List.mem_range, decide_eq_true_eq] at m1 m2 m3
    exact ⟨fun i hi h => m1 i ⟨hi, h⟩, fun i hi h => m2 i ⟨hi, h⟩, fun i hi h h' => m3 i ((hr i).2 ⟨hi, h, h'⟩), m4⟩
  · rintro ⟨m1, m2, m3, m4⟩
    refine ⟨?_, ?_, ?_, m4⟩
    · rw [gridBand_forall (fun g => _ ≤ g ⬝ᵥ z ∧ g ⬝ᵥ z ≤ _)]
      simp only [gridRow_dot, List.mem_filter, List.mem_range, decide_eq_true_eq]
      exact fun i h => m1 i h.1 h.2
    · rw [gridBand_forall (fun g => _ ≤ g ⬝ᵥ z ∧ g ⬝ᵥ z ≤ _)]
      simp only [gridRow_dot, List.mem_filter, List.mem_range, decide_eq_true_eq]
      exact fun i h => m2 i h.1 h.2
    · rw [gridBand_forall (fun g => 0 ≤ g ⬝ᵥ z)]
      simp only [gridRow_dot]
      exact fun i h => m3 i ((hr i).1 h).1 ((hr i).1 h).2.1 ((hr i).1 h).2.2

/-- **C91** (set-up, no coefficients): `create_lowpass_case(0)` raises `IndexError`. -/
theorem C91_create_lowpass_case_zero : createLowpassCase 0 = .error .indexError := by simp [createLowpassCase]

/-- **C91** (all frequencies).  A design meeting the grid specification of `create_lowpass_case(N)` at level `S`, with
transition-band samples at most `G` (`U, S ≤ G`), meets it at every frequency up to `G/181`: the spectrum is within
`[-G/181, G + G/181]` everywhere, within `[L - G/181, U + G/181]` on the sampled passband and at most `S + G/181` on the
sampled stopband.  So 15 samples per coefficient cost about half a percent. -/
theorem C91_all_frequencies {N : ℕ} [NeZero N] {L U S G : ℝ} {z : Fin N → ℝ} (hz : GridSpec N L U S z) (hL : 0 ≤ L) (hU : U ≤ G)
    (hS : S ≤ G) (hG : ∀ i < 15 * N, 0.12 * Real.pi < freq (15 * N) i → freq (15 * N) i < 0.20 * Real.pi →
      powerSpectrum z (freq (15 * N) i) ≤ G) :
    (∀ w, -(G / 181) ≤ powerSpectrum z w ∧ powerSpectrum z w ≤ G + G / 181) ∧
    (∀ j < 15 * N, freq (15 * N) j ≤ 0.12 * Real.pi → ∀ w, 0 ≤ w → w ≤ freq (15 * N) j →
      L - G / 181 ≤ powerSpectrum z w ∧ powerSpectrum z w ≤ U + G / 181) ∧
    (∀ j < 15 * N, 0.20 * Real.pi ≤ freq (15 * N) j → ∀ w, freq (15 * N) j ≤ w → w ≤ Real.pi →
      powerSpectrum z w ≤ S + G / 181) ∧
    ∀ δ, (∀ i < 15 * N, δ ≤ powerSpectrum z (freq (15 * N) i)) → ∀ w, δ - G / 181 ≤ powerSpectrum z w := by
  have hN : 0 < N := Nat.pos_of_ne_zero (NeZero.ne N)
  have hm : 2 ≤ 15 * N := by omega
  have hpi := Real.pi_pos
  set m := 15 * N with hmdef
  have hgrid : ∀ i < m, 0 ≤ powerSpectrum z (freq m i) ∧ powerSpectrum z (freq m i) ≤ G := by
    intro i hi
    rcases le_or_gt (freq m i) (0.12 * Real.pi) with h1 | h1
    · obtain ⟨k1, k2⟩ := hz.pass i hi h1
      exact ⟨hL.trans k1, k2.trans hU⟩
    rcases le_or_gt (0.20 * Real.pi) (freq m i) with h2 | h2
    · obtain ⟨k1, k2⟩ := hz.stop i hi h2
      exact ⟨k1, k2.trans hS⟩
    · exact ⟨hz.rest i hi h1 h2, hG i hi h1 h2⟩
  have hG0 : 0 ≤ G := (hgrid 0 (by omega)).1.trans (hgrid 0 (by omega)).2
  set c : ℝ := (((N - 1 : ℕ) : ℝ) * Real.pi / ((m : ℝ) - 1)) ^ 2 / 8 with hc
  have hc1 : c ≤ 0.005484 := by
    have e1 : ((N - 1 : ℕ) : ℝ) * Real.pi / ((m : ℝ) - 1) ≤ Real.pi / 15 := by
      have hNR : (1 : ℝ) ≤ N := by exact_mod_cast hN
      have hcast : ((N - 1 : ℕ) : ℝ) = N - 1 := by rw [Nat.cast_sub hN]; simp
      rw [hmdef, hcast]
      push_cast
      rw [div_le_div_iff₀ (by linarith) (by norm_num)]
      nlinarith
    have e0 : 0 ≤ ((N - 1 : ℕ) : ℝ) * Real.pi / ((m : ℝ) - 1) := by
      have : (2 : ℝ) ≤ m := by exact_mod_cast hm
      have : 0 < (m : ℝ) - 1 := by linarith
      positivity
    have e2 : Real.pi / 15 ≤ 3.1416 / 15 := by linarith [Real.pi_lt_d4]
    rw [hc]
    have e3 := mul_self_le_mul_self e0 (e1.trans e2)
    nlinarith
  have hc0 : 0 ≤ c := by positivity
  have hε : G * (c / (1 - c)) ≤ G / 181 := by
    rw [div_eq_mul_one_div G 181]
    refine mul_le_mul_of_nonneg_left ?_ hG0
    rw [div_le_div_iff₀ (by linarith) (by norm_num)]
    linarith
  obtain ⟨-, hb⟩ := C90_between hm z hc (by linarith) (G := G) fun i hi =>
    abs_le.2 ⟨by linarith [(hgrid i hi).1], (hgrid i hi).2⟩
  have hcell : ∀ w, 0 ≤ w → w ≤ Real.pi → ∃ i, i + 1 < m ∧ freq m i ≤ w ∧ w ≤ freq m (i + 1) ∧
      min (powerSpectrum z (freq m i)) (powerSpectrum z (freq m (i + 1))) - G / 181 ≤ powerSpectrum z w ∧
      powerSpectrum z w ≤ max (powerSpectrum z (freq m i)) (powerSpectrum z (freq m (i + 1))) + G / 181 := by
    intro w h0 h1
    obtain ⟨i, hi, k1, k2⟩ := freq_cell hm h0 h1
    obtain ⟨k3, k4⟩ := hb i hi w k1 k2
    exact ⟨i, hi, k1, k2, by linarith, by linarith⟩
  have hlow : ∀ δ, (∀ i < m, δ ≤ powerSpectrum z (freq m i)) → ∀ w, δ - G / 181 ≤ powerSpectrum z w := by
    intro δ hδ θ
    obtain ⟨w, h0, h1, h2⟩ := powerSpectrum_fold z θ
    obtain ⟨i, hi, -, -, k3, -⟩ := hcell w h0 h1
    rw [← h2]
    have := le_min (hδ i (by omega)) (hδ (i + 1) hi)
    linarith
  refine ⟨fun θ => ⟨?_, ?_⟩, fun j hj hjp w h0 h1 => ?_, fun j hj hjs w h0 h1 => ?_, hlow⟩
  · have := hlow 0 (fun i hi => (hgrid i hi).1) θ
    linarith
  · obtain ⟨w, h0, h1, h2⟩ := powerSpectrum_fold z θ
    obtain ⟨i, hi, -, -, -, k4⟩ := hcell w h0 h1
    rw [← h2]
    have := max_le (hgrid i (by omega)).2 (hgrid (i + 1) hi).2
    linarith
  · obtain ⟨i, hi, k1, k2, k3, k4⟩ := hcell w h0 (h1.trans (hjp.trans (by linarith)))
    rcases Nat.lt_or_ge i j with hij | hij
    · have q1 := hz.pass i (by omega) ((freq_mono hm hij.le).trans hjp)
      have q2 := hz.pass (i + 1) hi ((freq_mono hm hij).trans hjp)
      have := le_min q1.1 q2.1
      have := max_le q1.2 q2.2
      exact ⟨by linarith, by linarith⟩
    · have hw : w = freq m j := le_antisymm h1 ((freq_mono hm hij).trans k1)
      have q := hz.pass j hj hjp
      rw [hw]
      constructor <;> linarith [q.1, q.2, div_nonneg hG0 (by norm_num : (0 : ℝ) ≤ 181)]
  · obtain ⟨i, hi, k1, k2, k3, k4⟩ := hcell w (le_trans (by linarith) (hjs.trans h0)) h1
    rcases Nat.lt_or_ge i j with hij | hij
    · have hw : w = freq m j := le_antisymm (k2.trans (freq_mono hm hij)) h0
      have q := hz.stop j hj hjs
      rw [hw]
      linarith [q.2, div_nonneg hG0 (by norm_num : (0 : ℝ) ≤ 181)]
    · have q1 := hz.stop i (by omega) (hjs.trans (freq_mono hm hij))
      have q2 := hz.stop (i + 1) hi (hjs.trans (freq_mono hm (by omega)))
      have := max_le q1.2 q2.2
      linarith

/-- **C91** (the whole design).  `cutting_plane_dc` on `create_lowpass_case(N)` from any well-formed ellipsoid and any
`t0 ≥ 0`: a returned design meets the specification at all frequencies up to `G/181`; and if all its samples are at
least `δ > G/181`, `spectral_fact` yields an impulse response whose power spectrum differs from the design by no more
than the bound of C86. -/
theorem C91_lowpass_design {N : ℕ} [NeZero N] {o₀ o : Lowpass N} {S0 : ℝ} (hcase : createLowpassCase N = .ok (o₀, S0))
    {E₀ E : Ell N} (hE : E₀.WF) {opt : Options ℝ} {t0 t G : ℝ} (ht0 : 0 ≤ t0) {x : Fin N → ℝ} {info : CInfo}
    (h : cuttingPlaneDc (fun x t => liftOracle (lowpassOmega x t)) (Ell.space (Lowpass N) N) t0 opt (o₀, E₀) =
      .ok ((o, E), some x, t, info))
    (hG : ∀ i < 15 * N, powerSpectrum x (freq (15 * N) i) ≤ G) (hU : 1.025 ^ 2 ≤ G) :
    t ≤ t0 ∧ (∀ w, -(G / 181) ≤ powerSpectrum x w ∧ powerSpectrum x w ≤ G + G / 181) ∧
    (∀ j < 15 * N, freq (15 * N) j ≤ 0.12 * Real.pi → ∀ w, 0 ≤ w → w ≤ freq (15 * N) j →
      (1.025 ^ 2)⁻¹ - G / 181 ≤ powerSpectrum x w ∧ powerSpectrum x w ≤ 1.025 ^ 2 + G / 181) ∧
    (∀ j < 15 * N, 0.20 * Real.pi ≤ freq (15 * N) j → ∀ w, freq (15 * N) j ≤ w → w ≤ Real.pi →
      powerSpectrum x w ≤ t + G / 181) ∧
    ∀ δ, G / 181 < δ → (∀ i < 15 * N, δ ≤ powerSpectrum x (freq (15 * N) i)) →
      ∃ (g h0 : Fin N → ℝ) (ρ : ℝ), spectralFact x = .ok g ∧ 0 ≤ ρ ∧ ρ < 1 ∧
        (∀ z : ℂ, ∑ j : Fin N, (h0 j : ℂ) * z ^ (j : ℕ) = 0 → 1 ≤ ρ * ‖z‖) ∧
        (∀ w, (∑ k : Fin N, h0 k * Real.cos (k * w)) ^ 2 + (∑ k : Fin N, h0 k * Real.sin (k * w)) ^ 2 = powerSpectrum x w) ∧
        ∀ w, |(∑ k : Fin N, g k * Real.cos (k * w)) ^ 2 + (∑ k : Fin N, g k * Real.sin (k * w)) ^ 2 - powerSpectrum x w| ≤
          N * sfErr N (∑ j, |h0 j|) ρ * (2 * (∑ j, |h0 j|) + N * sfErr N (∑ j, |h0 j|) ρ) := by
  obtain ⟨o1, h1, hI, hAs, hL', hU', hM⟩ := C91_create_lowpass_case N
  rw [hcase] at h1
  simp only [Except.ok.injEq, Prod.mk.injEq] at h1
  obtain ⟨rfl, -⟩ := h1
  obtain ⟨hv, -⟩ := C89_lowpass_verdict hI (by rw [hL', hU']; norm_num) hAs hE ht0 h
  rcases hv with ⟨hv, -⟩ | ⟨x', hx, hm, ⟨k, hk⟩, ht⟩
  · cases hv
  cases hx
  have hz := (hM t x).1 hm
  have htG : t ≤ G := by
    have := (hM G x).2 ⟨hz.pass, fun i hi h => ⟨(hz.stop i hi h).1, hG i hi⟩, hz.rest, hz.first⟩
    rw [← hk]; exact (this.stop k).2
  obtain ⟨r1, r2, r3, r4⟩ := C91_all_frequencies hz (by positivity) hU htG fun i hi _ _ => hG i hi
  refine ⟨ht, r1, r2, r3, fun δ hδ hs => ?_⟩
  obtain ⟨g, h0, ρ, e1, e2, e3, -, e5, e6, -, e8⟩ := C86_spectral_fact_positive (Nat.pos_of_ne_zero (NeZero.ne N))
    (r := x) fun w => by linarith [r4 δ hs w]
  exact ⟨g, h0, ρ, e1, e2, e3, e5, e6, e8⟩

/-- C91 applies to `z = (1, 1/100)`, `S = 11/10`, `G = 11/10`, `δ = 9/10`. -/
example : GridSpec 2 ((1.025 ^ 2)⁻¹) (1.025 ^ 2) (11 / 10) ![1, 1 / 100] ∧
    ∀ w, (9 / 10 : ℝ) ≤ powerSpectrum ![1, 1 / 100] w ∧ powerSpectrum ![1, 1 / 100] w ≤ 11 / 10 := by
  have hb : ∀ w, (98 / 100 : ℝ) ≤ powerSpectrum ![1, 1 / 100] w ∧ powerSpectrum ![1, 1 / 100] w ≤ 102 / 100 := fun w => by
    have h1 := Real.neg_one_le_cos w
    have h2 := Real.cos_le_one w
    rw [powerSpectrum, Fin.sum_univ_two]
    simp
    constructor <;> linarith
  refine ⟨⟨fun i _ _ => ?_, fun i _ _ => ?_, fun i _ _ _ => ?_, by simp⟩, fun w => ?_⟩
  all_goals have := hb
  · have := hb (freq (15 * 2) i); constructor <;> norm_num at * <;> linarith
  · have := hb (freq (15 * 2) i); constructor <;> linarith
  · have := hb (freq (15 * 2) i); linarith
  · have := hb w; constructor <;> linarith

/-- **C91** (the grid is not enough).  For `N = 3` there are a design meeting the grid specification (level `Upsq`) and
a frequency where its spectrum is negative, so that no filter has this power spectrum. -/
theorem C91_grid_not_enough : ∃ z : Fin 3 → ℝ, GridSpec 3 ((1.025 ^ 2)⁻¹) (1.025 ^ 2) (1.025 ^ 2) z ∧
    (∃ w, powerSpectrum z w < 0) ∧ ¬ ∃ h : Fin 3 → ℝ, inverseSpectralFact h = z := by
  have hpi := Real.pi_pos
  have hpi4 := Real.pi_lt_d4
  set c1 := Real.cos (Real.pi / 44) with hc1
  have hc1l : 0.997 ≤ c1 := by
    have := Real.one_sub_sq_div_two_le_cos (x := Real.pi / 44)
    have h2 : (Real.pi / 44) ^ 2 ≤ (3.1416 / 44) ^ 2 := by gcongr
    rw [hc1]; norm_num at h2 ⊢; linarith
  have hc1u : c1 ≤ 1 := Real.cos_le_one _
  set al : ℝ := 1.025 ^ 2 / (2 * (1 + c1)) with hal
  have hal0 : 0 < al := by positivity
  have halU : al * (2 * (1 + c1)) = 1.025 ^ 2 := by rw [hal]; field_simp
  let z : Fin 3 → ℝ := ![al * (1 / 2 + c1), al * (1 + c1) / 2, al / 4]
  have hR : ∀ w, powerSpectrum z w = al * ((1 + Real.cos w) * (Real.cos w + c1)) := by
    intro w
    rw [powerSpectrum, Fin.sum_univ_three]
    simp [z, Real.cos_two_mul]
    ring
  have hup : ∀ w, powerSpectrum z w ≤ 1.025 ^ 2 := by
    intro w
    have h1 := Real.neg_one_le_cos w
    have h2 := Real.cos_le_one w
    rw [hR, ← halU]
    refine mul_le_mul_of_nonneg_left ?_ hal0.le
    nlinarith
  have hnn : ∀ i < 15 * 3, 0 ≤ powerSpectrum z (freq (15 * 3) i) := by
    intro i hi
    rw [hR]
    refine mul_nonneg hal0.le ?_
    rcases Nat.lt_or_ge i 44 with h | h
    · refine mul_nonneg (by linarith [Real.neg_one_le_cos (freq (15 * 3) i)]) ?_
      have h3 : Real.cos (Real.pi - Real.pi / 44) ≤ Real.cos (freq (15 * 3) i) := by
        refine Real.cos_le_cos_of_nonneg_of_le_pi ?_ (by linarith) ?_
        · unfold freq; norm_num; positivity
        · have : (i : ℝ) ≤ 43 := by exact_mod_cast (by omega : i ≤ 43)
          unfold freq; norm_num
          rw [div_le_iff₀ (by norm_num)]; nlinarith
      rw [Real.cos_pi_sub] at h3
      linarith
    · have : i = 44 := by omega
      subst this
      have : freq (15 * 3) 44 = Real.pi := by unfold freq; norm_num
      rw [this]; simp
  have hneg : powerSpectrum z (Real.pi - Real.pi / 88) < 0 := by
    rw [hR, Real.cos_pi_sub]
    have h1 : c1 < Real.cos (Real.pi / 88) := Real.cos_lt_cos_of_nonneg_of_le_pi (by positivity) (by linarith) (by linarith)
    have h2 : Real.cos (Real.pi / 88) < 1 := by
      rw [← Real.cos_zero]
      exact Real.cos_lt_cos_of_nonneg_of_le_pi le_rfl (by linarith) (by positivity)
    exact mul_neg_of_pos_of_neg hal0 (mul_neg_of_pos_of_neg (by linarith) (by linarith))
  refine ⟨z, ⟨fun i hi hp => ⟨?_, hup _⟩, fun i hi _ => ⟨hnn i hi, hup _⟩, fun i hi _ _ => hnn i hi, ?_⟩,
    ⟨_, hneg⟩, ?_⟩
  · have hf0 : 0 ≤ freq (15 * 3) i := by unfold freq; norm_num; positivity
    have hcl : 0.9289 ≤ Real.cos (freq (15 * 3) i) := by
      have h1 := Real.one_sub_sq_div_two_le_cos (x := freq (15 * 3) i)
      have h2 : freq (15 * 3) i ≤ 0.377 := by linarith
      have h3 : freq (15 * 3) i ^ 2 ≤ 0.377 ^ 2 := by gcongr
      norm_num at h3 ⊢; linarith
    rw [hR]
    have h4 : 0.93 * (2 * (1 + c1)) ≤ (1 + Real.cos (freq (15 * 3) i)) * (Real.cos (freq (15 * 3) i) + c1) := by nlinarith
    have h5 := mul_le_mul_of_nonneg_left h4 hal0.le
    have h6 : al * (0.93 * (2 * (1 + c1))) = 0.93 * 1.025 ^ 2 := by rw [← halU]; ring
    rw [h6] at h5
    refine le_trans ?_ h5
    norm_num
  · change 0 ≤ al * (1 / 2 + c1)
    positivity
  · rintro ⟨h, hh⟩
    rw [← hh, C52_power_spectrum] at hneg
    have := add_nonneg (sq_nonneg (∑ k : Fin 3, h k * Real.cos (k * (Real.pi - Real.pi / 88))))
      (sq_nonneg (∑ k : Fin 3, h k * Real.sin (k * (Real.pi - Real.pi / 88))))
    linarith

end Verif
