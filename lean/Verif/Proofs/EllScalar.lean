import Verif.Model.Ell
import Mathlib.Tactic

/-! # Scalar analysis of the `_calc_*` methods -/
namespace Verif.Ell
variable {n : ℕ}

theorem pyDiv_ok {a b c : ℝ} : pyDiv a b = .ok c ↔ b ≠ 0 ∧ c = a / b := by
  unfold pyDiv; split_ifs with h <;> simp [h, eq_comm]

theorem pyDiv_err {a b : ℝ} {e} : pyDiv a b = .error e ↔ b = 0 ∧ e = .zeroDivision := by
  unfold pyDiv; split_ifs with h <;> simp [h, eq_comm]

theorem pySqrt_ok {a c : ℝ} : pySqrt a = .ok c ↔ 0 ≤ a ∧ c = Real.sqrt a := by
  unfold pySqrt; split_ifs with h
  · simp; intro h'; linarith
  · simp [not_lt.1 h, eq_comm]

theorem bind_ok_iff {α β : Type _} {x : Except PyErr α} {f : α → Except PyErr β} {b : β} :
    (x >>= f) = .ok b ↔ ∃ a, x = .ok a ∧ f a = .ok b := by
  cases x <;> simp [bind, Except.bind]

/-- All the ways `_calc_dc` can return. -/
inductive DcCase (n : ℕ) (tsq beta : ℝ) : Calc → Prop where
  | nosoln : √tsq < beta → DcCase n tsq beta (.reject .nosoln)
  | central : beta = 0 → DcCase n tsq beta (calcCc n √tsq)
  | noeffect : beta ≤ √tsq → beta ≠ 0 → √tsq + n * beta < 0 → DcCase n tsq beta (.reject .noeffect)
  | deep : beta ≤ √tsq → beta ≠ 0 → 0 < √tsq + n * beta → √tsq + beta ≠ 0 → tsq ≠ 0 →
      DcCase n tsq beta (.accept ((√tsq + n * beta) / (n + 1))
        (2 * ((√tsq + n * beta) / (n + 1)) / (√tsq + beta)) (c1 n * (1 - beta * (beta / tsq))))

theorem calcDc_ok {tsq beta tsq' : ℝ} {r : Calc} (ht : 0 ≤ tsq)
    (h : calcDc n tsq beta = .ok (r, tsq')) : tsq' = tsq ∧ DcCase n tsq beta r := by
  have hs : pySqrt tsq = .ok (√tsq) := pySqrt_ok.2 ⟨ht, rfl⟩
  simp only [calcDc, hs] at h
  by_cases h1 : √tsq - beta < 0
  · rw [if_pos h1] at h
    simp only [Except.ok.injEq, Prod.mk.injEq] at h
    obtain ⟨rfl, rfl⟩ := h
    exact ⟨rfl, .nosoln (by linarith)⟩
  rw [if_neg h1] at h
  by_cases h2 : beta = 0
  · rw [if_pos h2] at h
    simp only [Except.ok.injEq, Prod.mk.injEq] at h
    obtain ⟨rfl, rfl⟩ := h
    exact ⟨rfl, .central h2⟩
  rw [if_neg h2] at h
  by_cases h3 : √tsq + n * beta < 0
  · rw [if_pos h3] at h
    simp only [Except.ok.injEq, Prod.mk.injEq] at h
    obtain ⟨rfl, rfl⟩ := h
    exact ⟨rfl, .noeffect (by linarith) h2 h3⟩
  rw [if_neg h3] at h
  simp only [bind_ok_iff, pyDiv_ok] at h
  obtain ⟨_, ⟨h4, rfl⟩, _, ⟨h5, rfl⟩, _, ⟨h6, rfl⟩, h⟩ := h
  simp only [pure, Except.pure, Except.ok.injEq, Prod.mk.injEq] at h
  obtain ⟨rfl, rfl⟩ := h
  exact ⟨rfl, .deep (by linarith) h2 (lt_of_le_of_ne (not_lt.1 h3) (Ne.symm h4)) h5 h6⟩

/-- The general parallel-cut formulas (`ell.py:193-202`) at right-hand sides `b0`, `b1`. -/
noncomputable def parXi (n : ℕ) (tsq b0 b1 : ℝ) : ℝ :=
  √((1 - b0 * (b0 / tsq)) * (1 - b1 * (b1 / tsq)) +
    (n / 2 * ((b0 + b1) / tsq) * (b1 - b0)) * (n / 2 * ((b0 + b1) / tsq) * (b1 - b0)))
noncomputable def parSigma (n : ℕ) (tsq b0 b1 : ℝ) : ℝ :=
  n / (n + 1) + (1 + b0 * (b1 / tsq) - parXi n tsq b0 b1) /
    ((b0 + b1) / tsq * ((b0 + b1) / 2) * (n + 1))
noncomputable def parDelta (n : ℕ) (tsq b0 b1 : ℝ) : ℝ :=
  c1 n * (((1 - b0 * (b0 / tsq)) + (1 - b1 * (b1 / tsq))) / 2 + parXi n tsq b0 b1 / n)

/-- All the ways `_calc_ll_core` can return. -/
inductive LlCase (n : ℕ) (usePar : Bool) (tsq b0 b1 : ℝ) : Calc → Prop where
  | fallback {r} : (1 - b1 * (b1 / tsq) < 0 ∨ usePar = false) → DcCase n tsq b0 r →
      LlCase n usePar tsq b0 b1 r
  | nosoln : usePar = true → 0 ≤ 1 - b1 * (b1 / tsq) → b1 < b0 →
      LlCase n usePar tsq b0 b1 (.reject .nosoln)
  | noeffect : usePar = true → 0 ≤ 1 - b1 * (b1 / tsq) → b0 ≤ b1 → b0 ≠ 0 →
      n * (b0 * (b1 / tsq)) < -1 → LlCase n usePar tsq b0 b1 (.reject .noeffect)
  | parallel : usePar = true → 0 ≤ 1 - b1 * (b1 / tsq) → b0 ≤ b1 → -1 ≤ n * (b0 * (b1 / tsq)) →
      b0 + b1 ≠ 0 →
      LlCase n usePar tsq b0 b1 (.accept (parSigma n tsq b0 b1 * ((b0 + b1) / 2))
        (parSigma n tsq b0 b1) (parDelta n tsq b0 b1))

theorem calcLlCore_ok {usePar : Bool} {tsq b0 b1 tsq' : ℝ} {r : Calc} (ht : 0 ≤ tsq)
    (h : calcLlCore n usePar tsq b0 b1 = .ok (r, tsq')) :
    tsq' = tsq ∧ tsq ≠ 0 ∧ LlCase n usePar tsq b0 b1 r := by
  simp only [calcLlCore, bind_ok_iff, pyDiv_ok] at h
  obtain ⟨_, ⟨h0, rfl⟩, h⟩ := h
  by_cases h1 : 1 - b1 * (b1 / tsq) < 0 ∨ usePar = false
  · rw [if_pos h1] at h
    obtain ⟨rfl, h⟩ := calcDc_ok ht h
    exact ⟨rfl, h0, .fallback h1 h⟩
  rw [if_neg h1] at h
  have hu : usePar = true := by
    cases usePar
    · exact absurd (Or.inr rfl) h1
    · rfl
  have h1 : 0 ≤ 1 - b1 * (b1 / tsq) := by
    by_contra hc; exact h1 (Or.inl (not_le.1 hc))
  by_cases h2 : b1 - b0 < 0
  · rw [if_pos h2] at h
    simp only [pure, Except.pure, Except.ok.injEq, Prod.mk.injEq] at h
    obtain ⟨rfl, rfl⟩ := h
    exact ⟨rfl, h0, .nosoln hu h1 (by linarith)⟩
  rw [if_neg h2] at h
  have h2 : b0 ≤ b1 := by linarith
  by_cases h3 : b0 = 0
  · rw [if_pos h3] at h
    subst h3
    simp only [calcLlCc, bind_ok_iff, pyDiv_ok, pySqrt_ok] at h
    obtain ⟨_, ⟨_, ⟨h4, rfl⟩, _, ⟨h5, rfl⟩, _, ⟨h6, rfl⟩, h⟩, h'⟩ := h
    simp only [pure, Except.pure, Except.ok.injEq, Prod.mk.injEq] at h h'
    obtain ⟨rfl, rfl⟩ := h'
    have hb : b1 ≠ 0 := by rintro rfl; simp at h5
    have hn : (0 : ℝ) < n := lt_of_le_of_ne (by positivity) (Ne.symm h6)
    refine ⟨rfl, h0, ?_⟩
    have key := LlCase.parallel (n := n) (usePar := usePar) (tsq := tsq) (b0 := 0) (b1 := b1) hu h1 h2
      (by simp) (by simpa using hb)
    convert key using 1
    rw [← h]
    have hxi : √(1 - b1 * (b1 / tsq) + (halfN n * (b1 * (b1 / tsq))) ^ 2) = parXi n tsq 0 b1 := by
      unfold parXi halfN; congr 1; field_simp; ring
    have hsig : c3 n + c2 n * (1 - parXi n tsq 0 b1) / (b1 * (b1 / tsq)) = parSigma n tsq 0 b1 := by
      unfold parSigma c3 c2
      rw [zero_add, zero_mul, add_zero]
      field_simp
    rw [hxi, hsig]
    congr 1
    · rw [zero_add]; ring
    · unfold parDelta; congr 1; ring
  rw [if_neg h3] at h
  by_cases h4 : (n : ℝ) * (b0 * (b1 / tsq)) < -1
  · rw [if_pos h4] at h
    simp only [pure, Except.pure, Except.ok.injEq, Prod.mk.injEq] at h
    obtain ⟨rfl, rfl⟩ := h
    exact ⟨rfl, h0, .noeffect hu h1 h2 h3 h4⟩
  rw [if_neg h4] at h
  simp only [bind_ok_iff, pyDiv_ok, pySqrt_ok] at h
  obtain ⟨_, ⟨-, rfl⟩, _, ⟨-, rfl⟩, _, ⟨h5, rfl⟩, _, ⟨h6, rfl⟩, _, ⟨h7, rfl⟩, h⟩ := h
  simp only [pure, Except.pure, Except.ok.injEq, Prod.mk.injEq] at h
  obtain ⟨rfl, rfl⟩ := h
  refine ⟨rfl, h0, .parallel hu h1 h2 (not_lt.1 h4) ?_⟩
  intro hb; rw [hb] at h6; simp at h6

/-! ### What soundness needs from `(ρ, σ, δ)` -/

/-- Ranges of the parameters. -/
structure Range (sigma delta : ℝ) : Prop where
  s0 : 0 ≤ sigma
  s1 : sigma ≤ 1
  d0 : 0 ≤ delta

/-- The inequality that keeps the points whose `g`-coordinate relative to the centre is `u`. -/
def KeepsAt (tsq rho sigma delta u : ℝ) : Prop :=
  (u + rho) ^ 2 ≤ (1 - sigma) * (tsq * delta - tsq + u ^ 2) ∧ tsq - u ^ 2 ≤ tsq * delta

theorem range_cc (hn : 2 ≤ n) : Range (c2 n) (c1 n) := by
  have hn' : (2 : ℝ) ≤ n := by exact_mod_cast hn
  refine ⟨by unfold c2; positivity, ?_, ?_⟩
  · unfold c2; rw [div_le_one (by linarith)]; linarith
  · unfold c1; apply div_nonneg (by positivity); nlinarith

theorem keeps_cc (hn : 2 ≤ n) {tsq u : ℝ} (ht : 0 ≤ tsq) (hu2 : u ^ 2 ≤ tsq) (hu : u ≤ 0) :
    KeepsAt tsq (√tsq / (n + 1)) (c2 n) (c1 n) u := by
  have hn' : (2 : ℝ) ≤ n := by exact_mod_cast hn
  obtain ⟨τ, hτ, rfl⟩ : ∃ τ : ℝ, 0 ≤ τ ∧ tsq = τ ^ 2 := ⟨√tsq, Real.sqrt_nonneg _, (Real.sq_sqrt ht).symm⟩
  rw [Real.sqrt_sq hτ]
  have hul : -τ ≤ u := (abs_le_of_sq_le_sq' hu2 hτ).1
  have h1 : (n : ℝ) * n - 1 ≠ 0 := by nlinarith
  have h2 : (n : ℝ) + 1 ≠ 0 := by linarith
  have key : (1 - c2 n) * (τ ^ 2 * c1 n - τ ^ 2 + u ^ 2) - (u + τ / (n + 1)) ^ 2 =
      c2 n * (-u * (u + τ)) := by
    have h3 : (n : ℝ) * n - 1 = (n - 1) * (n + 1) := by ring
    have h4 : (n : ℝ) - 1 ≠ 0 := by linarith
    unfold c1 c2; rw [h3]; field_simp; ring
  constructor
  · have : 0 ≤ c2 n * (-u * (u + τ)) := by
      have := (range_cc hn).s0
      have : 0 ≤ -u * (u + τ) := mul_nonneg (by linarith) (by linarith)
      positivity
    linarith
  · have h1 : 1 ≤ c1 n := by unfold c1; rw [le_div_iff₀ (by nlinarith)]; linarith
    nlinarith [sq_nonneg u, sq_nonneg τ]

section deep
variable {τ β : ℝ}

theorem deep_one_sub_sigma (hn : 2 ≤ n) (h : τ + β ≠ 0) :
    1 - 2 * ((τ + n * β) / (n + 1)) / (τ + β) = (n - 1) * (τ - β) / ((n + 1) * (τ + β)) := by
  have hn' : (2 : ℝ) ≤ n := by exact_mod_cast hn
  field_simp; ring

theorem range_deep (hn : 2 ≤ n) (hτ : 0 < τ) (hb : β ≤ τ) (hg : 0 < τ + n * β) :
    0 < τ + β ∧ Range (2 * ((τ + n * β) / (n + 1)) / (τ + β)) (c1 n * (1 - β * (β / τ ^ 2))) := by
  have hn' : (2 : ℝ) ≤ n := by exact_mod_cast hn
  have hp : 0 < τ + β := by
    rcases le_or_gt 0 β with h | h
    · linarith
    · nlinarith
  refine ⟨hp, by positivity, ?_, ?_⟩
  · have := deep_one_sub_sigma (n := n) hn hp.ne'
    have h2 : 0 ≤ ((n : ℝ) - 1) * (τ - β) / ((n + 1) * (τ + β)) := by
      apply div_nonneg
      · apply mul_nonneg <;> linarith
      · positivity
    linarith
  · apply mul_nonneg (range_cc hn).d0
    have : β * (β / τ ^ 2) ≤ 1 := by
      rw [← mul_div_assoc, div_le_one (by positivity)]; nlinarith
    linarith

theorem keeps_deep (hn : 2 ≤ n) (hτ : 0 < τ) (hb : β ≤ τ) (hg : 0 < τ + n * β) {u : ℝ}
    (hu2 : u ^ 2 ≤ τ ^ 2) (hu : u + β ≤ 0) :
    KeepsAt (τ ^ 2) ((τ + n * β) / (n + 1)) (2 * ((τ + n * β) / (n + 1)) / (τ + β))
      (c1 n * (1 - β * (β / τ ^ 2))) u := by
  have hn' : (2 : ℝ) ≤ n := by exact_mod_cast hn
  obtain ⟨hp, hr⟩ := range_deep hn hτ hb hg
  have hul : -τ ≤ u := (abs_le_of_sq_le_sq' hu2 hτ.le).1
  have h3 : (n : ℝ) * n - 1 = (n - 1) * (n + 1) := by ring
  have h4 : (n : ℝ) - 1 ≠ 0 := by linarith
  have h2 : (n : ℝ) + 1 ≠ 0 := by linarith
  have hp' := hp.ne'
  have key : (1 - 2 * ((τ + n * β) / (n + 1)) / (τ + β)) *
        (τ ^ 2 * (c1 n * (1 - β * (β / τ ^ 2))) - τ ^ 2 + u ^ 2) - (u + (τ + n * β) / (n + 1)) ^ 2 =
      (2 * ((τ + n * β) / (n + 1)) / (τ + β)) * (-(u + β) * (u + τ)) := by
    rw [deep_one_sub_sigma hn hp']
    unfold c1; rw [h3]; field_simp; ring
  have hpos : 0 ≤ -(u + β) * (u + τ) := mul_nonneg (by linarith) (by linarith)
  constructor
  · have := mul_nonneg hr.s0 hpos; linarith
  · rcases eq_or_lt_of_le hb with rfl | hlt
    · have : u = -β := by linarith
      subst this
      have := mul_nonneg (sq_nonneg β) hr.d0
      nlinarith
    · have hs : 0 < 1 - 2 * ((τ + n * β) / (n + 1)) / (τ + β) := by
        rw [deep_one_sub_sigma hn hp']
        apply div_pos
        · apply mul_pos <;> linarith
        · positivity
      have h5 : 0 ≤ (1 - 2 * ((τ + n * β) / (n + 1)) / (τ + β)) *
        (τ ^ 2 * (c1 n * (1 - β * (β / τ ^ 2))) - τ ^ 2 + u ^ 2) := by
        have := mul_nonneg hr.s0 hpos
        nlinarith [sq_nonneg (u + (τ + n * β) / (n + 1))]
      have := nonneg_of_mul_nonneg_right h5 hs
      linarith
end deep

end Verif.Ell
