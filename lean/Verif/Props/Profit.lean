import Mathlib.Analysis.Complex.ExponentialBounds
import Verif.Model.Profit
import Verif.Spec.ProfitSpec

/-! # C44-C47: the profit oracles -/
namespace Verif
open Matrix

/-- Weighted arithmetic-geometric inequality with a constant term. -/
theorem exp_weighted {t q0 q1 d0 d1 te : ℝ} (ht : 0 ≤ t) (h0 : 0 ≤ q0) (h1 : 0 ≤ q1) (hte : te = t + (q0 + q1))
    (hpos : 0 < te) : te * Real.exp ((q0 * d0 + q1 * d1) / te) ≤ t + (q0 * Real.exp d0 + q1 * Real.exp d1) := by
  set m := (q0 * d0 + q1 * d1) / te with hm
  have key : ∀ d, Real.exp m * (1 + (d - m)) ≤ Real.exp d := by
    intro d
    have h := Real.add_one_le_exp (d - m)
    have : Real.exp d = Real.exp m * Real.exp (d - m) := by rw [← Real.exp_add]; ring_nf
    rw [this]
    exact mul_le_mul_of_nonneg_left (by linarith) (Real.exp_pos m).le
  have k0 := mul_le_mul_of_nonneg_left (key d0) h0
  have k1 := mul_le_mul_of_nonneg_left (key d1) h1
  have k2 : t * (Real.exp m * (1 + (0 - m))) ≤ t * 1 :=
    mul_le_mul_of_nonneg_left (by simpa using key 0) ht
  have hmm : te * m = q0 * d0 + q1 * d1 := by rw [hm]; field_simp
  have e : te * Real.exp m = t * (Real.exp m * (1 + (0 - m))) + q0 * (Real.exp m * (1 + (d0 - m))) +
      q1 * (Real.exp m * (1 + (d1 - m))) := by
    have : te * Real.exp m = Real.exp m * (te + (q0 * d0 + q1 * d1) - te * m) := by rw [hmm]; ring
    rw [this, hte]; ring
  rw [e]; linarith

/-- `exp` of the logarithmic Cobb-Douglas term. -/
theorem cobb_eq {p A : ℝ} (hpA : 0 < p * A) (a y : Fin 2 → ℝ) :
    Real.exp (Real.log (p * A) + a ⬝ᵥ y) = p * (A * qty y 0 ^ a 0 * qty y 1 ^ a 1) := by
  simp only [qty, dotProduct, Fin.sum_univ_two]
  rw [Real.exp_add, Real.exp_log hpA, Real.exp_add, ← Real.exp_mul, ← Real.exp_mul, mul_comm (y 0), mul_comm (y 1)]
  ring

section
variable {p A k : ℝ} {a v : Fin 2 → ℝ}

/-- All that a call does, in terms of the problem data (`t ≥ 0`). -/
theorem profit_call (hpA : 0 < p * A) (hv : ∀ i, 0 < v i) (y : Fin 2 → ℝ) {t : ℝ} (ht : 0 ≤ t) :
    ∃ cut t1, (Profit.init p A k a v).call y t = .ok (cut, t1) ∧
      (∀ s, t1 = some s ↔ s = profit p A a v (qty y) ∧ y 0 ≤ Real.log k ∧ t < profit p A a v (qty y)) ∧
      0 ≤ cut.2 ∧
      (∀ z, z 0 ≤ Real.log k → t1.getD t ≤ profit p A a v (qty z) → cut.1 ⬝ᵥ (z - y) + cut.2 ≤ 0) ∧
      (y 0 ≤ Real.log k → ∀ z, t1.getD t < profit p A a v (qty z) → cut.1 ⬝ᵥ (z - y) + cut.2 < 0) ∧
      (∀ z δ, z 0 + δ ≤ Real.log k → (t1.getD t + (v 0 * qty z 0 + v 1 * qty z 1)) * Real.exp δ ≤
        p * (A * qty z 0 ^ a 0 * qty z 1 ^ a 1) → cut.1 ⬝ᵥ (z - y) + cut.2 ≤ -δ) := by
  have hdot : ∀ (g z : Fin 2 → ℝ), g ⬝ᵥ (z - y) = g 0 * (z 0 - y 0) + g 1 * (z 1 - y 1) := by
    intro g z; simp [dotProduct, Fin.sum_univ_two]
  by_cases hc : 0 < y 0 - Real.log k
  · refine ⟨(![1, 0], y 0 - Real.log k), none, if_pos hc, fun s => ?_, hc.le, fun z hz _ => ?_, fun h => ?_, fun z δ hz _ => ?_⟩
    · exact ⟨fun h => by simp at h, fun h => by linarith [h.2.1]⟩
    · simp only [hdot, cons_val_zero, cons_val_one]; linarith
    · linarith
    · simp only [hdot, cons_val_zero, cons_val_one]; linarith
  set q : Fin 2 → ℝ := fun i => v i * Real.exp (y i) with hq
  have hq0 : ∀ i, 0 < q i := fun i => mul_pos (hv i) (Real.exp_pos _)
  set lc := Real.log (p * A) + a ⬝ᵥ y with hlc
  have hprof : profit p A a v (qty y) = Real.exp lc - (q 0 + q 1) := by
    rw [hlc, cobb_eq hpA, profit]; simp only [hq, qty]; ring
  -- validity of the linearisation for any level `s ≥ 0`
  have lin : ∀ s, 0 ≤ s → ∀ z, (s ≤ profit p A a v (qty z) →
        (fun i => q i / (s + (q 0 + q 1)) - a i) ⬝ᵥ (z - y) + (Real.log (s + (q 0 + q 1)) - lc) ≤ 0) ∧
      (s < profit p A a v (qty z) →
        (fun i => q i / (s + (q 0 + q 1)) - a i) ⬝ᵥ (z - y) + (Real.log (s + (q 0 + q 1)) - lc) < 0) ∧
      ∀ δ, (s + (v 0 * qty z 0 + v 1 * qty z 1)) * Real.exp δ ≤ p * (A * qty z 0 ^ a 0 * qty z 1 ^ a 1) →
        (fun i => q i / (s + (q 0 + q 1)) - a i) ⬝ᵥ (z - y) + (Real.log (s + (q 0 + q 1)) - lc) ≤ -δ := by
    intro s hs z
    have hte : 0 < s + (q 0 + q 1) := by have := hq0 0; have := hq0 1; linarith
    have h1 := exp_weighted (d0 := z 0 - y 0) (d1 := z 1 - y 1) hs (hq0 0).le (hq0 1).le rfl hte
    have hcz : profit p A a v (qty z) = Real.exp (lc + a ⬝ᵥ (z - y)) - (q 0 * Real.exp (z 0 - y 0) + q 1 * Real.exp (z 1 - y 1)) := by
      have e1 : lc + a ⬝ᵥ (z - y) = Real.log (p * A) + a ⬝ᵥ z := by rw [hlc, dotProduct_sub]; ring
      rw [e1, cobb_eq hpA, profit]
      simp only [hq, qty]
      have : ∀ i, v i * Real.exp (y i) * Real.exp (z i - y i) = v i * Real.exp (z i) := by
        intro i; rw [mul_assoc, ← Real.exp_add]; congr 2; ring
      rw [this, this]; ring
    have e2 : (fun i => q i / (s + (q 0 + q 1)) - a i) ⬝ᵥ (z - y) + (Real.log (s + (q 0 + q 1)) - lc) =
        Real.log ((s + (q 0 + q 1)) * Real.exp ((q 0 * (z 0 - y 0) + q 1 * (z 1 - y 1)) / (s + (q 0 + q 1)))) -
          (lc + a ⬝ᵥ (z - y)) := by
      rw [Real.log_mul hte.ne' (Real.exp_pos _).ne', Real.log_exp, hdot, hdot]
      field_simp
      ring
    have hpos : 0 < (s + (q 0 + q 1)) * Real.exp ((q 0 * (z 0 - y 0) + q 1 * (z 1 - y 1)) / (s + (q 0 + q 1))) :=
      mul_pos hte (Real.exp_pos _)
    rw [e2, hcz]
    refine ⟨?_, ?_, ?_⟩
    · intro hz
      have := (Real.log_le_iff_le_exp hpos).2 (h1.trans (by linarith : _ ≤ Real.exp (lc + a ⬝ᵥ (z - y))))
      linarith
    · intro hz
      have := (Real.log_lt_iff_lt_exp hpos).2 (h1.trans_lt (by linarith : _ < Real.exp (lc + a ⬝ᵥ (z - y))))
      linarith
    · intro δ hz
      have e1 : lc + a ⬝ᵥ (z - y) = Real.log (p * A) + a ⬝ᵥ z := by rw [hlc, dotProduct_sub]; ring
      have e3 : q 0 * Real.exp (z 0 - y 0) + q 1 * Real.exp (z 1 - y 1) = v 0 * qty z 0 + v 1 * qty z 1 := by
        have : ∀ i, v i * Real.exp (y i) * Real.exp (z i - y i) = v i * Real.exp (z i) := by
          intro i; rw [mul_assoc, ← Real.exp_add]; congr 2; ring
        simp only [hq, qty, this]
      rw [← cobb_eq hpA, ← e1, ← e3] at hz
      have h2 : s + (q 0 * Real.exp (z 0 - y 0) + q 1 * Real.exp (z 1 - y 1)) ≤ Real.exp (lc + a ⬝ᵥ (z - y) - δ) := by
        rw [Real.exp_sub (lc + _) δ, le_div_iff₀ (Real.exp_pos _)]; exact hz
      have := (Real.log_le_iff_le_exp hpos).2 (h1.trans h2)
      linarith
  have hte : 0 < t + (q 0 + q 1) := by have := hq0 0; have := hq0 1; linarith
  have hcall : (Profit.init p A k a v).call y t =
      if Real.log (t + (q 0 + q 1)) - lc < 0 then
        .ok ((fun i => q i / Real.exp lc - a i, 0), some (Real.exp lc - (q 0 + q 1)))
      else .ok ((fun i => q i / (t + (q 0 + q 1)) - a i, Real.log (t + (q 0 + q 1)) - lc), none) := by
    refine (if_neg hc).trans ((if_neg (not_lt.2 hte.le)).trans ?_)
    refine if_congr ?_ rfl rfl
    exact ⟨fun h => h.resolve_left hte.ne', .inr⟩
  by_cases hf : Real.log (t + (q 0 + q 1)) - lc < 0
  · rw [if_pos hf] at hcall
    have hlt : t < Real.exp lc - (q 0 + q 1) := by
      have := (Real.log_lt_iff_lt_exp hte).1 (by linarith : Real.log (t + (q 0 + q 1)) < lc)
      linarith
    have e : Real.exp lc - (q 0 + q 1) + (q 0 + q 1) = Real.exp lc := by ring
    have hl := lin (Real.exp lc - (q 0 + q 1)) (ht.trans hlt.le)
    simp only [e, Real.log_exp, sub_self] at hl
    refine ⟨_, _, hcall, fun s => ?_, le_rfl, fun z _ hz => (hl z).1 hz, fun _ z hz => (hl z).2.1 hz,
      fun z δ _ hz => (hl z).2.2 δ hz⟩
    rw [hprof, Option.some.injEq]
    exact ⟨fun h => ⟨h.symm, by linarith, hlt⟩, fun h => h.1.symm⟩
  · rw [if_neg hf] at hcall
    refine ⟨_, _, hcall, fun s => ?_, not_lt.1 hf, fun z _ hz => (lin t ht z).1 hz,
      fun _ z hz => (lin t ht z).2.1 hz, fun z δ _ hz => (lin t ht z).2.2 δ hz⟩
    refine ⟨fun h => by simp at h, fun h => absurd ?_ hf⟩
    have := h.2.2
    rw [hprof] at this
    have := (Real.log_lt_iff_lt_exp hte).2 (by linarith : t + (q 0 + q 1) < Real.exp lc)
    linarith

/-- **C44**: for `t ≥ 0`, `pA > 0`, positive `v`: the call returns, its cut is never shallow, and every `z`
within the limit whose profit is at least the best-so-far value after the call satisfies the cut. -/
theorem C44_profit_cut_valid (hpA : 0 < p * A) (hv : ∀ i, 0 < v i) (y : Fin 2 → ℝ) {t : ℝ} (ht : 0 ≤ t) :
    ∃ cut t1, (Profit.init p A k a v).call y t = .ok (cut, t1) ∧ 0 ≤ cut.2 ∧
      ∀ z, z 0 ≤ Real.log k → t1.getD t ≤ profit p A a v (qty z) → cut.1 ⬝ᵥ (z - y) + cut.2 ≤ 0 := by
  obtain ⟨cut, t1, h1, -, h3, h4, -⟩ := profit_call (k := k) (a := a) hpA hv y ht
  exact ⟨cut, t1, h1, h3, h4⟩

/-- **C44** (zero gradient): when `y` is within the limit and the cut has zero gradient, no point at all has a
larger profit than the best-so-far value after the call: the search may stop (an `ell` divides by zero there). -/
theorem C44_profit_zero_gradient (hpA : 0 < p * A) (hv : ∀ i, 0 < v i) {y : Fin 2 → ℝ} {t : ℝ} (ht : 0 ≤ t)
    (hy : y 0 ≤ Real.log k) {β : ℝ} {t1 : Option ℝ} (h : (Profit.init p A k a v).call y t = .ok ((0, β), t1)) (z : Fin 2 → ℝ) :
    profit p A a v (qty z) ≤ t1.getD t := by
  obtain ⟨cut, t1', h1, -, h3, -, h5, -⟩ := profit_call (k := k) (a := a) hpA hv y ht
  rw [h] at h1
  simp only [Except.ok.injEq, Prod.mk.injEq] at h1
  obtain ⟨rfl, rfl⟩ := h1
  by_contra hcon
  have := h5 hy z (not_le.1 hcon)
  simp only [zero_dotProduct] at this h3
  linarith

/-- **C45**: a value is reported exactly when `y` is within the limit and its profit exceeds `t`; the value is
the profit at `y`. -/
theorem C45_profit_value (hpA : 0 < p * A) (hk : 0 < k) (hv : ∀ i, 0 < v i) (y : Fin 2 → ℝ) {t : ℝ} (ht : 0 ≤ t) :
    ∃ cut t1, (Profit.init p A k a v).call y t = .ok (cut, t1) ∧
      ∀ s, t1 = some s ↔ s = profit p A a v (qty y) ∧ qty y 0 ≤ k ∧ t < profit p A a v (qty y) := by
  obtain ⟨cut, t1, h1, h2, -⟩ := profit_call (k := k) (a := a) hpA hv y ht
  refine ⟨cut, t1, h1, fun s => (h2 s).trans ?_⟩
  rw [Real.le_log_iff_exp_le hk]; rfl

end

/-! ### The robust oracle -/

section
variable {p A k : ℝ} {a v : Fin 2 → ℝ} {e : Unc}

/-- The perturbed elasticities chosen by the code give the smallest power. -/
theorem aRb_le {o : ProfitRb} {a' y : Fin 2 → ℝ} (h : ∀ i, |a' i - o.a i| ≤ o.e i) (i : Fin 2) :
    qty y i ^ o.aRb y i ≤ qty y i ^ a' i := by
  simp only [qty, ProfitRb.aRb, ← Real.exp_mul, Real.exp_le_exp]
  have := abs_le.1 (h i)
  split
  · nlinarith [this.1]
  · nlinarith [this.2]

/-- The object a history of calls leads to. -/
def RbReach (o o' : ProfitRb) : Prop := o'.a = o.a ∧ o'.e = o.e ∧ ∃ b, o'.P = ⟨o.P.logPA, o.P.logK, o.P.v, b⟩

/-- Worst-case profit at `y`: attained at one corner of the uncertainty set. -/
theorem guaranteed_iff (hA : 0 ≤ A) (h1 : 0 ≤ e.e1) (h2 : 0 ≤ e.e2) (h3 : 0 ≤ e.e3) (h3' : e.e3 ≤ p) (h5 : 0 ≤ e.e5)
    {o : ProfitRb} (ho1 : o.a = a) (ho2 : o.e = ![e.e1, e.e2]) (y : Fin 2 → ℝ) (t : ℝ) :
    Guaranteed e p A a v (qty y) t ↔ t ≤ profit (p - e.e3) A (o.aRb y) (fun i => v i + e.e5) (qty y) := by
  have hx : ∀ i, 0 < qty y i := fun i => Real.exp_pos _
  constructor
  · intro h
    refine h _ _ _ ⟨?_, ?_, ?_, fun i => ?_⟩
    · simp only [ProfitRb.aRb, ho1, ho2, add_sub_cancel_left]
      split <;> simp [abs_of_nonneg h1]
    · simp only [ProfitRb.aRb, ho1, ho2, add_sub_cancel_left]
      split <;> simp [abs_of_nonneg h2]
    · rw [show p - e.e3 - p = -e.e3 by ring, abs_neg, abs_of_nonneg h3]
    · rw [add_sub_cancel_left, abs_of_nonneg h5]
  · rintro h p' a' v' ⟨g1, g2, g3, g4⟩
    refine h.trans ?_
    have hpow : ∀ i, qty y i ^ o.aRb y i ≤ qty y i ^ a' i := aRb_le (fun i => by
      rw [ho1, ho2]; fin_cases i
      · exact g1
      · exact g2)
    have hc : A * qty y 0 ^ o.aRb y 0 * qty y 1 ^ o.aRb y 1 ≤ A * qty y 0 ^ a' 0 * qty y 1 ^ a' 1 := by
      have := Real.rpow_pos_of_pos (hx 0) (o.aRb y 0)
      have := Real.rpow_pos_of_pos (hx 1) (o.aRb y 1)
      have := Real.rpow_pos_of_pos (hx 0) (a' 0)
      have := hpow 0
      have := hpow 1
      gcongr
    have hc0 : 0 ≤ A * qty y 0 ^ a' 0 * qty y 1 ^ a' 1 := by
      have := Real.rpow_pos_of_pos (hx 1) (a' 1)
      have := Real.rpow_pos_of_pos (hx 0) (a' 0)
      positivity
    have hp := abs_le.1 g3
    have hv0 := (abs_le.1 (g4 0)).2
    have hv1 := (abs_le.1 (g4 1)).2
    have m1 : (p - e.e3) * (A * qty y 0 ^ o.aRb y 0 * qty y 1 ^ o.aRb y 1) ≤ p' * (A * qty y 0 ^ a' 0 * qty y 1 ^ a' 1) :=
      (mul_le_mul_of_nonneg_left hc (by linarith)).trans (mul_le_mul_of_nonneg_right (by linarith [hp.1]) hc0)
    have m2 := mul_le_mul_of_nonneg_right (show v' 0 ≤ v 0 + e.e5 by linarith) (hx 0).le
    have m3 := mul_le_mul_of_nonneg_right (show v' 1 ≤ v 1 + e.e5 by linarith) (hx 1).le
    simp only [profit]
    linarith

/-- **C46**: after any history of calls on a `profit_rb_oracle`, for `t ≥ 0`: a value `s` is reported exactly
when `x1` respects the limit for all `k'` within `e4` and some profit larger than `t` is guaranteed; `s` is then
the largest guaranteed profit at `y`.  Every `z` within all limits with a guaranteed profit of at least the
best-so-far value after the call satisfies the cut. -/
theorem C46_profit_rb (hA : 0 < A) (h1 : 0 ≤ e.e1) (h2 : 0 ≤ e.e2) (h3 : 0 ≤ e.e3) (h3' : e.e3 < p)
    (h4 : 0 ≤ e.e4) (h4' : e.e4 < k) (h5 : 0 ≤ e.e5) (hv : ∀ i, 0 < v i) {o : ProfitRb}
    (ho : RbReach (ProfitRb.init p A k a v e.e1 e.e2 e.e3 e.e4 e.e5) o) (y : Fin 2 → ℝ) {t : ℝ} (ht : 0 ≤ t) :
    ∃ o' cut t1, ProfitRb.call y t o = .ok (o', cut, t1) ∧
      RbReach (ProfitRb.init p A k a v e.e1 e.e2 e.e3 e.e4 e.e5) o' ∧ 0 ≤ cut.2 ∧
      (∀ s, t1 = some s ↔ (∀ k', |k' - k| ≤ e.e4 → qty y 0 ≤ k') ∧ t < s ∧ Guaranteed e p A a v (qty y) s ∧
        ∀ s', Guaranteed e p A a v (qty y) s' → s' ≤ s) ∧
      ∀ z, (∀ k', |k' - k| ≤ e.e4 → qty z 0 ≤ k') → Guaranteed e p A a v (qty z) (t1.getD t) →
        cut.1 ⬝ᵥ (z - y) + cut.2 ≤ 0 := by
  obtain ⟨r1, r2, b, r3⟩ := ho
  have r1 : o.a = a := r1
  have r2 : o.e = ![e.e1, e.e2] := r2
  have hv' : ∀ i, 0 < (fun i => v i + e.e5) i := fun i => by have := hv i; simp only; linarith
  have hlim : ∀ z : Fin 2 → ℝ, (∀ k', |k' - k| ≤ e.e4 → qty z 0 ≤ k') ↔ z 0 ≤ Real.log (k - e.e4) := by
    intro z
    rw [Real.le_log_iff_exp_le (by linarith)]
    refine ⟨fun h => h _ (by rw [show k - e.e4 - k = -e.e4 by ring, abs_neg, abs_of_nonneg h4]), fun h k' hk' => ?_⟩
    have := (abs_le.1 hk').1
    have h : qty z 0 ≤ k - e.e4 := h
    linarith
  obtain ⟨cut, t1, c1, c2, c3, c4, -⟩ := profit_call (k := k - e.e4) (a := o.aRb y) (mul_pos (by linarith : 0 < p - e.e3) hA) hv' y ht
  have hP : (⟨o.P.logPA, o.P.logK, o.P.v, o.aRb y⟩ : Profit) =
      Profit.init (p - e.e3) A (k - e.e4) (o.aRb y) (fun i => v i + e.e5) := by
    rw [r3]; rfl
  refine ⟨⟨o.a, o.e, ⟨o.P.logPA, o.P.logK, o.P.v, o.aRb y⟩⟩, cut, t1, ?_, ⟨r1, r2, o.aRb y, ?_⟩, c3, fun s => ?_, ?_⟩
  · simp only [ProfitRb.call]
    rw [hP, c1]
  · rw [r3]
  · rw [c2, hlim]
    have hG := guaranteed_iff (a := a) (v := v) hA.le h1 h2 h3 h3'.le h5 r1 r2 y
    simp only [hG]
    constructor
    · rintro ⟨rfl, g1, g2⟩
      exact ⟨g1, g2, le_rfl, fun s' h => h⟩
    · rintro ⟨g1, g2, g3, g4⟩
      have := le_antisymm g3 (g4 _ le_rfl)
      exact ⟨this, g1, this ▸ g2⟩
  · intro z hz hg
    refine c4 z ((hlim z).1 hz) (hg _ _ _ ⟨?_, ?_, ?_, fun i => ?_⟩)
    · simp only [ProfitRb.aRb, r1, r2, add_sub_cancel_left]
      split <;> simp [abs_of_nonneg h1]
    · simp only [ProfitRb.aRb, r1, r2, add_sub_cancel_left]
      split <;> simp [abs_of_nonneg h2]
    · rw [show p - e.e3 - p = -e.e3 by ring, abs_neg, abs_of_nonneg h3]
    · rw [add_sub_cancel_left, abs_of_nonneg h5]

/-- A fresh object is reachable. -/
theorem RbReach.refl (o : ProfitRb) : RbReach o o := ⟨rfl, rfl, o.P.a, rfl⟩

end

/-! ### The discrete oracle -/

theorem npRound_near (r : ℝ) : |(npRound r : ℝ) - r| ≤ 1 / 2 := by
  have h1 := Int.floor_le r
  have h2 := Int.lt_floor_add_one r
  unfold npRound
  split_ifs with h3 h4 h5
  · rw [abs_le]; constructor <;> linarith
  · push_cast; rw [abs_le]; constructor <;> linarith
  · rw [abs_le]; constructor <;> linarith
  · push_cast; rw [abs_le]; constructor <;> linarith

/-- Each entry of the rounded point is a positive integer, and no positive integer is nearer. -/
theorem roundPt_spec (y : Fin 2 → ℝ) (i : Fin 2) :
    ∃ m : ℕ, 1 ≤ m ∧ ProfitQ.roundPt y i = m ∧ ∀ m' : ℕ, 1 ≤ m' → |(m : ℝ) - qty y i| ≤ |(m' : ℝ) - qty y i| := by
  have hr := abs_le.1 (npRound_near (Real.exp (y i)))
  have hpos := Real.exp_pos (y i)
  have h0 : 0 ≤ npRound (Real.exp (y i)) := by
    by_contra h
    have : npRound (Real.exp (y i)) ≤ -1 := by omega
    have : (npRound (Real.exp (y i)) : ℝ) ≤ -1 := by exact_mod_cast this
    linarith [hr.1]
  unfold ProfitQ.roundPt
  by_cases hz : npRound (Real.exp (y i)) = 0
  · refine ⟨1, le_rfl, by simp [hz], fun m' hm => ?_⟩
    rw [hz] at hr
    have hm : (1 : ℝ) ≤ m' := by exact_mod_cast hm
    have h2 : Real.exp (y i) ≤ 1 / 2 := by have := hr.1; simp at this; linarith
    simp only [qty, Nat.cast_one]
    rw [abs_of_nonneg (by linarith), abs_of_nonneg (by linarith)]
    linarith
  · obtain ⟨m, hm⟩ := Int.eq_ofNat_of_zero_le h0
    refine ⟨m, by omega, by rw [if_neg hz, hm, Int.cast_natCast], fun m' _ => ?_⟩
    rw [hm] at hr
    simp only [Int.cast_natCast] at hr
    rcases lt_trichotomy m' m with h | h | h
    · have : (m' : ℝ) + 1 ≤ m := by exact_mod_cast h
      simp only [qty]
      rw [abs_of_nonpos (by linarith [hr.2] : (m' : ℝ) - Real.exp (y i) ≤ 0), abs_le]
      constructor <;> linarith [hr.1, hr.2]
    · subst h; exact le_rfl
    · have : (m : ℝ) + 1 ≤ m' := by exact_mod_cast h
      simp only [qty]
      rw [abs_of_nonneg (by linarith [hr.1] : 0 ≤ (m' : ℝ) - Real.exp (y i)), abs_le]
      constructor <;> linarith [hr.1, hr.2]

section
variable {p A k : ℝ} {a v : Fin 2 → ℝ}

/-- **C47** (evaluation point and value): on a fresh query (`retry = False`), whatever was stored before, the
evaluation point is the logarithm of a vector of positive integers nearest to `exp(y)`; it is stored.  With
`retry = True` the stored point is used and kept, whatever `y` is.  A value is reported exactly when the
integer point is within the limit and its profit exceeds `t`, and is that profit.  The flag is `not retry`. -/
theorem C47_profit_q_point (hpA : 0 < p * A) (hk : 0 < k) (hv : ∀ i, 0 < v i) (o : ProfitQ)
    (ho : o.P = Profit.init p A k a v) (y : Fin 2 → ℝ) {t : ℝ} (ht : 0 ≤ t) (retry : Bool)
    (hr : retry = true → o.yd.isSome) :
    ∃ o' cut yd t1, ProfitQ.call y t retry o = .ok (o', cut, yd, t1, !retry) ∧ o'.yd = some yd ∧ o'.P = o.P ∧
      (retry = true → o.yd = some yd) ∧
      (retry = false → ∀ i, ∃ m : ℕ, 1 ≤ m ∧ qty yd i = m ∧
        ∀ m' : ℕ, 1 ≤ m' → |(m : ℝ) - qty y i| ≤ |(m' : ℝ) - qty y i|) ∧
      (∀ s, t1 = some s ↔ s = profit p A a v (qty yd) ∧ qty yd 0 ≤ k ∧ t < profit p A a v (qty yd)) := by
  have key : ∀ yd, ∃ g h t1, (Profit.init p A k a v).call yd t = .ok ((g, h), t1) ∧
      ∀ s, t1 = some s ↔ s = profit p A a v (qty yd) ∧ qty yd 0 ≤ k ∧ t < profit p A a v (qty yd) := by
    intro yd
    obtain ⟨⟨g, h⟩, t1, h1, h2⟩ := C45_profit_value (a := a) hpA hk hv yd ht
    exact ⟨g, h, t1, h1, h2⟩
  cases retry with
  | true =>
    obtain ⟨yd, hyd⟩ := Option.isSome_iff_exists.1 (hr rfl)
    obtain ⟨g, h, t1, h1, h2⟩ := key yd
    refine ⟨o, (g, h + g ⬝ᵥ (yd - y)), yd, t1, by simp only [ProfitQ.call, if_true, hyd, ho, h1], hyd, rfl, fun _ => hyd, by simp, h2⟩
  | false =>
    obtain ⟨g, h, t1, h1, h2⟩ := key fun i => Real.log (ProfitQ.roundPt y i)
    refine ⟨⟨some fun i => Real.log (ProfitQ.roundPt y i), o.P⟩,
      (g, h + g ⬝ᵥ ((fun i => Real.log (ProfitQ.roundPt y i)) - y)), _, t1, by
      simp only [ProfitQ.call, Bool.false_eq_true, if_false, ho, h1], rfl, rfl, by simp, fun _ i => ?_, h2⟩
    obtain ⟨m, hm1, hm2, hm3⟩ := roundPt_spec y i
    refine ⟨m, hm1, ?_, hm3⟩
    simp only [qty, hm2]
    exact Real.exp_log (by exact_mod_cast hm1)

/-- **C47** (what the returned cut says): relative to the inequality `g'(z - yd) + h ≤ 0` that the inner oracle
guarantees at the integer point, the returned cut demands `2 g'(yd - y)` more.  Hence it keeps all better
points whenever `g'(yd - y) ≤ 0`. -/
theorem C47_profit_q_cut (hpA : 0 < p * A) (hv : ∀ i, 0 < v i) (o o' : ProfitQ)
    (ho : o.P = Profit.init p A k a v) (y : Fin 2 → ℝ) {t : ℝ} (ht : 0 ≤ t) (retry : Bool) {g yd : Fin 2 → ℝ} {β : ℝ}
    {t1 : Option ℝ} {more : Bool} (h : ProfitQ.call y t retry o = .ok (o', (g, β), yd, t1, more)) :
    ∃ β₀, (∀ z, z 0 ≤ Real.log k → t1.getD t ≤ profit p A a v (qty z) → g ⬝ᵥ (z - yd) + β₀ ≤ 0) ∧
      (∀ z, g ⬝ᵥ (z - y) + β = (g ⬝ᵥ (z - yd) + β₀) + 2 * (g ⬝ᵥ (yd - y))) ∧
      (g ⬝ᵥ (yd - y) ≤ 0 → ∀ z, z 0 ≤ Real.log k → t1.getD t ≤ profit p A a v (qty z) → g ⬝ᵥ (z - y) + β ≤ 0) := by
  have key : ∀ o1 : ProfitQ, o1.P = o.P → ∀ yd1 g1 h1 t2, o1.P.call yd1 t = .ok ((g1, h1), t2) →
      g = g1 → β = h1 + g1 ⬝ᵥ (yd1 - y) → yd = yd1 → t1 = t2 →
      ∃ β₀, (∀ z, z 0 ≤ Real.log k → t1.getD t ≤ profit p A a v (qty z) → g ⬝ᵥ (z - yd) + β₀ ≤ 0) ∧
      (∀ z, g ⬝ᵥ (z - y) + β = (g ⬝ᵥ (z - yd) + β₀) + 2 * (g ⬝ᵥ (yd - y))) ∧
      (g ⬝ᵥ (yd - y) ≤ 0 → ∀ z, z 0 ≤ Real.log k → t1.getD t ≤ profit p A a v (qty z) → g ⬝ᵥ (z - y) + β ≤ 0) := by
    rintro o1 ho1 yd1 g1 h1 t2 hc rfl rfl rfl rfl
    obtain ⟨cut, t1', c1, -, -, c4, -⟩ := profit_call (k := k) (a := a) hpA hv yd ht
    rw [ho1, ho, c1] at hc
    simp only [Except.ok.injEq, Prod.mk.injEq] at hc
    obtain ⟨rfl, rfl⟩ := hc
    have e : ∀ z, g ⬝ᵥ (z - y) + (h1 + g ⬝ᵥ (yd - y)) = (g ⬝ᵥ (z - yd) + h1) + 2 * (g ⬝ᵥ (yd - y)) := by
      intro z; simp only [dotProduct_sub]; ring
    refine ⟨h1, c4, e, fun hn z hz hp => ?_⟩
    rw [e]
    have := c4 z hz hp
    simp only at this
    linarith
  simp only [ProfitQ.call] at h
  split at h
  · simp at h
  split at h
  · simp at h
  rename_i hc
  simp only [Except.ok.injEq, Prod.mk.injEq] at h
  obtain ⟨-, ⟨rfl, rfl⟩, rfl, rfl, -⟩ := h
  exact key (if retry = true then o else ⟨some fun i => Real.log (ProfitQ.roundPt y i), o.P⟩) (by split <;> rfl) _ _ _ _ hc rfl rfl rfl rfl

end

theorem npRound_eq {r : ℝ} {m : ℤ} (h1 : (m : ℝ) - 1 / 2 < r) (h2 : r < m + 1 / 2) : npRound r = m := by
  have h := abs_le.1 (npRound_near r)
  have a1 : ((npRound r - m : ℤ) : ℝ) < 1 := by push_cast; linarith [h.2]
  have a2 : (-1 : ℝ) < ((npRound r - m : ℤ) : ℝ) := by push_cast; linarith [h.1]
  have b1 : npRound r - m < 1 := by exact_mod_cast a1
  have b2 : -1 < npRound r - m := by exact_mod_cast a2
  omega

theorem roundPt_of {y : Fin 2 → ℝ} {i : Fin 2} {m : ℤ} (h : npRound (Real.exp (y i)) = m) (hm : m ≠ 0) :
    ProfitQ.roundPt y i = m := by
  unfold ProfitQ.roundPt; rw [if_neg (h ▸ hm), h]

/-- **C47** (ties).  A quantity halfway between two positive integers is rounded to the even one of them; halfway between 0
and 1 it becomes 1, for the oracle replaces a rounded 0 by 1. -/
theorem C47_profit_q_ties {y : Fin 2 → ℝ} {i : Fin 2} {m : ℕ} (h : qty y i = m + 1 / 2) :
    ProfitQ.roundPt y i = if m = 0 then 1 else if Even m then (m : ℝ) else m + 1 := by
  have hf : ⌊qty y i⌋ = (m : ℤ) := by
    rw [Int.floor_eq_iff, h]; push_cast; constructor <;> linarith
  have hr : npRound (qty y i) = if Even m then (m : ℤ) else m + 1 := by
    rw [npRound, hf, h]
    have e : (m : ℝ) + 1 / 2 - ((m : ℤ) : ℝ) = 1 / 2 := by push_cast; ring
    rw [e, if_neg (lt_irrefl _), if_neg (lt_irrefl _)]
    simp only [Int.even_coe_nat]
  have hq : Real.exp (y i) = qty y i := rfl
  unfold ProfitQ.roundPt
  rw [hq, hr]
  by_cases h0 : m = 0
  · subst h0; simp
  · by_cases he : Even m
    · simp [he, h0]
    · rw [if_neg he, if_neg (by omega), if_neg h0, if_neg he]; push_cast; rfl

/-- Instances: `exp y = 5/2` gives 2 and `exp y = 7/2` gives 4. -/
example : ProfitQ.roundPt ![Real.log (5 / 2), Real.log (7 / 2)] 0 = 2 ∧ ProfitQ.roundPt ![Real.log (5 / 2), Real.log (7 / 2)] 1 = 4 := by
  constructor
  · rw [C47_profit_q_ties (m := 2) (by rw [qty]; simp [Real.exp_log]; norm_num)]; simp
  · rw [C47_profit_q_ties (m := 3) (by rw [qty]; simp [Real.exp_log]; norm_num)]
    rw [if_neg (by norm_num), if_neg (by decide)]; norm_num

/-- **C47** (the defect): with `p A = 100`, `k = 2.5`, `a = (0,0)`, `v = (1,1)`, queried at `x = (2.6, 1)` with
`t = 0`, the returned cut removes the feasible integer point `x = (2, 1)` of profit `97 > 0`. -/
theorem C47_profit_q_cut_wrong :
    ∃ o' g β yd t1, ProfitQ.call ![Real.log 2.6, 0] 0 false (ProfitQ.init 100 1 2.5 0 1) = .ok (o', (g, β), yd, t1, true) ∧
      ∃ z : Fin 2 → ℝ, qty z 0 = 2 ∧ qty z 1 = 1 ∧ z 0 ≤ Real.log 2.5 ∧ t1.getD 0 ≤ profit 100 1 0 1 (qty z) ∧
        0 < g ⬝ᵥ (z - ![Real.log 2.6, 0]) + β := by
  have hr0 : ProfitQ.roundPt ![Real.log 2.6, 0] 0 = 3 := by
    have h : npRound (Real.exp (![Real.log 2.6, 0] 0)) = 3 := by
      rw [cons_val_zero, Real.exp_log (by norm_num)]
      exact npRound_eq (by norm_num) (by norm_num)
    rw [roundPt_of h (by norm_num)]; norm_num
  have hr1 : ProfitQ.roundPt ![Real.log 2.6, 0] 1 = 1 := by
    have h : npRound (Real.exp (![Real.log 2.6, 0] 1)) = 1 := by
      rw [show ![Real.log 2.6, 0] 1 = 0 from rfl, Real.exp_zero]
      exact npRound_eq (by norm_num) (by norm_num)
    rw [roundPt_of h (by norm_num)]; norm_num
  have hyd : (fun i => Real.log (ProfitQ.roundPt ![Real.log 2.6, 0] i)) = ![Real.log 3, 0] := by
    funext i; fin_cases i
    · simp only [Fin.zero_eta, hr0, cons_val_zero]
    · simp only [Fin.mk_one, hr1, Real.log_one]; rfl
  have hc : 0 < ![Real.log 3, 0] 0 - Real.log 2.5 := by
    simp only [cons_val_zero, sub_pos]
    exact Real.log_lt_log (by norm_num) (by norm_num)
  have hcall : (Profit.init 100 1 2.5 0 1).call ![Real.log 3, 0] 0 = .ok ((![1, 0], Real.log 3 - Real.log 2.5), none) := if_pos hc
  refine ⟨⟨some ![Real.log 3, 0], Profit.init 100 1 2.5 0 1⟩, ![1, 0],
    Real.log 3 - Real.log 2.5 + ![1, 0] ⬝ᵥ (![Real.log 3, 0] - ![Real.log 2.6, 0]), ![Real.log 3, 0], none, ?_,
    ![Real.log 2, 0], ?_, ?_, ?_, ?_, ?_⟩
  · simp only [ProfitQ.call, ProfitQ.init, Bool.false_eq_true, if_false, hyd, hcall, Bool.not_false]
  · simp [qty, Real.exp_log]
  · simp [qty]
  · simp only [cons_val_zero]; exact Real.log_le_log (by norm_num) (by norm_num)
  · simp only [profit, qty, cons_val_zero, cons_val_one, Pi.zero_apply, Pi.one_apply, Real.rpow_zero, Real.exp_zero,
      Option.getD_none]
    rw [Real.exp_log (by norm_num)]; norm_num
  · simp only [dotProduct, Fin.sum_univ_two, cons_val_zero, cons_val_one, Pi.sub_apply]
    have h : Real.log (2.6 * 2.6 * 2.5) < Real.log (2 * 3 * 3) := Real.log_lt_log (by norm_num) (by norm_num)
    rw [Real.log_mul (by norm_num) (by norm_num), Real.log_mul (by norm_num) (by norm_num),
      Real.log_mul (by norm_num) (by norm_num), Real.log_mul (by norm_num) (by norm_num)] at h
    linarith

/-! ### Concrete cases -/

/-- The data of `tests/test_profit.py` (scaled): C44-C47 apply. -/
example (y : Fin 2 → ℝ) := C44_profit_cut_valid (p := 20) (A := 40) (k := 30.5) (a := ![0.1, 0.4]) (v := ![10, 35])
  (by norm_num) (fun i => by fin_cases i <;> norm_num) y le_rfl
example (y : Fin 2 → ℝ) := C45_profit_value (p := 20) (A := 40) (k := 30.5) (a := ![0.1, 0.4]) (v := ![10, 35])
  (by norm_num) (by norm_num) (fun i => by fin_cases i <;> norm_num) y le_rfl
example (y : Fin 2 → ℝ) := C46_profit_rb (p := 20) (A := 40) (k := 30.5) (a := ![0.1, 0.4]) (v := ![10, 35])
  (e := ⟨0.003, 0.007, 1, 1, 1⟩) (by norm_num) (by norm_num) (by norm_num) (by norm_num) (by norm_num) (by norm_num)
  (by norm_num) (by norm_num) (fun i => by fin_cases i <;> norm_num) (RbReach.refl _) y le_rfl
example (y : Fin 2 → ℝ) := C47_profit_q_point (p := 20) (A := 40) (k := 30.5) (a := ![0.1, 0.4]) (v := ![10, 35])
  (by norm_num) (by norm_num) (fun i => by fin_cases i <;> norm_num) (ProfitQ.init 20 40 30.5 ![0.1, 0.4] ![10, 35]) rfl y
  le_rfl false (by simp)

/-- A point with positive profit within the limit: a value is reported there. -/
example : ∃ cut, (Profit.init 100 1 2.5 0 1).call 0 0 = .ok (cut, some 98) := by
  obtain ⟨cut, t1, h1, h2⟩ := C45_profit_value (p := 100) (A := 1) (k := 2.5) (a := 0) (v := 1) (by norm_num) (by norm_num)
    (fun i => by simp) 0 le_rfl
  have : t1 = some 98 := (h2 98).2 (by simp [profit, qty]; norm_num)
  exact ⟨cut, this ▸ h1⟩

/-- A critical point: the zero-gradient case of C44 occurs. -/
example : ∃ β t1, (Profit.init 2 1 1 ![1 / 2, 1 / 2] 1).call 0 0 = .ok ((0, β), t1) := by
  refine ⟨0, none, ?_⟩
  refine (if_neg (by simp [Profit.init])).trans ((if_neg (by simp [Profit.init])).trans ((if_neg ?_).trans ?_))
  · simp [Profit.init]; norm_num
  · simp only [Profit.init]
    congr 3
    · funext i; fin_cases i <;> simp <;> norm_num
    · simp; norm_num

end Verif
