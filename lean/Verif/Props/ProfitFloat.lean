import Verif.Proofs.ProfitFloat
import Verif.Props.ProfitTest

/-!
# C136: the profit oracles with every operation rounded

Every operation, the computed logarithm and the computed exponential have the relative error `ζ`; `M` bounds the logarithms that occur.
-/
namespace Verif
open Matrix
variable {fl ln ex : ℝ → ℝ} {dot : (Fin 2 → ℝ) → (Fin 2 → ℝ) → ℝ} {ζ M : ℝ} {p A k : ℝ} {a v y : Fin 2 → ℝ} {t : ℝ} {e : Unc}

/-- **C136** (model).  Without rounding these are the oracles of `Verif/Model/Profit.lean`. -/
theorem C136_exact (P : Profit) (o : ProfitRb) (y : Fin 2 → ℝ) (t p A k e1 e2 e3 e4 e5 : ℝ) (a v : Fin 2 → ℝ) :
    Profit.initF id Real.log p A k a v = Profit.init p A k a v ∧ P.callF id Real.log Real.exp (· ⬝ᵥ ·) y t = P.call y t ∧
      ProfitRb.initF id Real.log p A k a v e1 e2 e3 e4 e5 = ProfitRb.init p A k a v e1 e2 e3 e4 e5 ∧
      ProfitRb.callF id Real.log Real.exp (· ⬝ᵥ ·) y t o = ProfitRb.call y t o := ⟨rfl, rfl, rfl, rfl⟩

theorem ln_near {x x' : ℝ} (h0 : 0 ≤ ζ) (hM : 1 ≤ M) (hζ : ζ * M ≤ 1 / 100) (hln : LogErr ζ ln) (hx : 0 < x) (h : Appr (2.01 * ζ) x x') (hL : |Real.log x| ≤ M) :
    |ln x' - Real.log x| ≤ 4 * (ζ * M) := by
  obtain ⟨z1, z2⟩ := small_of h0 hM hζ
  have h1 := h.log hx (by linarith)
  have h2 : 2.01 * ζ / (1 - 2.01 * ζ) ≤ 2.1 * ζ := by rw [div_le_iff₀ (by linarith)]; nlinarith
  have h3 := hln x' (h.pos hx (by linarith))
  have h4 : |Real.log x'| ≤ M + 0.1 := by
    have := abs_sub_abs_le_abs_sub (Real.log x') (Real.log x)
    linarith
  have h5 := mul_le_mul_of_nonneg_left h4 h0
  calc |ln x' - Real.log x| ≤ |ln x' - Real.log x'| + |Real.log x' - Real.log x| := abs_sub_le _ _ _
    _ ≤ _ := by linarith

theorem appr_refl {x : ℝ} (hζ : 0 ≤ ζ) (hx : 0 ≤ x) : Appr ζ x x := by
  unfold Appr; rw [sub_self, abs_zero]; positivity

theorem appr_fl (hfl : RelErr ζ fl) {x : ℝ} (hx : 0 < x) : Appr ζ x (fl x) := by
  have := hfl x
  rwa [abs_of_pos hx] at this

/-- What the constructors compute. -/
theorem init_near {p' k' : ℝ} {a' v' : Fin 2 → ℝ} (h0 : 0 ≤ ζ) (hM : 1 ≤ M) (hζ : ζ * M ≤ 1 / 100) (hfl : RelErr ζ fl) (hln : LogErr ζ ln) (hp : 0 < p) (hA : 0 < A)
    (hk : 0 < k) (hp' : Appr ζ p p') (hk' : Appr ζ k k') (ha' : ∀ i, |a' i - a i| ≤ ζ * |a i|) (hv' : ∀ i, Appr ζ (v i) (v' i))
    (hL : |Real.log (p * A)| ≤ M) (hLk : |Real.log k| ≤ M) : ProfitNear ζ M (Profit.initF fl ln p' A k' a' v') p A k a v := by
  obtain ⟨z1, -⟩ := small_of h0 hM hζ
  refine ⟨ln_near h0 hM hζ hln (mul_pos hp hA) ?_ hL, ln_near h0 hM hζ hln hk (hk'.weaken hk.le (by linarith)) hLk, ha', hv'⟩
  have h1 := hp'.mul (appr_refl le_rfl hA.le) hp hA (by linarith)
  exact (h1.fl hfl (mul_pos hp hA) (by linarith)).weaken (mul_pos hp hA).le (by nlinarith)

section
variable (hA : 0 < A) (h1 : 0 ≤ e.e1) (h2 : 0 ≤ e.e2) (h3 : 0 ≤ e.e3) (h3' : e.e3 < p) (h4 : 0 ≤ e.e4) (h4' : e.e4 < k) (h5 : 0 ≤ e.e5) (hv : ∀ i, 0 < v i)
include hA h1 h2 h3 h3' h4 h4' h5 hv

/-- An object with data near the worst case at `y` answers as it should. -/
theorem answer_near (h0 : 0 ≤ ζ) (hζ : ζ * M ≤ 1 / 100) {P : Profit} {o : ProfitRb} (ho1 : o.a = a) (ho2 : o.e = e.elas)
    (hN : ProfitNear ζ M P (p - e.e3) A (k - e.e4) (o.aRb y) (fun i => v i + e.e5))
    (hfl : RelErr ζ fl) (hln : LogErr ζ ln) (hex : ExpErr ζ ex) (hdot : VecDotErr ζ dot) (hS : ProfitSizes e p A k a v y t M) (ht : -(ζ * e.cost v y) ≤ t) :
    ∃ cut t1, P.callF fl ln ex dot y t = .ok (cut, t1) ∧ ProfitAnswer e p A k a v y t (ζ * M) cut t1 := by
  have hv' : ∀ i, 0 < (fun i => v i + e.e5) i := fun i => by have := hv i; simp only; linarith
  have hpA : 0 < (p - e.e3) * A := mul_pos (by linarith) hA
  have hk0 : 0 < k - e.e4 := by linarith
  have hel : ∀ i, 0 ≤ e.elas i := fun i => by fin_cases i <;> simp [Unc.elas, h1, h2]
  have hb : ∀ i, |o.aRb y i| ≤ |a i| + e.elas i := fun i => by
    simp only [ProfitRb.aRb, ho1, ho2]
    refine (abs_add_le _ _).trans (add_le_add le_rfl ?_)
    split
    · rw [abs_neg, abs_of_nonneg (hel i)]
    · rw [abs_of_nonneg (hel i)]
  have hS0 : ProfitSizes0 (p - e.e3) A (k - e.e4) (o.aRb y) (fun i => v i + e.e5) y t M := by
    refine ⟨hS.one, hS.y0, hS.k, le_trans (add_le_add le_rfl (Finset.sum_le_sum fun i _ => ?_)) hS.cobb, hS.level⟩
    rw [abs_mul]
    exact mul_le_mul_of_nonneg_right (hb i) (abs_nonneg _)
  obtain ⟨cut, t1, c1, c2, c3, c4, c5⟩ := profitF_call hpA hv' h0 hζ hN hfl hln hex hdot hS0 ht
  have hprof : profit (p - e.e3) A (o.aRb y) (fun i => v i + e.e5) (qty y) = Real.exp (Real.log ((p - e.e3) * A) + o.aRb y ⬝ᵥ y) - e.cost v y := by
    rw [cobb_eq hpA, profit, Unc.cost, Fin.sum_univ_two]; ring
  have hG := guaranteed_iff (a := a) (v := v) hA.le h1 h2 h3 h3'.le h5 ho1 ho2 y
  have hcor := corner_within (p := p) (v := v) h1 h2 h3 h5 ho1 ho2 y
  have hkk : |k - e.e4 - k| ≤ e.e4 := by rw [show k - e.e4 - k = -e.e4 by ring, abs_neg, abs_of_nonneg h4]
  have hroom : ∀ {s : ℝ} {z : Fin 2 → ℝ} {δ : ℝ}, ProfitRoom e p A k a v s z δ → z 0 + δ ≤ Real.log (k - e.e4) ∧
      (s + ((v 0 + e.e5) * qty z 0 + (v 1 + e.e5) * qty z 1)) * Real.exp δ ≤ (p - e.e3) * (A * qty z 0 ^ o.aRb y 0 * qty z 1 ^ o.aRb y 1) := fun {s z δ} h => by
    refine ⟨?_, h.2 _ _ _ hcor⟩
    rw [Real.le_log_iff_exp_le hk0, Real.exp_add]
    exact h.1 _ hkk
  refine ⟨cut, t1, c1, c2, fun s hs k' hk' => ?_, fun s hs => ⟨_, hG, ?_⟩, fun s hs => (c3 s hs).2.2, fun δ hδ hr => ?_, fun z δ hr => ?_⟩
  · have d1 := (c3 s hs).1
    have d2 : qty y 0 ≤ (k - e.e4) * Real.exp (4 * (ζ * M)) := by
      rw [qty, ← Real.exp_log hk0, ← Real.exp_add, Real.exp_le_exp]
      exact d1
    exact d2.trans (mul_le_mul_of_nonneg_right (by linarith [(abs_le.1 hk').1]) (Real.exp_pos _).le)
  · have d := (c3 s hs).2.1
    rw [hprof]
    refine d.trans (le_of_eq ?_)
    change _ * (_ + e.cost v y) = _
    ring
  · obtain ⟨r1, r2⟩ := hroom hr
    have hM := hS.one
    have hzM : 0 ≤ ζ * M := mul_nonneg h0 (by linarith)
    refine c4 (by linarith) ?_
    have hT : 0 < max t 0 + ∑ i, (v i + e.e5) * Real.exp (y i) := by
      rw [Fin.sum_univ_two]
      have := mul_pos (hv' 0) (Real.exp_pos (y 0))
      have := mul_pos (hv' 1) (Real.exp_pos (y 1))
      have := le_max_right t 0
      dsimp only at *
      linarith
    rw [← cobb_eq hpA] at r2
    have r3 : (max t 0 + ∑ i, (v i + e.e5) * Real.exp (y i)) * Real.exp δ ≤ Real.exp (Real.log ((p - e.e3) * A) + o.aRb y ⬝ᵥ y) := by
      rw [Fin.sum_univ_two]; exact r2
    have r4 := Real.log_le_log (mul_pos hT (Real.exp_pos _)) r3
    rw [Real.log_exp, Real.log_mul hT.ne' (Real.exp_pos _).ne', Real.log_exp] at r4
    linarith
  · obtain ⟨r1, r2⟩ := hroom hr
    refine (c5 z δ r1 r2).trans ?_
    have hM := hS.one
    have hzM : 0 ≤ 31 * (ζ * M) := by have : 0 ≤ ζ * M := mul_nonneg h0 (by linarith)
                                      linarith
    refine add_le_add le_rfl (mul_le_mul_of_nonneg_left (add_le_add le_rfl (Finset.sum_le_sum fun i _ => ?_)) hzM)
    exact mul_le_mul_of_nonneg_right (add_le_add le_rfl (hb i)) (abs_nonneg _)

/-- **C136** (the robust oracle).  After any history of calls, every operation rounded: for a level that is not negative beyond the error, `profit_rb_oracle` answers; a value it reports is, up to
the stated errors, the largest profit guaranteed at a point within the limit; where there is enough room it does report one; and points with room satisfy the cut. -/
theorem C136_profit_rb (h0 : 0 ≤ ζ) (hζ : ζ * M ≤ 1 / 100) (hfl : RelErr ζ fl) (hln : LogErr ζ ln) (hex : ExpErr ζ ex) (hdot : VecDotErr ζ dot) {o : ProfitRb}
    (ho : RbReach (ProfitRb.initF fl ln p A k a v e.e1 e.e2 e.e3 e.e4 e.e5) o) (hS : ProfitSizes e p A k a v y t M) (ht : -(ζ * e.cost v y) ≤ t) :
    ∃ o' cut t1, ProfitRb.callF fl ln ex dot y t o = .ok (o', cut, t1) ∧
      RbReach (ProfitRb.initF fl ln p A k a v e.e1 e.e2 e.e3 e.e4 e.e5) o' ∧ ProfitAnswer e p A k a v y t (ζ * M) cut t1 := by
  obtain ⟨r1, r2, b, r3⟩ := ho
  have r1 : o.a = a := r1
  have r2 : o.e = e.elas := r2
  have hM := hS.one
  have hsum : 0 ≤ ∑ i, (|a i| + e.elas i) * |y i| := Finset.sum_nonneg fun i _ =>
    mul_nonneg (add_nonneg (abs_nonneg _) (by fin_cases i <;> simp [Unc.elas, h1, h2])) (abs_nonneg _)
  have hN : ProfitNear ζ M ⟨o.P.logPA, o.P.logK, o.P.v, o.aRbF fl y⟩ (p - e.e3) A (k - e.e4) (o.aRb y) (fun i => v i + e.e5) := by
    have key := init_near (fl := fl) (ln := ln) (a := o.aRb y) (a' := o.aRbF fl y) (v := fun i => v i + e.e5) (v' := fun i => fl (v i + e.e5)) h0 hM hζ hfl hln
      (show 0 < p - e.e3 by linarith) hA (show 0 < k - e.e4 by linarith) (appr_fl hfl (by linarith)) (appr_fl hfl (by linarith)) (fun i => hfl _)
      (fun i => appr_fl hfl (by have := hv i; linarith)) (by linarith [hS.cobb]) hS.k
    rw [r3]
    exact key
  obtain ⟨cut, t1, c1, c2⟩ := answer_near hA h1 h2 h3 h3' h4 h4' h5 hv h0 hζ r1 r2 hN hfl hln hex hdot hS ht
  exact ⟨⟨o.a, o.e, ⟨o.P.logPA, o.P.logK, o.P.v, o.aRbF fl y⟩⟩, cut, t1, by simp only [ProfitRb.callF]; rw [c1], ⟨r1, r2, o.aRbF fl y, by rw [r3]⟩, c2⟩

end

/-- **C136** (the plain oracle).  The same for `profit_oracle`, without uncertainty. -/
theorem C136_profit (hp : 0 < p) (hA : 0 < A) (hk : 0 < k) (hv : ∀ i, 0 < v i) (h0 : 0 ≤ ζ) (hζ : ζ * M ≤ 1 / 100) (hfl : RelErr ζ fl) (hln : LogErr ζ ln)
    (hex : ExpErr ζ ex) (hdot : VecDotErr ζ dot) (hS : ProfitSizes Unc.none p A k a v y t M) (ht : -(ζ * Unc.none.cost v y) ≤ t) :
    ∃ cut t1, (Profit.initF fl ln p A k a v).callF fl ln ex dot y t = .ok (cut, t1) ∧ ProfitAnswer Unc.none p A k a v y t (ζ * M) cut t1 := by
  have hM := hS.one
  have hc := hS.cobb
  have hkk := hS.k
  have hsum : 0 ≤ ∑ i, (|a i| + Unc.none.elas i) * |y i| := Finset.sum_nonneg fun i _ =>
    mul_nonneg (add_nonneg (abs_nonneg _) (by fin_cases i <;> simp [Unc.elas, Unc.none])) (abs_nonneg _)
  have hL : |Real.log (p * A)| ≤ M := by
    have : |Real.log ((p - 0) * A)| ≤ M := by change |Real.log ((p - 0) * A)| + _ ≤ M at hc; linarith
    simpa using this
  have hLk : |Real.log k| ≤ M := by
    change |Real.log (k - 0)| ≤ M at hkk
    simpa using hkk
  have key := init_near (fl := fl) (ln := ln) (a := a) (a' := a) (v := v) (v' := v) h0 hM hζ hfl hln hp hA hk (appr_refl h0 hp.le) (appr_refl h0 hk.le)
    (fun i => by rw [sub_self, abs_zero]; positivity) (fun i => appr_refl h0 (hv i).le) hL hLk
  have ha : (⟨a, Unc.none.elas, Profit.initF fl ln p A k a v⟩ : ProfitRb).aRb y = a := by
    funext i
    have : Unc.none.elas i = 0 := by fin_cases i <;> simp [Unc.elas, Unc.none]
    simp [ProfitRb.aRb, this]
  refine answer_near (e := Unc.none) (o := ⟨a, Unc.none.elas, Profit.initF fl ln p A k a v⟩) hA le_rfl le_rfl le_rfl hp le_rfl hk le_rfl hv h0 hζ rfl rfl ?_ hfl hln hex hdot hS ht
  rw [ha]
  simpa [Unc.none] using key

/-- **C136** (the level can fall).  With an exponential that is too small by the relative error `ζ` and everything else exact, the best-so-far value 2 is replaced by the smaller value `2(1 - ζ)`: the
comparison is made with the logarithm, the value is computed with the exponential. -/
theorem C136_level_falls {ζ : ℝ} (h0 : 0 < ζ) (h1 : ζ < 1) :
    ExpErr ζ (fun x => (1 - ζ) * Real.exp x) ∧ ∃ cut s,
      (Profit.initF id Real.log 4 1 1 ![1, 1] ![1, 1]).callF id Real.log (fun x => (1 - ζ) * Real.exp x) (· ⬝ᵥ ·) 0 2 = .ok (cut, some s) ∧ s = 2 * (1 - ζ) ∧ s < 2 := by
  refine ⟨fun x => ?_, (fun i => (1 - ζ) / ((1 - ζ) * 4) - (![1, 1] : Fin 2 → ℝ) i, 0), 2 * (1 - ζ), ?_, rfl, by linarith⟩
  · rw [show (1 - ζ) * Real.exp x - Real.exp x = -(ζ * Real.exp x) by ring, abs_neg, abs_of_pos (mul_pos h0 (Real.exp_pos x))]
  · have e4 : Real.exp (Real.log 4) = 4 := Real.exp_log (by norm_num)
    have hlog : Real.log (2 + ((1 - ζ) + (1 - ζ))) - Real.log 4 < 0 := by
      have := Real.log_lt_log (show 0 < 2 + ((1 - ζ) + (1 - ζ)) by linarith) (show 2 + ((1 - ζ) + (1 - ζ)) < 4 by linarith)
      linarith
    have hn : ¬ (2 + ((1 - ζ) + (1 - ζ)) < 0) := by linarith
    simp only [Profit.callF, Profit.initF, id, Pi.zero_apply, Real.log_one, sub_self, lt_irrefl, if_false, dotProduct_zero, add_zero, mul_one, Real.exp_zero]
    have hv : ∀ i : Fin 2, (![1, 1] : Fin 2 → ℝ) i * (1 - ζ) = 1 - ζ := fun i => by fin_cases i <;> simp
    simp only [hv]
    rw [if_neg hn, if_pos (.inr hlog), e4]
    simp only [Except.ok.injEq, Prod.mk.injEq, Option.some.injEq, true_and]
    ring

/-! ### Non-vacuity -/

/-- A query that meets the assumptions, with an inexact exponential. -/
example : ∃ cut t1, (Profit.initF id Real.log 4 1 1 ![1, 1] ![1, 1]).callF id Real.log (fun x => (1 - 1 / 1000) * Real.exp x) (· ⬝ᵥ ·) 0 2 = .ok (cut, t1) ∧
    ProfitAnswer Unc.none 4 1 1 ![1, 1] ![1, 1] 0 2 (1 / 1000 * 2) cut t1 ∧ t1.isSome := by
  have hl : |Real.log 4| ≤ 2 := by
    rw [abs_of_pos (Real.log_pos (by norm_num)), show (4 : ℝ) = 2 ^ 2 by norm_num, Real.log_pow]
    have := Real.log_two_lt_d9
    push_cast
    linarith
  have hS : ProfitSizes Unc.none 4 1 1 ![1, 1] ![1, 1] 0 2 2 := by
    refine ⟨by norm_num, by simp, by simp [Unc.none], ?_, ?_⟩
    · simpa [Unc.none, Unc.elas] using hl
    · have : max 2 0 + Unc.none.cost ![1, 1] 0 = 4 := by
        rw [Unc.cost, Fin.sum_univ_two]; norm_num [Unc.none, qty]
      rw [this]; exact hl
  have hfl : RelErr (1 / 1000 : ℝ) id := fun x => by simp
  have hln : LogErr (1 / 1000) Real.log := fun x _ => by simp
  have hdot : VecDotErr (n := 2) (1 / 1000) (· ⬝ᵥ ·) := fun x y => by
    rw [sub_self, abs_zero]; positivity
  have hex : ExpErr (1 / 1000) (fun x => (1 - 1 / 1000) * Real.exp x) := (C136_level_falls (by norm_num) (by norm_num)).1
  obtain ⟨cut, t1, c1, c2⟩ := C136_profit (p := 4) (A := 1) (k := 1) (a := ![1, 1]) (v := ![1, 1]) (y := 0) (t := 2) (by norm_num) (by norm_num) (by norm_num)
    (fun i => by fin_cases i <;> simp) (by norm_num) (by norm_num) hfl hln hex hdot hS (by
      have : 0 ≤ Unc.none.cost ![1, 1] 0 := by rw [Unc.cost, Fin.sum_univ_two]; norm_num [Unc.none, qty]
      linarith)
  refine ⟨cut, t1, c1, c2, ?_⟩
  obtain ⟨-, cut', s, d1, -⟩ := C136_level_falls (ζ := 1 / 1000) (by norm_num) (by norm_num)
  rw [d1] at c1
  simp only [Except.ok.injEq, Prod.mk.injEq] at c1
  rw [← c1.2]
  rfl

end Verif
