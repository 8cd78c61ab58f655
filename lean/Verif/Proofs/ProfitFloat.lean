import Verif.Props.Profit
import Verif.Model.ProfitFloat
import Verif.Spec.ProfitFloatSpec
import Verif.Spec.RelErr
import Verif.Spec.EllFloatSpec

/-! # Error analysis of `profit_oracle` -/
namespace Verif
open Matrix

/-- `x'` approximates the positive number `x`. -/
def Appr (e x x' : ℝ) : Prop := |x' - x| ≤ e * x

theorem Appr.mk' {e x x' : ℝ} (h1 : (1 - e) * x ≤ x') (h2 : x' ≤ (1 + e) * x) : Appr e x x' := by
  unfold Appr; rw [abs_le]; constructor <;> linarith

theorem Appr.lo {e x x' : ℝ} (h : Appr e x x') : (1 - e) * x ≤ x' := by have := (abs_le.1 h).1; linarith

theorem Appr.hi {e x x' : ℝ} (h : Appr e x x') : x' ≤ (1 + e) * x := by have := (abs_le.1 h).2; linarith

theorem Appr.weaken {e f x x' : ℝ} (h : Appr e x x') (hx : 0 ≤ x) (hf : e ≤ f) : Appr f x x' := by
  unfold Appr at *; exact h.trans (mul_le_mul_of_nonneg_right hf hx)

theorem Appr.pos {e x x' : ℝ} (h : Appr e x x') (hx : 0 < x) (he : e < 1) : 0 < x' :=
  (mul_pos (by linarith) hx).trans_le h.lo

/-- The logarithm of an approximation. -/
theorem Appr.log {e x x' : ℝ} (h : Appr e x x') (hx : 0 < x) (he : e < 1) : |Real.log x' - Real.log x| ≤ e / (1 - e) := by
  have hx' := h.pos hx he
  have he0 : 0 ≤ e := by
    have : 0 ≤ e * x := (abs_nonneg _).trans h
    exact nonneg_of_mul_nonneg_left this hx
  have h1 := Real.log_le_sub_one_of_pos (div_pos hx' hx)
  have h2 := Real.log_le_sub_one_of_pos (div_pos hx hx')
  rw [Real.log_div hx'.ne' hx.ne'] at h1
  rw [Real.log_div hx.ne' hx'.ne'] at h2
  have h3 : x' / x ≤ 1 + e := (div_le_iff₀ hx).2 h.hi
  have h4 : x / x' ≤ 1 / (1 - e) := by
    rw [div_le_div_iff₀ hx' (by linarith)]
    linarith [h.lo]
  have h5 : 1 / (1 - e) - 1 = e / (1 - e) := by have : 1 - e ≠ 0 := by linarith
                                                field_simp; ring
  have h6 : e ≤ e / (1 - e) := by rw [le_div_iff₀ (by linarith)]; nlinarith
  rw [abs_le]; constructor <;> linarith

theorem Appr.fl {ζ e x x' : ℝ} {fl : ℝ → ℝ} (hfl : RelErr ζ fl) (h : Appr e x x') (hx : 0 < x) (he : e < 1) : Appr (e + ζ * (1 + e)) x (fl x') := by
  have h1 := hfl x'
  have hx' := h.pos hx he
  have hz : 0 ≤ ζ := by
    have := (abs_nonneg _).trans h1
    rw [abs_of_pos hx'] at this
    exact nonneg_of_mul_nonneg_left this hx'
  rw [abs_of_pos hx'] at h1
  have h2 := mul_le_mul_of_nonneg_left h.hi hz
  unfold Appr at *
  calc |fl x' - x| ≤ |fl x' - x'| + |x' - x| := abs_sub_le _ _ _
    _ ≤ _ := by linarith

theorem Appr.mul {e f x x' y y' : ℝ} (h : Appr e x x') (g : Appr f y y') (hx : 0 < x) (hy : 0 < y) (he : e < 1) :
    Appr (e + f + e * f) (x * y) (x' * y') := by
  have hx' := h.pos hx he
  have he0 : 0 ≤ e := nonneg_of_mul_nonneg_left ((abs_nonneg _).trans h) hx
  have hf0 : 0 ≤ f := nonneg_of_mul_nonneg_left ((abs_nonneg _).trans g) hy
  have e1 : x' * y' - x * y = (x' - x) * y + x * (y' - y) + (x' - x) * (y' - y) := by ring
  unfold Appr at *
  rw [e1]
  have a1 : |(x' - x) * y| ≤ e * x * y := by rw [abs_mul, abs_of_pos hy]; exact mul_le_mul_of_nonneg_right h hy.le
  have a2 : |x * (y' - y)| ≤ x * (f * y) := by rw [abs_mul, abs_of_pos hx]; exact mul_le_mul_of_nonneg_left g hx.le
  have a3 : |(x' - x) * (y' - y)| ≤ (e * x) * (f * y) := by rw [abs_mul]; exact mul_le_mul h g (abs_nonneg _) (by positivity)
  calc _ ≤ |(x' - x) * y| + |x * (y' - y)| + |(x' - x) * (y' - y)| := (abs_add_le _ _).trans (by linarith [abs_add_le ((x' - x) * y) (x * (y' - y))])
    _ ≤ _ := by linarith

theorem Appr.inv {e x x' : ℝ} (h : Appr e x x') (hx : 0 < x) (he : e < 1) : Appr (e / (1 - e)) x⁻¹ x'⁻¹ := by
  have hlo := h.lo
  have hx' := h.pos hx he
  have he0 : 0 ≤ e := nonneg_of_mul_nonneg_left ((abs_nonneg _).trans h) hx
  unfold Appr at *
  have e1 : x'⁻¹ - x⁻¹ = (x - x') * (x'⁻¹ * x⁻¹) := by field_simp
  rw [e1, abs_mul, abs_sub_comm, abs_of_pos (by positivity : 0 < x'⁻¹ * x⁻¹)]
  have h1 : x * x'⁻¹ ≤ 1 / (1 - e) := by
    rw [← div_eq_mul_inv, div_le_div_iff₀ hx' (by linarith)]
    linarith [hlo]
  have h2 : 0 ≤ x⁻¹ := by positivity
  calc |x' - x| * (x'⁻¹ * x⁻¹) ≤ e * x * (x'⁻¹ * x⁻¹) := mul_le_mul_of_nonneg_right h (by positivity)
    _ = e * (x * x'⁻¹) * x⁻¹ := by ring
    _ ≤ e * (1 / (1 - e)) * x⁻¹ := mul_le_mul_of_nonneg_right (mul_le_mul_of_nonneg_left h1 he0) h2
    _ = _ := by ring

/-- The linearization at `y` of the constraint for level `s`, with room. -/
theorem profit_lin {p A : ℝ} {a v : Fin 2 → ℝ} (hpA : 0 < p * A) (hv : ∀ i, 0 < v i) (y z : Fin 2 → ℝ) {s δ : ℝ} (hs : 0 ≤ s)
    (hz : (s + (v 0 * qty z 0 + v 1 * qty z 1)) * Real.exp δ ≤ p * (A * qty z 0 ^ a 0 * qty z 1 ^ a 1)) :
    (fun i => v i * Real.exp (y i) / (s + ∑ j, v j * Real.exp (y j)) - a i) ⬝ᵥ (z - y) +
      (Real.log (s + ∑ j, v j * Real.exp (y j)) - (Real.log (p * A) + a ⬝ᵥ y)) ≤ -δ := by
  rw [Fin.sum_univ_two]
  set q : Fin 2 → ℝ := fun i => v i * Real.exp (y i) with hq
  have hq0 : ∀ i, 0 < q i := fun i => mul_pos (hv i) (Real.exp_pos _)
  set lc := Real.log (p * A) + a ⬝ᵥ y with hlc
  have hdot : ∀ (g z : Fin 2 → ℝ), g ⬝ᵥ (z - y) = g 0 * (z 0 - y 0) + g 1 * (z 1 - y 1) := by
    intro g z; simp [dotProduct, Fin.sum_univ_two]
  have hte : 0 < s + (q 0 + q 1) := by have := hq0 0; have := hq0 1; linarith
  have h1 := exp_weighted (d0 := z 0 - y 0) (d1 := z 1 - y 1) hs (hq0 0).le (hq0 1).le rfl hte
  have e2 : (fun i => q i / (s + (q 0 + q 1)) - a i) ⬝ᵥ (z - y) + (Real.log (s + (q 0 + q 1)) - lc) =
      Real.log ((s + (q 0 + q 1)) * Real.exp ((q 0 * (z 0 - y 0) + q 1 * (z 1 - y 1)) / (s + (q 0 + q 1)))) -
        (lc + a ⬝ᵥ (z - y)) := by
    rw [Real.log_mul hte.ne' (Real.exp_pos _).ne', Real.log_exp, hdot, hdot]
    field_simp
    ring
  have hpos : 0 < (s + (q 0 + q 1)) * Real.exp ((q 0 * (z 0 - y 0) + q 1 * (z 1 - y 1)) / (s + (q 0 + q 1))) :=
    mul_pos hte (Real.exp_pos _)
  have e1 : lc + a ⬝ᵥ (z - y) = Real.log (p * A) + a ⬝ᵥ z := by rw [hlc, dotProduct_sub]; ring
  have e3 : q 0 * Real.exp (z 0 - y 0) + q 1 * Real.exp (z 1 - y 1) = v 0 * qty z 0 + v 1 * qty z 1 := by
    have : ∀ i, v i * Real.exp (y i) * Real.exp (z i - y i) = v i * Real.exp (z i) := by
      intro i; rw [mul_assoc, ← Real.exp_add]; congr 2; ring
    simp only [hq, qty, this]
  rw [← cobb_eq hpA, ← e1, ← e3] at hz
  have h2 : s + (q 0 * Real.exp (z 0 - y 0) + q 1 * Real.exp (z 1 - y 1)) ≤ Real.exp (lc + a ⬝ᵥ (z - y) - δ) := by
    rw [Real.exp_sub (lc + _) δ, le_div_iff₀ (Real.exp_pos _)]; exact hz
  have := (Real.log_le_iff_le_exp hpos).2 (h1.trans h2)
  rw [e2]
  linarith

/-- `ProfitSizes` without uncertainty. -/
structure ProfitSizes0 (p A k : ℝ) (a v y : Fin 2 → ℝ) (t M : ℝ) : Prop where
  one : 1 ≤ M
  y0 : |y 0| ≤ M
  k : |Real.log k| ≤ M
  cobb : |Real.log (p * A)| + ∑ i, |a i * y i| ≤ M
  level : |Real.log (max t 0 + ∑ i, v i * Real.exp (y i))| ≤ M

/-- An object whose data are those of the problem up to rounding. -/
structure ProfitNear (ζ M : ℝ) (o : Profit) (p A k : ℝ) (a v : Fin 2 → ℝ) : Prop where
  logPA : |o.logPA - Real.log (p * A)| ≤ 4 * (ζ * M)
  logK : |o.logK - Real.log k| ≤ 4 * (ζ * M)
  a : ∀ i, |o.a i - a i| ≤ ζ * |a i|
  v : ∀ i, Appr ζ (v i) (o.v i)

section
variable {fl ln ex : ℝ → ℝ} {dot : (Fin 2 → ℝ) → (Fin 2 → ℝ) → ℝ} {ζ M : ℝ} {o : Profit} {p A k : ℝ} {a v y : Fin 2 → ℝ} {t : ℝ}
variable (hv : ∀ i, 0 < v i) (h0 : 0 ≤ ζ) (hM : 1 ≤ M) (hζ : ζ * M ≤ 1 / 100) (hN : ProfitNear ζ M o p A k a v)
  (hfl : RelErr ζ fl) (hln : LogErr ζ ln) (hex : ExpErr ζ ex) (hdot : VecDotErr ζ dot)
include h0 hM hζ

theorem small_of : ζ ≤ 1 / 100 ∧ ζ ≤ ζ * M := by
  have : ζ * 1 ≤ ζ * M := mul_le_mul_of_nonneg_left hM h0
  constructor <;> linarith

include hv hN hfl hex in
theorem near_q (i : Fin 2) : Appr (4 * ζ) (v i * Real.exp (y i)) (fl (o.v i * ex (y i))) := by
  obtain ⟨z1, -⟩ := small_of h0 hM hζ
  have hx : Appr ζ (Real.exp (y i)) (ex (y i)) := hex _
  have h := ((hN.v i).mul hx (hv i) (Real.exp_pos _) (by linarith)).fl hfl (mul_pos (hv i) (Real.exp_pos _)) (by nlinarith)
  exact h.weaken (mul_pos (hv i) (Real.exp_pos _)).le (by nlinarith)

include hv hN hfl hex in
theorem near_vx : Appr (6 * ζ) (∑ i, v i * Real.exp (y i)) (fl (fl (o.v 0 * ex (y 0)) + fl (o.v 1 * ex (y 1)))) := by
  obtain ⟨z1, -⟩ := small_of h0 hM hζ
  rw [Fin.sum_univ_two]
  have a0 := near_q hv h0 hM hζ hN hfl hex (y := y) 0
  have a1 := near_q hv h0 hM hζ hN hfl hex (y := y) 1
  have p0 := mul_pos (hv 0) (Real.exp_pos (y 0))
  have p1 := mul_pos (hv 1) (Real.exp_pos (y 1))
  have h : Appr (4 * ζ) (v 0 * Real.exp (y 0) + v 1 * Real.exp (y 1)) (fl (o.v 0 * ex (y 0)) + fl (o.v 1 * ex (y 1))) :=
    .mk' (by linarith [a0.lo, a1.lo]) (by linarith [a0.hi, a1.hi])
  exact (h.fl hfl (by linarith) (by linarith)).weaken (by linarith) (by nlinarith)

include hfl in
theorem near_te {vx vx' : ℝ} (hvx : 0 < vx) (h : Appr (6 * ζ) vx vx') (ht : -(ζ * vx) ≤ t) : Appr (9 * ζ) (max t 0 + vx) (fl (t + vx')) := by
  obtain ⟨z1, -⟩ := small_of h0 hM hζ
  have hT : vx ≤ max t 0 + vx := by linarith [le_max_right t 0]
  have g : Appr (7 * ζ) (max t 0 + vx) (t + vx') := by
    have h1 : |t + vx' - (max t 0 + vx)| ≤ 7 * ζ * vx := by
      have h2 := abs_le.1 h
      rcases le_total t 0 with h3 | h3
      · rw [max_eq_right h3, abs_le]; constructor <;> linarith [mul_nonneg h0 hvx.le]
      · rw [max_eq_left h3, abs_le]; constructor <;> linarith [mul_nonneg h0 hvx.le]
    exact h1.trans (mul_le_mul_of_nonneg_left hT (by linarith))
  exact (g.fl hfl (by linarith) (by linarith)).weaken (by linarith) (by nlinarith)

include hln in
theorem near_ln {T te : ℝ} (hT : 0 < T) (hL : |Real.log T| ≤ M) (h : Appr (9 * ζ) T te) : |ln te - Real.log T| ≤ 12 * (ζ * M) := by
  obtain ⟨z1, z2⟩ := small_of h0 hM hζ
  have h1 := h.log hT (by linarith)
  have h2 : 9 * ζ / (1 - 9 * ζ) ≤ 10 * ζ := by rw [div_le_iff₀ (by linarith)]; nlinarith
  have h3 := hln te (h.pos hT (by linarith))
  have h4 : |Real.log te| ≤ M + 1 := by
    have := abs_sub_abs_le_abs_sub (Real.log te) (Real.log T)
    linarith
  have h5 := mul_le_mul_of_nonneg_left h4 h0
  calc |ln te - Real.log T| ≤ |ln te - Real.log te| + |Real.log te - Real.log T| := abs_sub_le _ _ _
    _ ≤ _ := by linarith

include hN hfl hdot in
theorem near_lc (hc : |Real.log (p * A)| + ∑ i, |a i * y i| ≤ M) : |fl (o.logPA + dot o.a y) - (Real.log (p * A) + a ⬝ᵥ y)| ≤ 8 * (ζ * M) := by
  obtain ⟨z1, z2⟩ := small_of h0 hM hζ
  have h1 := hN.logPA
  have h2 := hdot o.a y
  have hs : ∑ i, |o.a i * y i| ≤ (1 + ζ) * ∑ i, |a i * y i| := by
    rw [Finset.mul_sum]
    refine Finset.sum_le_sum fun i _ => ?_
    rw [abs_mul, abs_mul, ← mul_assoc]
    refine mul_le_mul_of_nonneg_right ?_ (abs_nonneg _)
    have := abs_sub_abs_le_abs_sub (o.a i) (a i)
    linarith [hN.a i]
  have hs2 : |o.a ⬝ᵥ y - a ⬝ᵥ y| ≤ ζ * ∑ i, |a i * y i| := by
    rw [← sub_dotProduct, Finset.mul_sum]
    refine (Finset.abs_sum_le_sum_abs _ _).trans (Finset.sum_le_sum fun i _ => ?_)
    rw [abs_mul, abs_mul, Pi.sub_apply, ← mul_assoc]
    exact mul_le_mul_of_nonneg_right (hN.a i) (abs_nonneg _)
  set S := ∑ i, |a i * y i| with hS
  have hS0 : 0 ≤ S := Finset.sum_nonneg fun i _ => abs_nonneg _
  have hSM : S ≤ M := by linarith [abs_nonneg (Real.log (p * A))]
  have h3 : ζ * ∑ i, |o.a i * y i| ≤ ζ * ((1 + 1 / 100) * M) := mul_le_mul_of_nonneg_left (hs.trans (mul_le_mul (by linarith) hSM hS0 (by norm_num))) h0
  have h4 : ζ * S ≤ ζ * M := mul_le_mul_of_nonneg_left hSM h0
  have h5 : |o.logPA + dot o.a y - (Real.log (p * A) + a ⬝ᵥ y)| ≤ 6.01 * (ζ * M) := by
    have e1 : o.logPA + dot o.a y - (Real.log (p * A) + a ⬝ᵥ y) = (o.logPA - Real.log (p * A)) + (dot o.a y - o.a ⬝ᵥ y) + (o.a ⬝ᵥ y - a ⬝ᵥ y) := by ring
    rw [e1]
    refine (abs_add_three _ _ _).trans ?_
    linarith
  have h6 := hfl (o.logPA + dot o.a y)
  have h7 : |Real.log (p * A) + a ⬝ᵥ y| ≤ M := by
    have := Finset.abs_sum_le_sum_abs (fun i => a i * y i) Finset.univ
    have h8 : |a ⬝ᵥ y| ≤ S := this
    exact (abs_add_le _ _).trans (by linarith)
  have h8 : |o.logPA + dot o.a y| ≤ 1.1 * M := by
    have := abs_sub_abs_le_abs_sub (o.logPA + dot o.a y) (Real.log (p * A) + a ⬝ᵥ y)
    linarith
  have h9 := mul_le_mul_of_nonneg_left h8 h0
  calc _ ≤ |fl (o.logPA + dot o.a y) - (o.logPA + dot o.a y)| + |o.logPA + dot o.a y - (Real.log (p * A) + a ⬝ᵥ y)| := abs_sub_le _ _ _
    _ ≤ _ := by linarith

/-- The computed gradient. -/
theorem near_g {fl : ℝ → ℝ} (hfl : RelErr ζ fl) {w w' b b' : ℝ} (hw : 0 ≤ w) (hw1 : w ≤ 1) (h : |w' - w| ≤ 24 * (ζ * M)) (hb : |b' - b| ≤ ζ * |b|) :
    |fl (w' - b') - (w - b)| ≤ 27 * (ζ * M) * (1 + |b|) := by
  obtain ⟨z1, z2⟩ := small_of h0 hM hζ
  have h1 := hfl (w' - b')
  have h2 : |w' - b'| ≤ 1.24 + 1.01 * |b| := by
    have a1 := abs_le.1 h
    have a2 := abs_le.1 hb
    have a3 := abs_le.1 (le_refl |b|)
    have a4 : ζ * |b| ≤ 0.01 * |b| := mul_le_mul_of_nonneg_right (by linarith) (abs_nonneg _)
    rw [abs_le]; constructor <;> linarith
  have h3 := mul_le_mul_of_nonneg_left h2 h0
  have h4 : ζ * |b| ≤ ζ * M * |b| := mul_le_mul_of_nonneg_right z2 (abs_nonneg _)
  have e1 : fl (w' - b') - (w - b) = (fl (w' - b') - (w' - b')) + (w' - w) + -(b' - b) := by ring
  have h5 : 0 ≤ ζ * M * |b| := mul_nonneg (h0.trans z2) (abs_nonneg _)
  rw [e1]
  refine (abs_add_three _ _ _).trans ?_
  rw [abs_neg]
  linarith

theorem near_cut {g g' d : Fin 2 → ℝ} {β β' r : ℝ} (h : g ⬝ᵥ d + β ≤ r) (hg : ∀ i, |g' i - g i| ≤ 27 * (ζ * M) * (1 + |a i|)) (hβ : |β' - β| ≤ 31 * (ζ * M)) :
    g' ⬝ᵥ d + β' ≤ r + 31 * (ζ * M) * (1 + ∑ i, (1 + |a i|) * |d i|) := by
  obtain ⟨z1, z2⟩ := small_of h0 hM hζ
  have h1 : (g' - g) ⬝ᵥ d ≤ 31 * (ζ * M) * ∑ i, (1 + |a i|) * |d i| := by
    rw [Finset.mul_sum]
    refine Finset.sum_le_sum fun i _ => ?_
    rw [← mul_assoc]
    refine (le_abs_self _).trans ?_
    rw [abs_mul]
    refine mul_le_mul_of_nonneg_right ((hg i).trans (mul_le_mul_of_nonneg_right (by linarith) (by positivity))) (abs_nonneg _)
  rw [sub_dotProduct] at h1
  have := (abs_le.1 hβ).2
  linarith

end

section
variable {fl ln ex : ℝ → ℝ} {dot : (Fin 2 → ℝ) → (Fin 2 → ℝ) → ℝ} {ζ M : ℝ} {o : Profit} {p A k : ℝ} {a v y : Fin 2 → ℝ} {t : ℝ}

theorem le_of_log {x T w c d : ℝ} (hcx : c * x < 1) (hT : 0 < T) (hw : 0 < w) (h : Real.log T ≤ Real.log w + c * x)
    (hd : 1 / (1 - c * x) ≤ 1 + d * x) : T ≤ (1 + d * x) * w := by
  have h2 : T ≤ Real.exp (Real.log w + c * x) := by rw [← Real.log_le_iff_le_exp hT]; exact h
  rw [Real.exp_add, Real.exp_log hw, mul_comm] at h2
  refine h2.trans (mul_le_mul_of_nonneg_right ?_ hw.le)
  have h3 := Real.one_sub_le_exp_neg (c * x)
  have h4 : Real.exp (c * x) * Real.exp (-(c * x)) = 1 := by rw [← Real.exp_add]; simp
  have h5 := mul_le_mul_of_nonneg_left h3 (Real.exp_pos (c * x)).le
  rw [h4] at h5
  have h6 : Real.exp (c * x) ≤ 1 / (1 - c * x) := by rw [le_div_iff₀ (by linarith)]; exact h5
  exact h6.trans hd

theorem near_of_log {x w l : ℝ} (hx : 0 ≤ x) (hx1 : x ≤ 1 / 100) (hw : 0 < w) (h : |Real.log w - l| ≤ 9.1 * x) : Appr (11 * x) (Real.exp l) w := by
  have h2 := abs_le.1 h
  refine .mk' ?_ ?_
  · have h3 : l - 9.1 * x ≤ Real.log w := by linarith
    rw [Real.le_log_iff_exp_le hw, sub_eq_add_neg, Real.exp_add] at h3
    have h4 := mul_le_mul_of_nonneg_left (Real.one_sub_le_exp_neg (9.1 * x)) (Real.exp_pos l).le
    have h5 := mul_le_mul_of_nonneg_right (show 1 - 11 * x ≤ 1 - 9.1 * x by linarith) (Real.exp_pos l).le
    linarith
  · refine le_of_log (c := 9.1) (by linarith) hw (Real.exp_pos l) (by rw [Real.log_exp]; linarith) ?_
    rw [div_le_iff₀ (by linarith)]; nlinarith

section
variable {fl : ℝ → ℝ} {ζ x T te vx vx' : ℝ} (h0 : 0 ≤ ζ) (hx : ζ ≤ x) (hx1 : x ≤ 1 / 100) (hfl : RelErr ζ fl) (hvx : 0 < vx) (nvx : Appr (6 * ζ) vx vx') (hte : 0 < te)
  (hTv : vx ≤ T) (TT : T ≤ (1 + 17 * x) * te)
include h0 hx hx1 hfl hvx nvx hte hTv TT

theorem near_level : Appr (17 * x) te (max (fl (te - vx')) 0 + vx) := by
  have hvp : 0 < vx' := nvx.pos hvx (by linarith)
  have hsr := hfl (te - vx')
  rcases le_or_gt 0 (te - vx') with hp | hp
  · rw [abs_of_nonneg hp] at hsr
    have h1 := abs_le.1 hsr
    have hs0 : 0 ≤ fl (te - vx') := by
      have := mul_le_of_le_one_left hp (show ζ ≤ 1 by linarith)
      linarith
    rw [max_eq_left hs0]
    have h2 : vx ≤ 1.1 * te := by
      have h3 := nvx.lo
      have h4 : (1 - 6 * (1 / 100)) * vx ≤ (1 - 6 * ζ) * vx := mul_le_mul_of_nonneg_right (by linarith) hvx.le
      linarith
    have h3 := abs_le.1 nvx
    have h4 : ζ * vx ≤ ζ * (1.1 * te) := mul_le_mul_of_nonneg_left h2 h0
    have h5 : ζ * te ≤ x * te := mul_le_mul_of_nonneg_right hx hte.le
    have h6 : 0 ≤ ζ * vx' := mul_nonneg h0 hvp.le
    have h7 : 0 ≤ ζ * te := mul_nonneg h0 hte.le
    unfold Appr
    rw [abs_le]; constructor <;> linarith
  · rw [abs_of_neg hp] at hsr
    have hs0 : fl (te - vx') ≤ 0 := by
      have h1 := (abs_le.1 hsr).2
      have := mul_le_of_le_one_left (show 0 ≤ -(te - vx') by linarith) (show ζ ≤ 1 by linarith)
      linarith
    rw [max_eq_right hs0, zero_add]
    have h1 := nvx.hi
    refine .mk' ?_ (hTv.trans TT)
    have h3 : te ≤ (1 + 6 * ζ) * vx := by linarith
    have h4 : (1 - 17 * x) * te ≤ (1 - 17 * x) * ((1 + 6 * ζ) * vx) := mul_le_mul_of_nonneg_left h3 (by linarith)
    refine h4.trans ?_
    rw [← mul_assoc]
    exact mul_le_of_le_one_left hvx.le (by nlinarith)

theorem level_drift : T - vx - 26 * x * T ≤ fl (te - vx') := by
  have hvp : 0 < vx' := nvx.pos hvx (by linarith)
  have hsr := hfl (te - vx')
  have hT0 : 0 < T := by linarith
  have h1 : (1 - 17 * x) * T ≤ te := by
    have h2 := mul_le_mul_of_nonneg_left TT (show 0 ≤ 1 - 17 * x by linarith)
    refine h2.trans ?_
    rw [← mul_assoc]
    exact mul_le_of_le_one_left hte.le (by nlinarith)
  have h2 : |te - vx'| ≤ te + vx' := by rw [abs_le]; constructor <;> linarith
  have h3 := (abs_le.1 (hsr.trans (mul_le_mul_of_nonneg_left h2 h0))).1
  have h4 := nvx.hi
  have h5 := mul_le_mul_of_nonneg_left h1 (show 0 ≤ 1 - ζ by linarith)
  have h6 := mul_le_mul_of_nonneg_left h4 (show 0 ≤ 1 + ζ by linarith)
  have h7 : ζ * T ≤ x * T := mul_le_mul_of_nonneg_right hx hT0.le
  have h8 : ζ * vx ≤ x * T := mul_le_mul hx hTv hvx.le (h0.trans hx)
  have h9 : ζ * (ζ * vx) ≤ 0.01 * (x * T) := mul_le_mul (show ζ ≤ 0.01 by linarith) h8 (by positivity) (by norm_num)
  have h11 : 0 ≤ x * T := mul_nonneg (h0.trans hx) hT0.le
  have h10 : 0 ≤ ζ * (x * T) := mul_nonneg h0 h11
  linarith

omit hTv TT in
theorem level_value {c : ℝ} (hc : 0 < c) (n3 : Appr (11 * x) c te) : |fl (te - vx') - (c - vx)| ≤ 14 * x * (c + vx) := by
  have hvp : 0 < vx' := nvx.pos hvx (by linarith)
  have hsr := hfl (te - vx')
  have hx0 := h0.trans hx
  have h1 : |te - vx'| ≤ te + vx' := by rw [abs_le]; constructor <;> linarith
  have h2 := mul_le_mul_of_nonneg_left h1 h0
  have h3 := abs_le.1 (hsr.trans h2)
  have h4 := abs_le.1 n3
  have h5 := abs_le.1 nvx
  have b1 : te ≤ 1.11 * c := by
    have := mul_le_mul_of_nonneg_right hx1 hc.le
    linarith [n3.hi]
  have b2 : vx' ≤ 1.06 * vx := by
    have := mul_le_mul_of_nonneg_right (hx.trans hx1) hvx.le
    linarith [nvx.hi]
  have h6 : ζ * te ≤ x * (1.11 * c) := mul_le_mul hx b1 hte.le hx0
  have h7 : ζ * vx' ≤ x * (1.06 * vx) := mul_le_mul hx b2 hvp.le hx0
  have h8 : ζ * vx ≤ x * vx := mul_le_mul_of_nonneg_right hx hvx.le
  have h9 : 0 ≤ x * vx := mul_nonneg hx0 hvx.le
  have h10 : 0 ≤ x * c := mul_nonneg hx0 hc.le
  rw [abs_le]; constructor <;> linarith

end

theorem num14 {x : ℝ} (hx : 0 ≤ x) (hx1 : x ≤ 1 / 100) : 1 / (1 - 14 * x) ≤ 1 + 17 * x := by
  rw [div_le_iff₀ (by linarith)]; nlinarith

theorem num17 {x : ℝ} (hx : 0 ≤ x) (hx1 : x ≤ 1 / 100) : 17 * x / (1 - 17 * x) ≤ 21 * x := by
  rw [div_le_iff₀ (by linarith)]; nlinarith

theorem num1 {x : ℝ} (hx : 0 ≤ x) (hx1 : x ≤ 1 / 100) : x / (1 - x) ≤ 1.02 * x := by
  rw [div_le_iff₀ (by linarith)]; nlinarith

theorem num9 {x : ℝ} (hx : 0 ≤ x) (hx1 : x ≤ 1 / 100) : 9 * x / (1 - 9 * x) ≤ 10 * x := by
  rw [div_le_iff₀ (by linarith)]; nlinarith

/-- Signs survive rounding. -/
theorem fl_sign {ζ : ℝ} {fl : ℝ → ℝ} (hfl : RelErr ζ fl) (hζ : ζ < 1) (x : ℝ) : (0 < fl x ↔ 0 < x) ∧ (fl x < 0 ↔ x < 0) := by
  have h := abs_le.1 (hfl x)
  rcases lt_trichotomy x 0 with hx | hx | hx
  · rw [abs_of_neg hx] at h
    have : fl x < 0 := by nlinarith [h.2]
    exact ⟨⟨fun _ => by linarith, fun _ => by linarith⟩, ⟨fun _ => hx, fun _ => this⟩⟩
  · rw [hx, abs_zero, mul_zero] at h
    have : fl 0 = 0 := by linarith [h.1, h.2]
    simp [hx, this]
  · rw [abs_of_pos hx] at h
    have : 0 < fl x := by nlinarith [h.1]
    exact ⟨⟨fun _ => hx, fun _ => this⟩, ⟨fun _ => by linarith, fun _ => by linarith⟩⟩

/-- The gradient computed with the revenue `te`. -/
theorem near_grad {fl : ℝ → ℝ} {ζ M q q' S te b b' : ℝ} (hfl : RelErr ζ fl) (h0 : 0 ≤ ζ) (hM : 1 ≤ M) (hζ : ζ * M ≤ 1 / 100) (hq0 : 0 < q) (nq : Appr (4 * ζ) q q')
    (hsv : 0 < S) (hqS : q ≤ S) (happ : Appr (17 * (ζ * M)) te S ∨ Appr (9 * ζ) S te) (hte : 0 < te) (hb : |b' - b| ≤ ζ * |b|) :
    |fl (fl (q' / te) - b') - (q / S - b)| ≤ 27 * (ζ * M) * (1 + |b|) := by
  obtain ⟨z1, z2⟩ := small_of h0 hM hζ
  have hw0 : 0 < q / S := div_pos hq0 hsv
  have hw1 : q / S ≤ 1 := by rw [div_le_one hsv]; exact hqS
  have h1 : Appr (22 * (ζ * M)) (q / S) (q' / te) := by
    rcases happ with happ | happ
    · have h2 : Appr (17 * (ζ * M)) S⁻¹ te⁻¹ := by
        have e2 : te⁻¹ - S⁻¹ = (S - te) * te⁻¹ * S⁻¹ := by field_simp
        unfold Appr at happ ⊢
        rw [e2, abs_mul, abs_mul, abs_of_pos (inv_pos.2 hte), abs_of_pos (inv_pos.2 hsv)]
        refine mul_le_mul_of_nonneg_right ?_ (inv_pos.2 hsv).le
        rw [← div_eq_mul_inv, div_le_iff₀ hte]
        exact happ
      rw [div_eq_mul_inv, div_eq_mul_inv]
      exact (nq.mul h2 hq0 (inv_pos.2 hsv) (by linarith)).weaken (by positivity) (by nlinarith)
    · have h2 := happ.inv hsv (by linarith)
      rw [div_eq_mul_inv, div_eq_mul_inv]
      exact (nq.mul (h2.weaken (inv_pos.2 hsv).le (num9 h0 z1)) hq0 (inv_pos.2 hsv) (by linarith)).weaken (by positivity) (by nlinarith)
  have h2 := (h1.fl hfl hw0 (by linarith)).weaken hw0.le (show _ ≤ 24 * (ζ * M) by nlinarith)
  exact near_g h0 hM hζ hfl hw0.le hw1 (le_trans h2 (mul_le_of_le_one_right (by linarith) hw1)) hb

/-- All that a rounded call does. -/
theorem profitF_call (hpA : 0 < p * A) (hv : ∀ i, 0 < v i) (h0 : 0 ≤ ζ) (hζ : ζ * M ≤ 1 / 100) (hN : ProfitNear ζ M o p A k a v)
    (hfl : RelErr ζ fl) (hln : LogErr ζ ln) (hex : ExpErr ζ ex) (hdot : VecDotErr ζ dot) (hS : ProfitSizes0 p A k a v y t M)
    (ht : -(ζ * ∑ i, v i * Real.exp (y i)) ≤ t) :
    ∃ cut t1, o.callF fl ln ex dot y t = .ok (cut, t1) ∧ 0 ≤ cut.2 ∧
      (∀ s, t1 = some s → y 0 ≤ Real.log k + 4 * (ζ * M) ∧
        |s - (Real.exp (Real.log (p * A) + a ⬝ᵥ y) - ∑ i, v i * Real.exp (y i))| ≤
          14 * (ζ * M) * (Real.exp (Real.log (p * A) + a ⬝ᵥ y) + ∑ i, v i * Real.exp (y i)) ∧
        t - 26 * (ζ * M) * (max t 0 + ∑ i, v i * Real.exp (y i)) ≤ s) ∧
      (y 0 + 4 * (ζ * M) ≤ Real.log k → Real.log (max t 0 + ∑ i, v i * Real.exp (y i)) + 20 * (ζ * M) < Real.log (p * A) + a ⬝ᵥ y → t1.isSome) ∧
      (∀ z δ, z 0 + δ ≤ Real.log k →
        (max (t1.getD t) 0 + (v 0 * qty z 0 + v 1 * qty z 1)) * Real.exp δ ≤ p * (A * qty z 0 ^ a 0 * qty z 1 ^ a 1) →
        cut.1 ⬝ᵥ (z - y) + cut.2 ≤ -δ + 31 * (ζ * M) * (1 + ∑ i, (1 + |a i|) * |z i - y i|)) := by
  have hM := hS.one
  obtain ⟨z1, z2⟩ := small_of h0 hM hζ
  have hzM : 0 ≤ ζ * M := h0.trans z2
  have sgn := fl_sign hfl (show ζ < 1 by linarith)
  have hK := abs_le.1 hN.logK
  by_cases hc : 0 < fl (y 0 - o.logK)
  · have hc' := (sgn _).1.1 hc
    refine ⟨(![1, 0], fl (y 0 - o.logK)), none, if_pos hc, hc.le, fun s hs => by simp at hs, fun h => by linarith, fun z δ hz _ => ?_⟩
    have e1 : (![1, 0] : Fin 2 → ℝ) ⬝ᵥ (z - y) = z 0 - y 0 := by rw [dotProduct, Fin.sum_univ_two]; simp
    have h1 := (abs_le.1 (hfl (y 0 - o.logK))).2
    rw [abs_of_pos hc'] at h1
    have h2 : y 0 - o.logK ≤ 2.1 * M := by
      have := (abs_le.1 hS.y0).2
      have := (abs_le.1 hS.k).1
      linarith
    have h3 := mul_le_mul_of_nonneg_left h2 h0
    have h4 : 0 ≤ ∑ i, (1 + |a i|) * |z i - y i| := by positivity
    have h5 : 31 * (ζ * M) * 1 ≤ 31 * (ζ * M) * (1 + ∑ i, (1 + |a i|) * |z i - y i|) := mul_le_mul_of_nonneg_left (by linarith) (by linarith)
    dsimp only
    rw [e1]
    linarith
  have hc' : y 0 ≤ o.logK := by
    by_contra h
    exact hc ((sgn _).1.2 (by linarith))
  set q' : Fin 2 → ℝ := fun i => fl (o.v i * ex (y i)) with hq'
  set vx' := fl (q' 0 + q' 1) with hvx'
  set lc' := fl (o.logPA + dot o.a y) with hlc'
  set te' := fl (t + vx') with hte'
  set q : Fin 2 → ℝ := fun i => v i * Real.exp (y i) with hq
  have hq0 : ∀ i, 0 < q i := fun i => mul_pos (hv i) (Real.exp_pos _)
  set vx := ∑ i, q i with hvx
  have hvx2 : vx = q 0 + q 1 := Fin.sum_univ_two q
  have hvx0 : 0 < vx := by have := hq0 0; have := hq0 1; linarith
  have hqv : ∀ i, q i ≤ vx := fun i => Finset.single_le_sum (f := q) (fun i _ => (hq0 i).le) (Finset.mem_univ i)
  set lc := Real.log (p * A) + a ⬝ᵥ y with hlc
  set T := max t 0 + vx with hT
  have hTv : vx ≤ T := by linarith [le_max_right t 0]
  have hT0 : 0 < T := by linarith
  have nq : ∀ i, Appr (4 * ζ) (q i) (q' i) := near_q hv h0 hM hζ hN hfl hex
  have nvx : Appr (6 * ζ) vx vx' := near_vx hv h0 hM hζ hN hfl hex
  have nte : Appr (9 * ζ) T te' := near_te h0 hM hζ hfl hvx0 nvx ht
  have nln : |ln te' - Real.log T| ≤ 12 * (ζ * M) := near_ln h0 hM hζ hln hT0 hS.level nte
  have nlc : |lc' - lc| ≤ 8 * (ζ * M) := near_lc h0 hM hζ hN hfl hdot hS.cobb
  have hte0 : 0 < te' := nte.pos hT0 (by linarith)
  have hlcM : |lc| ≤ M := by
    have h1 := hS.cobb
    have h2 : |a ⬝ᵥ y| ≤ ∑ i, |a i * y i| := Finset.abs_sum_le_sum_abs _ _
    exact (abs_add_le _ _).trans (by linarith)
  have hcall : o.callF fl ln ex dot y t = if fl (ln te' - lc') < 0 then
        .ok ((fun i => fl (fl (q' i / ex lc') - o.a i), 0), some (fl (ex lc' - vx')))
      else .ok ((fun i => fl (fl (q' i / te') - o.a i), fl (ln te' - lc')), none) := by
    refine (if_neg hc).trans ((if_neg (not_lt.2 hte0.le)).trans ?_)
    exact if_congr ⟨fun h => h.resolve_left hte0.ne', .inr⟩ rfl rfl
  have nln2 := abs_le.1 nln
  have nlc2 := abs_le.1 nlc
  by_cases hf : fl (ln te' - lc') < 0
  · rw [if_pos hf] at hcall
    have hf' := (sgn _).2.1 hf
    set te2 := ex lc' with hte2
    set s := fl (te2 - vx') with hs
    have n2 : Appr ζ (Real.exp lc') te2 := hex _
    have p2 : 0 < te2 := n2.pos (Real.exp_pos _) (by linarith)
    have l2 : |Real.log te2 - lc'| ≤ 1.02 * (ζ * M) := by
      have h1 := n2.log (Real.exp_pos _) (by linarith)
      rw [Real.log_exp] at h1
      linarith [num1 h0 z1]
    have l2' := abs_le.1 l2
    have TT : T ≤ (1 + 17 * (ζ * M)) * te2 := by
      refine le_of_log (c := 14) (by linarith) hT0 p2 (by linarith) (num14 hzM hζ)
    have happ : Appr (17 * (ζ * M)) te2 (max s 0 + vx) := near_level h0 z2 hζ hfl hvx0 nvx p2 hTv TT
    refine ⟨_, _, hcall, le_rfl, fun s1 hs1 => ?_, fun _ _ => rfl, fun z δ hz hr => ?_⟩
    · simp only [Option.some.injEq] at hs1
      subst hs1
      refine ⟨by linarith, ?_, ?_⟩
      · exact level_value h0 z2 hζ hfl hvx0 nvx p2 (Real.exp_pos _) (near_of_log hzM hζ p2 (by rw [abs_le]; constructor <;> linarith))
      · have h1 := level_drift h0 z2 hζ hfl hvx0 nvx p2 hTv TT
        have h2 : t ≤ T - vx := by rw [hT]; linarith [le_max_left t 0]
        linarith
    · have hsv : 0 < max s 0 + vx := by linarith [le_max_right s 0]
      have h1 := profit_lin hpA hv y z (s := max s 0) (le_max_right _ _) hr
      refine near_cut h0 hM hζ (a := a) h1 (fun i => near_grad hfl h0 hM hζ (hq0 i) (nq i) hsv (by linarith [hqv i, le_max_right s 0]) (.inl happ) p2 (hN.a i)) ?_
      have h2 := happ.log p2 (by linarith)
      have h4 := abs_le.1 (h2.trans (num17 hzM hζ))
      change |0 - (Real.log (max s 0 + vx) - lc)| ≤ _
      rw [abs_le]; constructor <;> linarith
  · rw [if_neg hf] at hcall
    have hf' : 0 ≤ ln te' - lc' := by
      by_contra h
      exact hf ((sgn _).2.2 (not_le.1 h))
    refine ⟨_, _, hcall, not_lt.1 hf, fun s hs => by simp at hs, fun _ h => by linarith, fun z δ hz hr => ?_⟩
    have h1 := profit_lin hpA hv y z (s := max t 0) (le_max_right _ _) hr
    refine near_cut h0 hM hζ (a := a) h1 (fun i => near_grad hfl h0 hM hζ (hq0 i) (nq i) hT0 ((hqv i).trans hTv) (.inr nte) hte0 (hN.a i)) ?_
    have h2 := abs_le.1 (hfl (ln te' - lc'))
    have h3 : |ln te' - lc'| ≤ 2.3 * M := by
      have a1 := abs_le.1 hS.level
      have a2 := abs_le.1 hlcM
      rw [abs_le]; constructor <;> linarith
    have h4 := mul_le_mul_of_nonneg_left h3 h0
    change |fl (ln te' - lc') - (Real.log T - lc)| ≤ _
    rw [abs_le]; constructor <;> linarith

end
end Verif
