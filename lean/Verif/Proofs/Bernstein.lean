import Mathlib.Analysis.SpecialFunctions.Trigonometric.Deriv
import Mathlib.Analysis.SpecialFunctions.Trigonometric.Bounds
import Mathlib.Analysis.Convex.Deriv
import Mathlib.Algebra.BigOperators.Field
import Mathlib.Algebra.Field.GeomSum
import Mathlib.RingTheory.RootsOfUnity.Complex

/-!
# Bernstein's inequality for trigonometric polynomials

Through M. Riesz's interpolation formula for the derivative.
-/
namespace Verif
open Finset

/-- `Σ_{j ≤ d} a_j cos jθ + b_j sin jθ`. -/
noncomputable def trigPoly (d : ℕ) (a b : ℕ → ℝ) (θ : ℝ) : ℝ :=
  ∑ j ∈ range (d + 1), (a j * Real.cos (j * θ) + b j * Real.sin (j * θ))

theorem trigPoly_hasDerivAt (d : ℕ) (a b : ℕ → ℝ) (θ : ℝ) :
    HasDerivAt (trigPoly d a b) (trigPoly d (fun j => j * b j) (fun j => -(j * a j)) θ) θ := by
  unfold trigPoly
  refine HasDerivAt.fun_sum fun j _ => ?_
  have h1 : HasDerivAt (fun x : ℝ => (j : ℝ) * x) j θ := by simpa using (hasDerivAt_id θ).const_mul (j : ℝ)
  have h2 := (h1.cos.const_mul (a j)).add (h1.sin.const_mul (b j))
  refine HasDerivAt.congr_deriv h2 ?_
  simp only
  ring

/-- The nodes `(2k+1)π/(2d)`. -/
noncomputable def rieszT (d k : ℕ) : ℝ := (2 * k + 1) * Real.pi / (2 * d)

/-- Sum of `e^{iat}` over the nodes. -/
theorem sum_exp_nodes {d : ℕ} (hd : 0 < d) (a : ℤ) (h0 : ¬ (2 * d : ℤ) ∣ a) :
    ∑ k ∈ range (2 * d), Complex.exp ((a * rieszT d k : ℝ) * Complex.I) = 0 := by
  have hdC : (d : ℂ) ≠ 0 := by exact_mod_cast hd.ne'
  have hpi : (Real.pi : ℂ) ≠ 0 := by exact_mod_cast Real.pi_ne_zero
  set q : ℂ := Complex.exp (a * Real.pi / d * Complex.I) with hq
  have hterm : ∀ k : ℕ, Complex.exp ((a * rieszT d k : ℝ) * Complex.I) =
      Complex.exp (a * Real.pi / (2 * d) * Complex.I) * q ^ k := by
    intro k
    rw [hq, ← Complex.exp_nat_mul, ← Complex.exp_add]
    congr 1
    simp only [rieszT]
    push_cast
    field_simp
    ring
  simp only [hterm, ← mul_sum]
  have hq1 : q ≠ 1 := by
    rw [hq, Ne, Complex.exp_eq_one_iff]
    rintro ⟨m, hm⟩
    apply h0
    refine ⟨m, ?_⟩
    have : (a : ℂ) = 2 * d * m := by
      have h2 : (a : ℂ) * Real.pi / d * Complex.I = (2 * m * Real.pi) * Complex.I := by rw [hm]; ring
      have h3 := mul_right_cancel₀ Complex.I_ne_zero h2
      field_simp at h3
      linear_combination h3
    exact_mod_cast this
  have hqd : q ^ (2 * d) = 1 := by
    rw [hq, ← Complex.exp_nat_mul, Complex.exp_eq_one_iff]
    refine ⟨a, ?_⟩
    push_cast
    field_simp
  rw [geom_sum_eq hq1, hqd]
  simp

theorem sum_cos_nodes {d : ℕ} (hd : 0 < d) (a : ℤ) (h0 : ¬ (2 * d : ℤ) ∣ a) :
    ∑ k ∈ range (2 * d), Real.cos (a * rieszT d k) = 0 := by
  have h := congrArg Complex.re (sum_exp_nodes hd a h0)
  simpa only [Complex.re_sum, Complex.exp_ofReal_mul_I_re, Complex.zero_re] using h

theorem sum_sin_nodes {d : ℕ} (hd : 0 < d) (a : ℤ) (h0 : ¬ (2 * d : ℤ) ∣ a) :
    ∑ k ∈ range (2 * d), Real.sin (a * rieszT d k) = 0 := by
  have h := congrArg Complex.im (sum_exp_nodes hd a h0)
  simpa only [Complex.im_sum, Complex.exp_ofReal_mul_I_im, Complex.zero_im] using h

theorem cos_d_node {d : ℕ} (hd : 0 < d) (k : ℕ) : Real.cos (d * rieszT d k) = 0 := by
  have hdR : (d : ℝ) ≠ 0 := by exact_mod_cast hd.ne'
  rw [Real.cos_eq_zero_iff]
  refine ⟨k, ?_⟩
  simp only [rieszT]
  push_cast
  field_simp

theorem sin_d_node_sq {d : ℕ} (hd : 0 < d) (k : ℕ) : Real.sin (d * rieszT d k) ^ 2 = 1 := by
  have := Real.sin_sq_add_cos_sq (d * rieszT d k)
  rw [cos_d_node hd] at this
  linarith

/-- `Σ sin(l t) cos(j t) = 0`. -/
theorem sum_sin_cos {d l j : ℕ} (hd : 0 < d) (hl : l ≤ d) (hj : j ≤ d) :
    ∑ k ∈ range (2 * d), Real.sin (l * rieszT d k) * Real.cos (j * rieszT d k) = 0 := by
  rcases hj.lt_or_eq with hj | rfl
  swap
  · exact sum_eq_zero fun k _ => by rw [cos_d_node hd, mul_zero]
  have hz : ∀ a : ℤ, -(2 * d : ℤ) < a → a < 2 * d → ∑ k ∈ range (2 * d), Real.sin (a * rieszT d k) = 0 := by
    intro a h1 h2
    by_cases h : (2 * d : ℤ) ∣ a
    · have : a = 0 := Int.eq_zero_of_abs_lt_dvd h (abs_lt.2 ⟨h1, h2⟩)
      subst this; simp
    · exact sum_sin_nodes hd a h
  have e : ∀ k, Real.sin (l * rieszT d k) * Real.cos (j * rieszT d k) =
      (Real.sin (((l + j : ℤ) : ℝ) * rieszT d k) + Real.sin (((l - j : ℤ) : ℝ) * rieszT d k)) / 2 := by
    intro k
    push_cast
    rw [add_mul, sub_mul, Real.sin_add, Real.sin_sub]; ring
  simp only [e, ← sum_div, sum_add_distrib]
  rw [hz _ (by omega) (by omega), hz _ (by omega) (by omega)]
  simp

/-- `Σ sin(l t) sin(j t)` for `1 ≤ l, j ≤ d`. -/
theorem sum_sin_sin {d l j : ℕ} (hd : 0 < d) (hl : l ≤ d) (hj : j ≤ d) (hj0 : 0 < j) :
    ∑ k ∈ range (2 * d), Real.sin (l * rieszT d k) * Real.sin (j * rieszT d k) =
      if l = j then (if j = d then 2 * (d : ℝ) else d) else 0 := by
  by_cases hdd : l = j ∧ j = d
  · obtain ⟨rfl, rfl⟩ := hdd
    rw [if_pos rfl, if_pos rfl]
    have : ∀ k ∈ range (2 * l), Real.sin (l * rieszT l k) * Real.sin (l * rieszT l k) = 1 := fun k _ => by
      rw [← sq, sin_d_node_sq hd]
    rw [sum_congr rfl this]; simp
  have e : ∀ k, Real.sin (l * rieszT d k) * Real.sin (j * rieszT d k) =
      (Real.cos (((l - j : ℤ) : ℝ) * rieszT d k) - Real.cos (((l + j : ℤ) : ℝ) * rieszT d k)) / 2 := by
    intro k
    push_cast
    rw [add_mul, sub_mul, Real.cos_add, Real.cos_sub]; ring
  simp only [e, ← sum_div, sum_sub_distrib]
  have hp : ∑ k ∈ range (2 * d), Real.cos (((l + j : ℤ) : ℝ) * rieszT d k) = 0 := by
    refine sum_cos_nodes hd _ fun h => ?_
    have := Int.le_of_dvd (by omega) h
    omega
  rw [hp, sub_zero]
  by_cases hlj : l = j
  · subst hlj
    rw [if_pos rfl, if_neg (fun h => hdd ⟨rfl, h⟩)]
    simp
  · rw [if_neg hlj, sum_cos_nodes hd _ fun h => ?_, zero_div]
    have : (l : ℤ) - j = 0 := Int.eq_zero_of_abs_lt_dvd h (abs_lt.2 ⟨by omega, by omega⟩)
    omega

/-- The weights. -/
noncomputable def rieszW (d k : ℕ) : ℝ :=
  (∑ l ∈ range d, l * Real.sin (l * rieszT d k) + d / 2 * Real.sin (d * rieszT d k)) / d

theorem rieszW_cos {d j : ℕ} (hd : 0 < d) (hj : j ≤ d) :
    ∑ k ∈ range (2 * d), rieszW d k * Real.cos (j * rieszT d k) = 0 := by
  have e : ∀ k, rieszW d k * Real.cos (j * rieszT d k) =
      (∑ l ∈ range d, l * (Real.sin (l * rieszT d k) * Real.cos (j * rieszT d k)) +
        d / 2 * (Real.sin (d * rieszT d k) * Real.cos (j * rieszT d k))) / d := by
    intro k
    simp only [rieszW, div_mul_eq_mul_div, add_mul, sum_mul, mul_assoc]
  simp only [e, ← sum_div, sum_add_distrib, ← mul_sum]
  rw [sum_comm]
  simp only [← mul_sum]
  rw [sum_sin_cos hd le_rfl hj, sum_eq_zero fun l hl => by rw [sum_sin_cos hd (mem_range.1 hl).le hj, mul_zero]]
  simp

theorem rieszW_sin {d j : ℕ} (hd : 0 < d) (hj : j ≤ d) :
    ∑ k ∈ range (2 * d), rieszW d k * Real.sin (j * rieszT d k) = j := by
  have hdR : (d : ℝ) ≠ 0 := by exact_mod_cast hd.ne'
  rcases Nat.eq_zero_or_pos j with rfl | hj0
  · simp
  have e : ∀ k, rieszW d k * Real.sin (j * rieszT d k) =
      (∑ l ∈ range d, l * (Real.sin (l * rieszT d k) * Real.sin (j * rieszT d k)) +
        d / 2 * (Real.sin (d * rieszT d k) * Real.sin (j * rieszT d k))) / d := by
    intro k
    simp only [rieszW, div_mul_eq_mul_div, add_mul, sum_mul, mul_assoc]
  simp only [e, ← sum_div, sum_add_distrib, ← mul_sum]
  rw [sum_comm]
  simp only [← mul_sum]
  rw [sum_sin_sin hd le_rfl hj hj0, sum_congr rfl fun l hl => by rw [sum_sin_sin hd (mem_range.1 hl).le hj hj0]]
  by_cases h : j = d
  · subst h
    rw [sum_eq_zero fun l hl => by rw [if_neg (mem_range.1 hl).ne, mul_zero]]
    simp only [if_true]
    field_simp
    ring
  · have : j ∈ range d := mem_range.2 (by omega)
    simp only [mul_ite, mul_zero, sum_ite_eq', this, if_true, if_neg h, if_neg (Ne.symm h)]
    field_simp
    ring

/-- `2(1 - cos t) Σ_{l<d} l sin(l t) = d sin((d-1)t) - (d-1) sin(d t)`. -/
theorem sum_l_sin (t : ℝ) : ∀ d : ℕ,
    2 * (1 - Real.cos t) * ∑ l ∈ range d, (l : ℝ) * Real.sin (l * t) =
      d * Real.sin ((d - 1) * t) - (d - 1) * Real.sin (d * t)
  | 0 => by simp
  | d + 1 => by
    rw [sum_range_succ, mul_add, sum_l_sin t d]
    push_cast
    rw [show ((d : ℝ) + 1 - 1) * t = d * t by ring, show ((d : ℝ) - 1) * t = d * t - t by ring,
      show ((d : ℝ) + 1) * t = d * t + t by ring, Real.sin_sub, Real.sin_add]
    ring

theorem rieszT_pos {d k : ℕ} (hd : 0 < d) : 0 < rieszT d k := by
  have := Real.pi_pos
  have : (0 : ℝ) < d := by exact_mod_cast hd
  unfold rieszT; positivity

theorem rieszT_lt {d k : ℕ} (hd : 0 < d) (hk : k < 2 * d) : rieszT d k < 2 * Real.pi := by
  have := Real.pi_pos
  have h1 : (0 : ℝ) < d := by exact_mod_cast hd
  have h2 : (k : ℝ) + 1 ≤ 2 * d := by exact_mod_cast hk
  unfold rieszT
  rw [div_lt_iff₀ (by positivity)]
  nlinarith

theorem one_sub_cos_node {d k : ℕ} (hd : 0 < d) (hk : k < 2 * d) : 0 < 1 - Real.cos (rieszT d k) := by
  have h1 : Real.cos (rieszT d k) ≠ 1 := fun h =>
    (rieszT_pos (k := k) hd).ne' ((Real.cos_eq_one_iff_of_lt_of_lt (by linarith [rieszT_pos (k := k) hd, Real.pi_pos])
      (rieszT_lt hd hk)).1 h)
  have h2 := Real.cos_le_one (rieszT d k)
  exact sub_pos.2 (lt_of_le_of_ne h2 h1)

theorem rieszW_abs {d k : ℕ} (hd : 0 < d) (hk : k < 2 * d) : |rieszW d k| = rieszW d k * Real.sin (d * rieszT d k) := by
  have hdR : (0 : ℝ) < d := by exact_mod_cast hd
  have hc := one_sub_cos_node hd hk
  set t := rieszT d k with ht
  have h1 : rieszW d k * (2 * d * (1 - Real.cos t)) = Real.sin (d * t) := by
    have h2 := sum_l_sin t d
    have h3 := cos_d_node hd k
    rw [← ht] at h3
    simp only [rieszW, ← ht]
    rw [show ((d : ℝ) - 1) * t = d * t - t by ring, Real.sin_sub, h3] at h2
    rw [div_mul_eq_mul_div, div_eq_iff hdR.ne']
    linear_combination (d : ℝ) * h2
  have h4 := sin_d_node_sq hd k
  rw [← ht] at h4
  have h5 : rieszW d k = Real.sin (d * t) / (2 * d * (1 - Real.cos t)) := by
    rw [eq_div_iff (by positivity), h1]
  rw [h5, abs_div, abs_of_pos (by positivity : 0 < 2 * d * (1 - Real.cos t)), div_mul_eq_mul_div, ← sq, h4]
  congr 1
  have h6 : |Real.sin (d * t)| ^ 2 = 1 := by rw [sq_abs, h4]
  have h7 := abs_nonneg (Real.sin (d * t))
  nlinarith

theorem sum_rieszW_abs {d : ℕ} (hd : 0 < d) : ∑ k ∈ range (2 * d), |rieszW d k| = d := by
  rw [sum_congr rfl fun k hk => rieszW_abs hd (mem_range.1 hk), rieszW_sin hd le_rfl]

/-- M. Riesz's interpolation formula. -/
theorem riesz_formula {d : ℕ} (hd : 0 < d) (a b : ℕ → ℝ) (θ : ℝ) :
    trigPoly d (fun j => j * b j) (fun j => -(j * a j)) θ =
      ∑ k ∈ range (2 * d), rieszW d k * trigPoly d a b (θ + rieszT d k) := by
  simp only [trigPoly, mul_sum]
  rw [sum_comm]
  refine sum_congr rfl fun j hj => ?_
  have hj' : j ≤ d := Nat.lt_succ_iff.1 (mem_range.1 hj)
  have e : ∀ k, rieszW d k * (a j * Real.cos (j * (θ + rieszT d k)) + b j * Real.sin (j * (θ + rieszT d k))) =
      (a j * Real.cos (j * θ) + b j * Real.sin (j * θ)) * (rieszW d k * Real.cos (j * rieszT d k)) +
      (b j * Real.cos (j * θ) - a j * Real.sin (j * θ)) * (rieszW d k * Real.sin (j * rieszT d k)) := by
    intro k
    rw [mul_add (j : ℝ), Real.cos_add, Real.sin_add]; ring
  simp only [e, sum_add_distrib, ← mul_sum]
  rw [rieszW_cos hd hj', rieszW_sin hd hj']
  ring

/-- Bernstein's inequality. -/
theorem bernstein {d : ℕ} {a b : ℕ → ℝ} {M : ℝ} (hM : ∀ θ, |trigPoly d a b θ| ≤ M) (θ : ℝ) :
    |trigPoly d (fun j => j * b j) (fun j => -(j * a j)) θ| ≤ d * M := by
  rcases Nat.eq_zero_or_pos d with rfl | hd
  · simp [trigPoly]
  rw [riesz_formula hd, ← sum_rieszW_abs hd, sum_mul]
  refine (abs_sum_le_sum_abs _ _).trans (sum_le_sum fun k _ => ?_)
  rw [abs_mul]
  exact mul_le_mul_of_nonneg_left (hM _) (abs_nonneg _)

/-- Bernstein twice, and linear interpolation: between two samples the polynomial stays within
`(d·(v-u))²/8 · M` of the samples. -/
theorem trigPoly_between {d : ℕ} {a b : ℕ → ℝ} {M : ℝ} (hM : ∀ θ, |trigPoly d a b θ| ≤ M) {u v w : ℝ} (hu : u ≤ w)
    (hv : w ≤ v) : trigPoly d a b w ≤ max (trigPoly d a b u) (trigPoly d a b v) + (d * (v - u)) ^ 2 / 8 * M := by
  set f := trigPoly d a b with hf
  set a1 : ℕ → ℝ := fun j => j * b j
  set b1 : ℕ → ℝ := fun j => -(j * a j)
  have hB2 : ∀ θ, |trigPoly d (fun j => j * b1 j) (fun j => -(j * a1 j)) θ| ≤ d * (d * M) := bernstein (bernstein hM)
  have hM0 : 0 ≤ M := (abs_nonneg _).trans (hM 0)
  set B := (d : ℝ) * (d * M) with hB
  have hB0 : 0 ≤ B := by positivity
  let φ : ℝ → ℝ := fun x => f x + B / 2 * x ^ 2
  have d1 : ∀ x, HasDerivAt φ (trigPoly d a1 b1 x + B * x) x := fun x => by
    have h2 : HasDerivAt (fun x : ℝ => B / 2 * x ^ 2) (B * x) x := by
      refine ((hasDerivAt_pow 2 x).const_mul (B / 2)).congr_deriv ?_
      norm_num
      ring
    exact (trigPoly_hasDerivAt d a b x).add h2
  have d2 : ∀ x, HasDerivAt (fun x => trigPoly d a1 b1 x + B * x)
      (trigPoly d (fun j => j * b1 j) (fun j => -(j * a1 j)) x + B) x := fun x => by
    have h2 : HasDerivAt (fun x : ℝ => B * x) B x := by simpa using (hasDerivAt_id x).const_mul B
    exact (trigPoly_hasDerivAt d a1 b1 x).add h2
  have e1 : deriv φ = fun x => trigPoly d a1 b1 x + B * x := funext fun x => (d1 x).deriv
  have hconv : ConvexOn ℝ Set.univ φ := by
    refine convexOn_univ_of_deriv2_nonneg (fun x => (d1 x).differentiableAt)
      (by rw [e1]; exact fun x => (d2 x).differentiableAt) fun x => ?_
    rw [Function.iterate_succ, Function.iterate_one, Function.comp_apply, e1, (d2 x).deriv]
    linarith [(abs_le.1 (hB2 x)).1]
  rcases (hu.trans hv).lt_or_eq with huv | rfl
  swap
  · obtain rfl := le_antisymm hu hv
    simp
  have hp : 0 < v - u := sub_pos.2 huv
  set l := (v - w) / (v - u) with hl
  have hl0 : 0 ≤ l := div_nonneg (by linarith) hp.le
  have hl1 : 0 ≤ 1 - l := by rw [hl, sub_nonneg, div_le_one hp]; linarith
  have hw : l * u + (1 - l) * v = w := by rw [hl]; field_simp; ring
  have key := hconv.2 (Set.mem_univ u) (Set.mem_univ v) hl0 hl1 (by ring)
  simp only [smul_eq_mul, hw, φ] at key
  have h3 : l * u ^ 2 + (1 - l) * v ^ 2 - w ^ 2 = l * (1 - l) * (v - u) ^ 2 := by rw [← hw]; ring
  have h4 : l * (1 - l) ≤ 1 / 4 := by nlinarith [sq_nonneg (l - 1 / 2)]
  have h5 : l * f u + (1 - l) * f v ≤ max (f u) (f v) := by
    have q1 := mul_le_mul_of_nonneg_left (le_max_left (f u) (f v)) hl0
    have q2 := mul_le_mul_of_nonneg_left (le_max_right (f u) (f v)) hl1
    linarith
  have h6 : B / 2 * (l * (1 - l) * (v - u) ^ 2) ≤ B / 2 * (1 / 4 * (v - u) ^ 2) :=
    mul_le_mul_of_nonneg_left (mul_le_mul_of_nonneg_right h4 (sq_nonneg _)) (by positivity)
  have h7 : B / 2 * (1 / 4 * (v - u) ^ 2) = (d * (v - u)) ^ 2 / 8 * M := by rw [hB]; ring
  rw [← h7]
  nlinarith

end Verif
