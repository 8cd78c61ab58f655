import Mathlib.Analysis.SpecialFunctions.Trigonometric.Bounds
import Mathlib.Analysis.Real.Pi.Bounds
import Verif.Model.SphereFloat
import Verif.Props.LowDiscrFloat
import Verif.Props.Sites

/-!
# C148: points on spheres and the sites of the tests, with every operation rounded
-/
namespace Verif
namespace LowDiscr
open FloatSpec

/-- What is assumed of the math library: errors of at most `u` in the sine and the cosine. -/
def TrigErr (u : ℝ) (fsin fcos : ℝ → ℝ) : Prop := ∀ x, |fsin x - Real.sin x| ≤ u ∧ |fcos x - Real.cos x| ≤ u

variable {u τ : ℝ} {fl fsin fcos : ℝ → ℝ}

theorem sq_near {x y u : ℝ} (hu0 : 0 ≤ u) (hu1 : u ≤ 1 / 20) (h : |x - y| ≤ u * |y|) : |x ^ 2 - y ^ 2| ≤ 41 / 20 * u * y ^ 2 := by
  have h1 : |x + y| ≤ (2 + u) * |y| := by
    have := abs_add_le (x - y) (2 * y)
    rw [show x - y + 2 * y = x + y by ring, abs_mul, abs_two] at this
    linarith
  rw [show x ^ 2 - y ^ 2 = (x - y) * (x + y) by ring, abs_mul]
  have h2 := mul_le_mul h h1 (abs_nonneg _) (by positivity)
  refine h2.trans ?_
  rw [← sq_abs y]
  nlinarith [mul_nonneg hu0 (sq_nonneg |y|)]

/-- Sine and cosine of the library are nearly on the circle. -/
theorem trig_norm (ht : TrigErr u fsin fcos) (hu0 : 0 ≤ u) (hu1 : u ≤ 1 / 20) (x : ℝ) : |fsin x ^ 2 + fcos x ^ 2 - 1| ≤ 3 * u := by
  obtain ⟨h1, h2⟩ := ht x
  rw [abs_le] at h1 h2
  have h3 := Real.sin_sq_add_cos_sq x
  set s := Real.sin x
  set c := Real.cos x
  set a := fsin x - s with ha
  set b := fcos x - c with hb
  have e : fsin x ^ 2 + fcos x ^ 2 - 1 = 2 * (a * s + b * c) + (a ^ 2 + b ^ 2) := by rw [ha, hb]; linear_combination h3
  have k1 : a ^ 2 ≤ u ^ 2 := sq_le_sq' (by linarith) h1.2
  have k2 : b ^ 2 ≤ u ^ 2 := sq_le_sq' (by linarith) h2.2
  have k3 : (a * s + b * c) ^ 2 ≤ (1.42 * u) ^ 2 := by
    have : (a * s + b * c) ^ 2 + (a * c - b * s) ^ 2 = a ^ 2 + b ^ 2 := by linear_combination (a ^ 2 + b ^ 2) * h3
    nlinarith [sq_nonneg (a * c - b * s)]
  have k4 := abs_le_of_sq_le_sq k3 (by positivity)
  rw [abs_le] at k4
  have k5 : u ^ 2 ≤ u / 20 := by nlinarith
  rw [e, abs_le]
  constructor <;> nlinarith [sq_nonneg a, sq_nonneg b]

/-- The angle. -/
theorem angle_near (hfl : RelErr u fl) (hu0 : 0 ≤ u) (hu1 : u ≤ 1 / 20) (hτ : |τ - 2 * Real.pi| ≤ u * (2 * Real.pi)) {v : ℝ} (h0 : 0 ≤ v) (h1 : v ≤ 1) :
    |fl (τ * v) - 2 * Real.pi * v| ≤ 13 * u := by
  have hpi := Real.pi_lt_d2
  have hpi0 := Real.pi_pos
  have k1 : |τ * v - 2 * Real.pi * v| ≤ u * (2 * Real.pi) := by
    rw [← sub_mul, abs_mul, abs_of_nonneg h0]
    exact (mul_le_of_le_one_right (abs_nonneg _) h1).trans hτ
  have k2 := hfl (τ * v)
  have k3 : |τ * v| ≤ (1 + u) * (2 * Real.pi) := by
    have := abs_le.1 k1
    have hv : 2 * Real.pi * v ≤ 2 * Real.pi := mul_le_of_le_one_right (by positivity) h1
    have hv0 : 0 ≤ 2 * Real.pi * v := by positivity
    rw [abs_le]; constructor <;> nlinarith
  have k4 := abs_sub_le (fl (τ * v)) (τ * v) (2 * Real.pi * v)
  have k5 := mul_le_mul_of_nonneg_left k3 hu0
  have k6 : u * u ≤ u / 20 := by nlinarith
  have k7 : u * Real.pi ≤ u * 3.15 := mul_le_mul_of_nonneg_left hpi.le hu0
  have k8 : u * u * Real.pi ≤ u / 20 * 3.15 := mul_le_mul k6 hpi.le hpi0.le (by positivity)
  nlinarith

theorem trig_near (ht : TrigErr u fsin fcos) {x y e : ℝ} (h : |x - y| ≤ e) : |fsin x - Real.sin y| ≤ u + e ∧ |fcos x - Real.cos y| ≤ u + e := by
  refine ⟨(abs_sub_le _ (Real.sin x) _).trans (add_le_add (ht x).1 ((Real.abs_sin_sub_sin_le x y).trans h)), (abs_sub_le _ (Real.cos x) _).trans (add_le_add (ht x).2 ?_)⟩
  exact (Real.abs_cos_sub_cos_le x y).trans h

/-- **C148** (circle).  The computed point is within `3u` of the unit circle (in the square of the norm) and within `14u` of the exact point, in each coordinate. -/
theorem C148_circle (hfl : RelErr u fl) (ht : TrigErr u fsin fcos) (hτ : |τ - 2 * Real.pi| ≤ u * (2 * Real.pi)) (hu0 : 0 ≤ u) (hu1 : u ≤ 1 / 20) {v : ℝ} (h0 : 0 ≤ v) (h1 : v ≤ 1) :
    |∑ i, circlePtF fl fsin fcos τ v i ^ 2 - 1| ≤ 3 * u ∧ ∀ i, |circlePtF fl fsin fcos τ v i - circlePt v i| ≤ 14 * u := by
  obtain ⟨k1, k2⟩ := trig_near ht (angle_near hfl hu0 hu1 hτ h0 h1)
  refine ⟨?_, fun i => ?_⟩
  · rw [Fin.sum_univ_two]
    exact trig_norm ht hu0 hu1 _
  · fin_cases i
    · exact k1.trans (by linarith)
    · exact k2.trans (by linarith)

/-- A radius times a point near the circle, rounded. -/
theorem scaled_norm (hfl : RelErr u fl) (hu0 : 0 ≤ u) (hu1 : u ≤ 1 / 20) {a s p q : ℝ} (ha0 : 0 ≤ a) (hs : |s - √a| ≤ u * √a) (hpq : |p ^ 2 + q ^ 2 - 1| ≤ 3 * u) :
    |fl (s * p) ^ 2 + fl (s * q) ^ 2 - a| ≤ 9 * u * a := by
  have k1 := sq_near hu0 hu1 (show |s - √a| ≤ u * |√a| by rwa [abs_of_nonneg (Real.sqrt_nonneg a)])
  rw [Real.sq_sqrt ha0] at k1
  have k2 := sq_near hu0 hu1 (hfl (s * p))
  have k3 := sq_near hu0 hu1 (hfl (s * q))
  rw [mul_pow] at k2 k3
  rw [abs_le] at k1 k2 k3 hpq ⊢
  have hua := mul_nonneg hu0 ha0
  set S := s ^ 2
  have hS0 : 0 ≤ S := sq_nonneg s
  have hS : S ≤ 1.11 * a := by nlinarith
  set N := p ^ 2 + q ^ 2
  have hN : N ≤ 1.15 := by linarith
  have k4 : u * (S * N) ≤ u * (1.11 * a * 1.15) := mul_le_mul_of_nonneg_left (mul_le_mul hS hN (by positivity) (by positivity)) hu0
  have k5 : u * S ≤ u * (1.11 * a) := mul_le_mul_of_nonneg_left hS hu0
  have k6 : |S * (N - 1)| ≤ S * (3 * u) := by rw [abs_mul, abs_of_nonneg hS0]; exact mul_le_mul_of_nonneg_left (abs_le.2 hpq) hS0
  rw [abs_le] at k6
  have e : S * N = S * p ^ 2 + S * q ^ 2 := by ring
  constructor <;> nlinarith

/-- The position of a scaled coordinate. -/
theorem scaled_near (hfl : RelErr u fl) (hu0 : 0 ≤ u) {s s0 p p0 d e : ℝ} (hs0 : 0 ≤ s0) (hs01 : s0 ≤ 1) (hs : |s - s0| ≤ d) (hp : |p - p0| ≤ e) (hs1 : |s| ≤ 1.05) (hp1 : |p| ≤ 1.05) :
    |fl (s * p) - s0 * p0| ≤ 1.2 * u + 1.05 * d + e := by
  have k1 := hfl (s * p)
  have k2 : |s * p| ≤ 1.05 * 1.05 := by rw [abs_mul]; exact mul_le_mul hs1 hp1 (abs_nonneg _) (by norm_num)
  have k3 : |s * p - s0 * p0| ≤ 1.05 * d + e := by
    rw [show s * p - s0 * p0 = (s - s0) * p + s0 * (p - p0) by ring]
    refine (abs_add_le _ _).trans (add_le_add ?_ ?_)
    · rw [abs_mul, mul_comm]; exact mul_le_mul hp1 hs (abs_nonneg _) (by norm_num)
    · rw [abs_mul, abs_of_nonneg hs0]; exact (mul_le_of_le_one_left (abs_nonneg _) hs01).trans hp
  have k4 := abs_sub_le (fl (s * p)) (s * p) (s0 * p0)
  have k5 := mul_le_mul_of_nonneg_left k2 hu0
  linarith

theorem trig_bd (ht : TrigErr u fsin fcos) (hu1 : u ≤ 1 / 20) (x : ℝ) : |fsin x| ≤ 1.05 ∧ |fcos x| ≤ 1.05 := by
  obtain ⟨h1, h2⟩ := ht x
  have h3 := Real.abs_sin_le_one x
  have h4 := Real.abs_cos_le_one x
  have h5 := abs_sub_abs_le_abs_sub (fsin x) (Real.sin x)
  have h6 := abs_sub_abs_le_abs_sub (fcos x) (Real.cos x)
  constructor <;> linarith

theorem sqrt_near {a b e : ℝ} (ha : 0 ≤ a) (hb : 0 ≤ b) (h : |a - b| ≤ e) : |√a - √b| ≤ √e := by
  have he := (abs_nonneg _).trans h
  have key : ∀ {a b : ℝ}, 0 ≤ b → a - b ≤ e → √a - √b ≤ √e := fun {a b} hb h => by
    have h2 : a ≤ (√e + √b) ^ 2 := by
      have h3 := Real.sq_sqrt he
      have h4 := Real.sq_sqrt hb
      have h5 := mul_nonneg (Real.sqrt_nonneg e) (Real.sqrt_nonneg b)
      linarith [add_sq (√e) (√b)]
    have := Real.sqrt_le_sqrt h2
    rw [Real.sqrt_sq (by positivity)] at this
    linarith
  rw [abs_le] at h ⊢
  exact ⟨by linarith [key (a := b) (b := a) ha (by linarith)], key hb h.2⟩

theorem pySqrtF_ok {x : ℝ} (h : 0 ≤ x) : pySqrtF fl x = .ok (fl √x) := by
  simp [pySqrtF, pySqrt, not_lt.2 h]

theorem rounded_unit {p : ℕ} (hR : Rounding p fl) {x : ℝ} (h0 : 0 ≤ x) (h1 : x ≤ 1) : 0 ≤ fl x ∧ fl x ≤ 1 := by
  have e0 : fl 0 = 0 := hR.exact 0 rep_zero
  have e1 : fl 1 = 1 := by simpa using hR.exact _ (rep_pow (α := ℝ) 0)
  exact ⟨e0 ▸ hR.mono h0, e1 ▸ hR.mono h1⟩

/-- **C148** (sphere).  For every generator value in `[0, 1]` no exception is raised; the square of the norm is within `12u` of 1, the height within `3u` of the exact one, and every coordinate within `10√u` of the exact point (the
square root amplifies the rounding near the poles). -/
theorem C148_sphere {p : ℕ} (hR : Rounding p fl) (hfl : RelErr u fl) (ht : TrigErr u fsin fcos) (hτ : |τ - 2 * Real.pi| ≤ u * (2 * Real.pi)) (hu0 : 0 ≤ u) (hu1 : u ≤ 1 / 20) {v w : ℝ} (h0 : 0 ≤ v) (h1 : v ≤ 1)
    (hw0 : 0 ≤ w) (hw1 : w ≤ 1) :
    ∃ P P₀, spherePtF fl fsin fcos τ v w = .ok P ∧ spherePt v w = .ok P₀ ∧ |∑ i, P i ^ 2 - 1| ≤ 12 * u ∧ |P 2 - P₀ 2| ≤ 3 * u ∧ ∀ i, |P i - P₀ i| ≤ 10 * √u := by
  have e0 : fl 0 = 0 := hR.exact 0 rep_zero
  have e1 : fl 1 = 1 := by simpa using hR.exact _ (rep_pow (α := ℝ) 0)
  have e2 : fl 2 = 2 := by simpa using hR.exact _ (rep_pow (α := ℝ) 1)
  have em : fl (-1) = -1 := by have := hR.exact _ (rep_pow (α := ℝ) (p := p) 0).neg; simpa using this
  have a0 : 0 ≤ fl (2 * v) := e0 ▸ hR.mono (by linarith)
  have a1 : fl (2 * v) ≤ 2 := by
    have := hR.mono (show 2 * v ≤ 2 by linarith)
    rwa [e2] at this
  set b := fl (2 * v) with hb
  have b1 : |b - 2 * v| ≤ 2 * u := by
    have := hfl (2 * v)
    rw [abs_of_nonneg (show 0 ≤ 2 * v by linarith)] at this
    exact this.trans (by nlinarith)
  set c := fl (b - 1) with hc
  have c0 : -1 ≤ c := em ▸ hR.mono (by linarith)
  have c1 : c ≤ 1 := by
    have := hR.mono (show b - 1 ≤ 1 by linarith)
    rwa [e1] at this
  have c2 : |c - (b - 1)| ≤ u := (hfl (b - 1)).trans (mul_le_of_le_one_right hu0 (abs_le.2 ⟨by linarith, by linarith⟩))
  have c3 : |c - (2 * v - 1)| ≤ 3 * u := by
    rw [abs_le] at b1 c2 ⊢
    constructor <;> linarith
  have cc0 : 0 ≤ c * c := mul_self_nonneg c
  have cc1 : c * c ≤ 1 := by nlinarith
  obtain ⟨q0, q1⟩ := rounded_unit hR cc0 cc1
  have q2 : |fl (c * c) - c * c| ≤ u := (hfl (c * c)).trans (mul_le_of_le_one_right hu0 (by rwa [abs_of_nonneg cc0]))
  set q := fl (c * c)
  obtain ⟨r0, r1⟩ := rounded_unit hR (x := 1 - q) (by linarith) (by linarith)
  have r2 : |fl (1 - q) - (1 - q)| ≤ u := (hfl (1 - q)).trans (mul_le_of_le_one_right hu0 (by rw [abs_of_nonneg (by linarith)]; linarith))
  set a := fl (1 - q)
  have s1 := hfl √a
  rw [abs_of_nonneg (Real.sqrt_nonneg a)] at s1
  have hsq1 : √a ≤ 1 := Real.sqrt_le_one.2 r1
  have hsq0 := Real.sqrt_nonneg a
  obtain ⟨t0, t1⟩ := rounded_unit hR hsq0 hsq1
  have hA0 : 0 ≤ 1 - (2 * v - 1) * (2 * v - 1) := by nlinarith
  have hA1 : 1 - (2 * v - 1) * (2 * v - 1) ≤ 1 := by nlinarith
  obtain ⟨k1, k2⟩ := trig_near ht (angle_near hfl hu0 hu1 hτ hw0 hw1)
  obtain ⟨k3, k4⟩ := trig_bd ht hu1 (fl (τ * w))
  have hnorm := scaled_norm hfl hu0 hu1 r0 s1 (trig_norm ht hu0 hu1 (fl (τ * w)))
  refine ⟨![fl (fl √a * fsin (fl (τ * w))), fl (fl √a * fcos (fl (τ * w))), c], ![√(1 - (2 * v - 1) * (2 * v - 1)) * Real.sin (2 * Real.pi * w), √(1 - (2 * v - 1) * (2 * v - 1)) * Real.cos (2 * Real.pi * w), 2 * v - 1],
    ?_, ?_, ?_, c3, ?_⟩
  · have : pySqrtF fl (fl (1 - fl (fl (fl (2 * v) - 1) * fl (fl (2 * v) - 1)))) = .ok (fl √a) := pySqrtF_ok r0
    simp only [spherePtF, this]
    rfl
  · simp only [spherePt, pySqrt, if_neg (not_lt.2 hA0)]
    rfl
  · rw [Fin.sum_univ_three]
    change |fl (fl √a * fsin (fl (τ * w))) ^ 2 + fl (fl √a * fcos (fl (τ * w))) ^ 2 + c ^ 2 - 1| ≤ _
    have hua : u * a ≤ u := mul_le_of_le_one_right hu0 r1
    have hcc : c ^ 2 = c * c := sq c
    rw [abs_le] at hnorm q2 r2 ⊢
    constructor <;> linarith
  · have hu2 := Real.sq_sqrt hu0
    have hu3 : √u ≤ 9 / 40 := Real.sqrt_le_iff.2 ⟨by norm_num, by linarith⟩
    have hu4 : u ≤ 9 / 40 * √u := by nlinarith [Real.sqrt_nonneg u]
    have haA : |a - (1 - (2 * v - 1) * (2 * v - 1))| ≤ 8 * u := by
      have h5 : |(c - (2 * v - 1)) * (c + (2 * v - 1))| ≤ 3 * u * 2 := by
        rw [abs_mul]
        exact mul_le_mul c3 (abs_le.2 ⟨by linarith, by linarith⟩) (abs_nonneg _) (by linarith)
      rw [show (c - (2 * v - 1)) * (c + (2 * v - 1)) = c * c - (2 * v - 1) * (2 * v - 1) by ring] at h5
      rw [abs_le] at h5 q2 r2 ⊢
      constructor <;> linarith
    have hsA := sqrt_near r0 hA0 haA
    have h8 : √(8 * u) ≤ 2.83 * √u := by
      rw [Real.sqrt_mul (by norm_num)]
      exact mul_le_mul_of_nonneg_right (Real.sqrt_le_iff.2 ⟨by norm_num, by norm_num⟩) (Real.sqrt_nonneg u)
    have hd : |fl √a - √(1 - (2 * v - 1) * (2 * v - 1))| ≤ u + 2.83 * √u :=
      (abs_sub_le _ √a _).trans (add_le_add (s1.trans (mul_le_of_le_one_right hu0 hsq1)) (hsA.trans h8))
    have hs1 : |fl √a| ≤ 1.05 := by rw [abs_of_nonneg t0]; linarith
    have hA := Real.sqrt_le_one.2 hA1
    intro i
    fin_cases i
    · exact (scaled_near hfl hu0 (Real.sqrt_nonneg _) hA hd k1 hs1 k3).trans (by linarith)
    · exact (scaled_near hfl hu0 (Real.sqrt_nonneg _) hA hd k2 hs1 k4).trans (by linarith)
    · exact c3.trans (by linarith [Real.sqrt_nonneg u])

/-- A rounded square root of a number with a small relative error. -/
theorem sqrt_rel (hfl : RelErr u fl) (hu0 : 0 ≤ u) (hu1 : u ≤ 1 / 20) {a b : ℝ} (ha : 0 ≤ a) (hb : 0 ≤ b) (hb1 : b ≤ 1) (h : |a - b| ≤ u * b) : |fl √a - √b| ≤ 2.1 * u := by
  have h1 : |√a - √b| ≤ u * √b := by
    rcases hb.eq_or_lt with rfl | hb'
    · rw [mul_zero] at h
      rw [sub_zero, abs_le] at h
      rw [le_antisymm (by linarith) ha]; simp
    · have hsb := Real.sqrt_pos.2 hb'
      have e : (√a - √b) * (√a + √b) = a - b := by linear_combination Real.sq_sqrt ha - Real.sq_sqrt hb
      have e' : |√a - √b| * (√a + √b) ≤ u * √b * √b := by
        rw [← abs_of_nonneg (add_nonneg (Real.sqrt_nonneg a) hsb.le), ← abs_mul, e, mul_assoc, Real.mul_self_sqrt hb]
        exact h
      by_contra hc
      push Not at hc
      have := mul_lt_mul_of_pos_right hc hsb
      nlinarith [mul_nonneg (abs_nonneg (√a - √b)) (Real.sqrt_nonneg a)]
  have hb2 := Real.sqrt_le_one.2 hb1
  have h2 : u * √b ≤ u := mul_le_of_le_one_right hu0 hb2
  have h3 := hfl √a
  rw [abs_of_nonneg (Real.sqrt_nonneg a)] at h3
  have h4 : √a ≤ 1.05 := by linarith [(abs_le.1 h1).2]
  have h5 := mul_le_mul_of_nonneg_left h4 hu0
  have h6 := abs_sub_le (fl √a) √a √b
  linarith

/-- **C148** (3-sphere).  For every generator value in `[0, 1]` no exception is raised; the square of the norm is within `12u` of 1 and every coordinate within `50u` of the exact point. -/
theorem C148_sphere3_hopf {p : ℕ} (hR : Rounding p fl) (hfl : RelErr u fl) (ht : TrigErr u fsin fcos) (hτ : |τ - 2 * Real.pi| ≤ u * (2 * Real.pi)) (hu0 : 0 ≤ u) (hu1 : u ≤ 1 / 20) {v0 v1 v2 : ℝ} (h0 : 0 ≤ v0)
    (h0' : v0 ≤ 1) (h1 : 0 ≤ v1) (h1' : v1 ≤ 1) (h2 : 0 ≤ v2) (h2' : v2 ≤ 1) :
    ∃ P P₀, hopfPtF fl fsin fcos τ v0 v1 v2 = .ok P ∧ hopfPt v0 v1 v2 = .ok P₀ ∧ |∑ i, P i ^ 2 - 1| ≤ 12 * u ∧ ∀ i, |P i - P₀ i| ≤ 50 * u := by
  obtain ⟨r0, r1⟩ := rounded_unit hR (x := 1 - v2) (by linarith) (by linarith)
  have r2 := hfl (1 - v2)
  rw [abs_of_nonneg (show 0 ≤ 1 - v2 by linarith)] at r2
  set a := fl (1 - v2)
  have hphi := angle_near hfl hu0 hu1 hτ h0 h0'
  have hpsy := angle_near hfl hu0 hu1 hτ h1 h1'
  rw [mul_comm τ] at hphi hpsy
  set phi := fl (v0 * τ)
  set psy := fl (v1 * τ)
  have hpi := Real.pi_lt_d2
  have hpi0 := Real.pi_pos
  have hsum : |fl (phi + psy) - (v0 * (2 * Real.pi) + v1 * (2 * Real.pi))| ≤ 41 * u := by
    have k1 := hfl (phi + psy)
    have k2 : |phi + psy| ≤ 14 := by
      rw [abs_le] at hphi hpsy ⊢
      have q1 : 2 * Real.pi * v0 ≤ 2 * Real.pi := mul_le_of_le_one_right (by positivity) h0'
      have q2 : 2 * Real.pi * v1 ≤ 2 * Real.pi := mul_le_of_le_one_right (by positivity) h1'
      have q3 : 0 ≤ 2 * Real.pi * v0 := by positivity
      have q4 : 0 ≤ 2 * Real.pi * v1 := by positivity
      constructor <;> linarith
    have k3 := mul_le_mul_of_nonneg_left k2 hu0
    rw [abs_le] at k1 hphi hpsy ⊢
    constructor <;> linarith
  obtain ⟨k1, k2⟩ := trig_near ht hpsy
  obtain ⟨k3, k4⟩ := trig_near ht hsum
  obtain ⟨k5, k6⟩ := trig_bd ht hu1 psy
  obtain ⟨k7, k8⟩ := trig_bd ht hu1 (fl (phi + psy))
  rw [mul_comm (2 * Real.pi)] at k1 k2
  have s1 := hfl √v2
  rw [abs_of_nonneg (Real.sqrt_nonneg _)] at s1
  have s2 := hfl √a
  rw [abs_of_nonneg (Real.sqrt_nonneg _)] at s2
  have t1 := trig_norm ht hu0 hu1 psy
  have t2 := trig_norm ht hu0 hu1 (fl (phi + psy))
  rw [add_comm (fsin _ ^ 2)] at t1 t2
  have n1 := scaled_norm hfl hu0 hu1 h2 s1 t1
  have n2 := scaled_norm hfl hu0 hu1 r0 s2 t2
  have c1 := sqrt_rel hfl hu0 hu1 h2 h2 h2' (show |v2 - v2| ≤ u * v2 by rw [sub_self, abs_zero]; positivity)
  have c2 := sqrt_rel hfl hu0 hu1 r0 (show 0 ≤ 1 - v2 by linarith) (by linarith) r2
  obtain ⟨b1, b2⟩ := rounded_unit hR (Real.sqrt_nonneg _) (Real.sqrt_le_one.2 h2')
  obtain ⟨b3, b4⟩ := rounded_unit hR (Real.sqrt_nonneg _) (Real.sqrt_le_one.2 r1)
  have hc1 : |fl √v2| ≤ 1.05 := by rw [abs_of_nonneg b1]; linarith
  have hc2 : |fl √a| ≤ 1.05 := by rw [abs_of_nonneg b3]; linarith
  have g1 := Real.sqrt_le_one.2 h2'
  have g2 := Real.sqrt_le_one.2 (show 1 - v2 ≤ 1 by linarith)
  refine ⟨![fl (fl √v2 * fcos psy), fl (fl √v2 * fsin psy), fl (fl √a * fcos (fl (phi + psy))), fl (fl √a * fsin (fl (phi + psy)))],
    ![√v2 * Real.cos (v1 * (2 * Real.pi)), √v2 * Real.sin (v1 * (2 * Real.pi)), √(1 - v2) * Real.cos (v0 * (2 * Real.pi) + v1 * (2 * Real.pi)), √(1 - v2) * Real.sin (v0 * (2 * Real.pi) + v1 * (2 * Real.pi))],
    ?_, ?_, ?_, ?_⟩
  · simp only [hopfPtF, pySqrtF_ok h2]
    rw [pySqrtF_ok r0]
  · have h3 : ¬ 1 - v2 < 0 := by linarith
    simp only [hopfPt, pySqrt, if_neg (not_lt.2 h2), if_neg h3]
  · rw [Fin.sum_univ_four]
    change |fl (fl √v2 * fcos psy) ^ 2 + fl (fl √v2 * fsin psy) ^ 2 + fl (fl √a * fcos (fl (phi + psy))) ^ 2 + fl (fl √a * fsin (fl (phi + psy))) ^ 2 - 1| ≤ _
    have hr3 : u * (1 - v2) ≤ u * 1 := mul_le_mul_of_nonneg_left (by linarith) hu0
    have hr4 : u * a ≤ u * ((1 - v2) + u) := mul_le_mul_of_nonneg_left (by linarith [(abs_le.1 r2).2]) hu0
    have hr5 : u * u ≤ u * (1 / 20) := mul_le_mul_of_nonneg_left hu1 hu0
    rw [abs_le] at n1 n2 r2 ⊢
    constructor <;> linarith
  · intro i
    fin_cases i
    · exact (scaled_near hfl hu0 (Real.sqrt_nonneg _) g1 c1 k2 hc1 k6).trans (by linarith)
    · exact (scaled_near hfl hu0 (Real.sqrt_nonneg _) g1 c1 k1 hc1 k5).trans (by linarith)
    · exact (scaled_near hfl hu0 (Real.sqrt_nonneg _) g2 c2 k4 hc2 k8).trans (by linarith)
    · exact (scaled_near hfl hu0 (Real.sqrt_nonneg _) g2 c2 k3 hc2 k7).trans (by linarith)

end LowDiscr

/-! ### Sites -/
open LowDiscr FloatSpec
variable {p : ℕ} {fl : ℚ → ℚ}

/-- The two values of the `q`-th call (counting from 0) of `halton([2, 3])`. -/
theorem haltonCallsF_spec : ∀ (k : ℕ) (c : ℕ) (pts : List (List ℚ)), HaltonCallsF fl ⟨[⟨2, c⟩, ⟨3, c⟩]⟩ k pts → pts.length = k ∧
    ∀ q (hq : q < pts.length), ∃ a b, pts[q] = [a, b] ∧ VdcFReturns fl ((c + 1 + q : ℕ) : ℤ) 2 a ∧ VdcFReturns fl ((c + 1 + q : ℕ) : ℤ) 3 b := by
  intro k
  induction k with
  | zero => intro c pts h; cases h; simp
  | succ k ih =>
    intro c pts h
    cases h with
    | cons hv hr =>
      rename_i v vs
      have hg : Halton.next ⟨[⟨2, c⟩, ⟨3, c⟩]⟩ = ⟨[⟨2, ((c + 1 : ℕ) : ℤ)⟩, ⟨3, ((c + 1 : ℕ) : ℤ)⟩]⟩ := by
        simp [Halton.next, Vdcorput.next]
      rw [hg] at hr
      obtain ⟨h1, h2⟩ := ih _ _ hr
      refine ⟨by simp [h1], fun q hq => ?_⟩
      rcases q with _ | q
      · unfold Halton.YieldsF at hv
        rcases hv with _ | ⟨ha, hv⟩
        rcases hv with _ | ⟨hb, hv⟩
        cases hv
        exact ⟨_, _, rfl, by simpa using ha, by simpa using hb⟩
      · obtain ⟨a, b, e, ha, hb⟩ := h2 q (by simpa using hq)
        refine ⟨a, b, by simpa using e, ?_, ?_⟩
        · convert ha using 2; omega
        · convert hb using 2; omega

theorem haltonCallsF_exists {N : ℕ} (hall : ∀ k, k < N → ∀ b ∈ [2, 3], ∃ v, VdcFReturns fl ((k + 1 : ℕ) : ℤ) b v) : ∀ (k : ℕ) (c : ℕ), c + k ≤ N → ∃ pts, HaltonCallsF fl ⟨[⟨2, c⟩, ⟨3, c⟩]⟩ k pts := by
  intro k
  induction k with
  | zero => exact fun c _ => ⟨[], .nil _⟩
  | succ k ih =>
    intro c hc
    obtain ⟨a, ha⟩ := hall c (by omega) 2 (by simp)
    obtain ⟨b, hb⟩ := hall c (by omega) 3 (by simp)
    obtain ⟨pts, h⟩ := ih (c + 1) (by omega)
    refine ⟨[a, b] :: pts, .cons ?_ ?_⟩
    · exact .cons (by simpa using ha) (.cons (by simpa using hb) .nil)
    · have hg : Halton.next ⟨[⟨2, c⟩, ⟨3, c⟩]⟩ = ⟨[⟨2, ((c + 1 : ℕ) : ℤ)⟩, ⟨3, ((c + 1 : ℕ) : ℤ)⟩]⟩ := by
        simp [Halton.next, Vdcorput.next]
      rw [hg]; exact h

/-- **C148** (sites).  Let `nx·ny` sites be asked for, fewer than `2^L` and `3^M`, and let the precision satisfy `L + 2 ≤ p` and `(M + 3)·3^M ≤ 2^p`.  The rounded `create_2d_sites` has exactly one outcome: `nx·ny` pairwise different sites,
all in `[0, 10) × [0, 8)`, each within `10/2^p` and `8(M + 3)/2^p` of the exact site. -/
theorem C148_sites (hfl : Nearest p fl) {nx ny : ℤ} {L M : ℕ} (hn : 0 < nx * ny) (hL : nx * ny < 2 ^ L) (hM : nx * ny < 3 ^ M) (hLp : L + 2 ≤ p) (hMp : (M + 3) * 3 ^ M ≤ 2 ^ p) :
    ∃ s, (∀ r, Create2dSitesF fl nx ny r ↔ r = .ok s) ∧ (s.length : ℤ) = nx * ny ∧ s.Nodup ∧ (∀ z ∈ s, (0 ≤ z 0 ∧ z 0 < 10) ∧ 0 ≤ z 1 ∧ z 1 < 8) ∧
      ∃ s₀, Create2dSites nx ny (.ok s₀) ∧ s₀.length = s.length ∧ ∀ q (h : q < s.length) (h₀ : q < s₀.length),
        |((s[q] 0 : ℚ) : ℝ) - s₀[q] 0| ≤ 10 / 2 ^ p ∧ |((s[q] 1 : ℚ) : ℝ) - s₀[q] 1| ≤ 8 * (M + 3) / 2 ^ p := by
  set N := (nx * ny).toNat with hN
  have hNz : (N : ℤ) = nx * ny := Int.toNat_of_nonneg hn.le
  have hN2 : N < 2 ^ L := by rw [← hNz] at hL; exact_mod_cast hL
  have hN3 : N < 3 ^ M := by rw [← hNz] at hM; exact_mod_cast hM
  have h2p : 2 ^ L * 4 ≤ 2 ^ p := by
    have := Nat.pow_le_pow_right (show 0 < 2 by norm_num) hLp
    rwa [pow_add] at this
  have hP : (0 : ℚ) < 2 ^ p := by positivity
  have hP1 : (1 : ℚ) ≤ 2 ^ p := one_le_pow₀ (by norm_num)
  have hLq : (0 : ℚ) < 2 ^ L := by positivity
  have h2q : (2 : ℚ) ^ L * 4 ≤ 2 ^ p := by exact_mod_cast h2p
  have h3q : ((M : ℚ) + 3) * 3 ^ M ≤ 2 ^ p := by exact_mod_cast hMp
  have h31 : (M + 1) * 3 ^ M ≤ 2 ^ p := (Nat.mul_le_mul_right _ (by omega)).trans hMp
  -- base 2
  have two : ∀ k, k ≤ N → ∀ a, VdcFReturns fl (k : ℕ) 2 a ↔ a = radInv 2 L k := fun k hk a => by
    rw [C120_base_two (by omega) hfl.rounding (by omega), C79_vdc (L := L) le_rfl (by omega)]
  have twoR : ∀ k, 0 ≤ radInv 2 L k ∧ radInv 2 L k ≤ 1 - 1 / 2 ^ L := fun k => ⟨(radInv_range (by norm_num) L k).1, by simpa using radInv_le (b := 2) (by norm_num) L k⟩
  have twoE : ∀ k, |fl (10 * radInv 2 L k) - 10 * radInv 2 L k| ≤ 10 / 2 ^ p := fun k => by
    refine (hfl.err _).trans (div_le_div_of_nonneg_right ?_ hP.le)
    have := twoR k
    have h1 : (0 : ℚ) < 1 / 2 ^ L := by positivity
    rw [abs_of_nonneg (by linarith)]; linarith
  -- base 3
  have three : ∀ k, k ≤ N → ∃ v, (∀ v', VdcFReturns fl (k : ℕ) 3 v' ↔ v' = v) ∧ 0 ≤ v ∧ v < 1 ∧ |v - radInv 3 M k| < (M + 1) / 2 ^ p := fun k hk =>
    C120_vdc hfl (by norm_num) (by omega) h31
  have hinit : ∀ g, Halton.init 2 [2, 3] = .ok g → g = ⟨[⟨2, ((0 : ℕ) : ℤ)⟩, ⟨3, ((0 : ℕ) : ℤ)⟩]⟩ := by
    intro g hg
    simpa [Halton.init, Vdcorput.init] using hg.symm
  have hg : Halton.init 2 [2, 3] = .ok ⟨[⟨2, ((0 : ℕ) : ℤ)⟩, ⟨3, ((0 : ℕ) : ℤ)⟩]⟩ := by
    simp [Halton.init, Vdcorput.init]
  obtain ⟨pts, hp⟩ := haltonCallsF_exists (fl := fl) (N := N) (fun k hk b hb => by
    simp only [List.mem_cons, List.not_mem_nil, or_false] at hb
    rcases hb with rfl | rfl
    · exact ⟨_, (two (k + 1) (by omega) _).2 rfl⟩
    · obtain ⟨v, hv, -⟩ := three (k + 1) (by omega)
      exact ⟨v, (hv v).2 rfl⟩) N 0 (by omega)
  obtain ⟨hl, hs⟩ := haltonCallsF_spec _ _ _ hp
  -- what is known of one site
  have site : ∀ q (hq : q < pts.length), ∃ b, pts[q] = [radInv 2 L (q + 1), b] ∧ 0 ≤ b ∧ b < 1 ∧ |b - radInv 3 M (q + 1)| < (M + 1) / 2 ^ p := fun q hq => by
    obtain ⟨a, b, e, ha, hb⟩ := hs q hq
    rw [show 0 + 1 + q = q + 1 by omega] at ha hb
    rw [(two (q + 1) (by omega) a).1 ha] at e
    obtain ⟨v, hv, v0, v1, v2⟩ := three (q + 1) (by omega)
    rw [(hv b).1 hb] at e
    exact ⟨v, e, v0, v1, v2⟩
  have e8 : ∀ b : ℚ, 0 ≤ b → b < 1 → |fl (8 * b) - 8 * b| ≤ 8 / 2 ^ p := fun b h0 h1 => by
    refine (hfl.err _).trans (div_le_div_of_nonneg_right ?_ hP.le)
    rw [abs_of_nonneg (by linarith)]; linarith
  have f0 : fl 0 = 0 := hfl.rounding.exact 0 rep_zero
  have fpos : ∀ x, 0 ≤ x → 0 ≤ fl x := fun x hx => f0 ▸ hfl.rounding.mono hx
  refine ⟨pts.map (scaleSiteF fl), fun r => ⟨fun hr => ?_, fun h => h ▸ .ok hn hg hp⟩, by rw [List.length_map, hl, hNz], ?_, ?_, ?_⟩
  · cases hr with
    | empty h' => exact absurd hn (not_lt.2 h')
    | @ok g' pts' _ hg' hp' =>
      rw [hinit _ hg'] at hp'
      obtain ⟨hl', hs'⟩ := haltonCallsF_spec _ _ _ hp'
      have : pts' = pts := by
        refine List.ext_getElem (by rw [hl, hl']) fun q h1 h2 => ?_
        obtain ⟨a, b, e, ha, hb⟩ := hs q h2
        obtain ⟨a', b', e', ha', hb'⟩ := hs' q h1
        rw [e, e', vdcFReturns_unique ha ha', vdcFReturns_unique hb hb']
      rw [this]
  · rw [List.nodup_iff_injective_getElem]
    rintro ⟨q, hq⟩ ⟨q', hq'⟩ he
    simp only [List.length_map] at hq hq'
    obtain ⟨b, e, -⟩ := site q hq
    obtain ⟨b', e', -⟩ := site q' hq'
    simp only [List.getElem_map, e, e'] at he
    have h1 : fl (10 * radInv 2 L (q + 1)) = fl (10 * radInv 2 L (q' + 1)) := congrFun he 0
    have k1 := twoE (q + 1)
    have k2 := twoE (q' + 1)
    rw [h1] at k1
    have k3 : |radInv 2 L (q + 1) - radInv 2 L (q' + 1)| ≤ 2 / 2 ^ p := by
      have e20 : (2 : ℚ) / 2 ^ p = 10 / 2 ^ p / 5 := by ring
      rw [abs_le] at k1 k2 ⊢
      rw [e20]
      constructor <;> linarith
    have k4 : (2 : ℚ) / 2 ^ p < 1 / 2 ^ L := by rw [div_lt_div_iff₀ hP hLq]; linarith
    have k5 : rev 2 L (q + 1) = rev 2 L (q' + 1) := by
      have k6 := k3.trans_lt k4
      rw [radInv_eq_rev (by norm_num), radInv_eq_rev (by norm_num), ← sub_div, abs_div, Nat.cast_ofNat, abs_of_pos hLq, div_lt_div_iff_of_pos_right hLq] at k6
      have k7 : |((rev 2 L (q + 1) : ℕ) : ℤ) - ((rev 2 L (q' + 1) : ℕ) : ℤ)| < 1 := by exact_mod_cast k6
      have := Int.abs_lt_one_iff.1 k7
      omega
    have k8 : radInv 2 L (q + 1) = radInv 2 L (q' + 1) := by rw [radInv_eq_rev (by norm_num), radInv_eq_rev (by norm_num), k5]
    have ha := (C79_vdc (b := 2) (k := q + 1) (L := L) le_rfl (by omega) _).2 rfl
    have ha' := (C79_vdc (b := 2) (k := q' + 1) (L := L) le_rfl (by omega) _).2 k8
    have := C79_vdc_injective le_rfl ha ha'
    simp only [Fin.mk.injEq]; omega
  · intro z hz
    obtain ⟨v, hv, rfl⟩ := List.mem_map.1 hz
    obtain ⟨q, hq, rfl⟩ := List.getElem_of_mem hv
    obtain ⟨b, e, b0, b1, b2⟩ := site q hq
    rw [e]
    change (0 ≤ fl (10 * radInv 2 L (q + 1)) ∧ fl (10 * radInv 2 L (q + 1)) < 10) ∧ 0 ≤ fl (8 * b) ∧ fl (8 * b) < 8
    obtain ⟨a0, a1⟩ := twoR (q + 1)
    have ae := (abs_le.1 (twoE (q + 1))).2
    have be := (abs_le.1 (e8 b b0 b1)).2
    have br := radInv_le (b := 3) (by norm_num) M (q + 1)
    have b3 := (abs_lt.1 b2).2
    have c1 : (10 : ℚ) / 2 ^ p < 10 * (1 / 2 ^ L) := by rw [mul_one_div, div_lt_div_iff₀ hP hLq]; linarith
    have c2 : ((M : ℚ) + 3) / 2 ^ p ≤ 1 / ((3 : ℕ) : ℚ) ^ M := by rw [div_le_div_iff₀ hP (by positivity), one_mul]; exact_mod_cast hMp
    have c3 : ((M : ℚ) + 3) / 2 ^ p = (M + 1) / 2 ^ p + 2 / 2 ^ p := by ring
    have c4 : (8 : ℚ) / 2 ^ p = 8 * (1 / 2 ^ p) := by ring
    have c5 : (2 : ℚ) / 2 ^ p = 2 * (1 / 2 ^ p) := by ring
    have c6 : (0 : ℚ) < 1 / 2 ^ p := by positivity
    exact ⟨⟨fpos _ (by linarith), by linarith⟩, fpos _ (by linarith), by linarith⟩
  · obtain ⟨pts₀, hp₀⟩ := haltonCalls_exists N 0
    obtain ⟨hl₀, hs₀⟩ := haltonCalls_spec _ _ _ hp₀
    refine ⟨pts₀.map scaleSite, .ok hn hg hp₀, by simp [hl, hl₀], fun q h h₀ => ?_⟩
    rw [List.length_map] at h h₀
    obtain ⟨b, e, b0, b1, b2⟩ := site q h
    obtain ⟨a', b', e', ha', hb'⟩ := hs₀ q h₀
    rw [show 0 + 1 + q = q + 1 by omega] at ha' hb'
    rw [(C79_vdc le_rfl (show q + 1 < 2 ^ L by omega) _).1 ha', (C79_vdc (by norm_num) (show q + 1 < 3 ^ M by omega) _).1 hb'] at e'
    simp only [List.getElem_map, e, e']
    change |((fl (10 * radInv 2 L (q + 1)) : ℚ) : ℝ) - 10 * ((radInv 2 L (q + 1) : ℚ) : ℝ)| ≤ _ ∧ |((fl (8 * b) : ℚ) : ℝ) - 8 * ((radInv 3 M (q + 1) : ℚ) : ℝ)| ≤ _
    have k1 := twoE (q + 1)
    have k2 : |fl (8 * b) - 8 * radInv 3 M (q + 1)| ≤ 8 * (M + 3) / 2 ^ p := by
      have k3 := e8 b b0 b1
      have c3 : 8 * ((M : ℚ) + 3) / 2 ^ p = 8 * ((M + 1) / 2 ^ p) + 2 * (8 / 2 ^ p) := by ring
      have c6 : (0 : ℚ) < 8 / 2 ^ p := by positivity
      rw [abs_lt] at b2
      rw [c3]
      rw [abs_le] at k3 ⊢
      constructor <;> linarith
    have k1' : ((|fl (10 * radInv 2 L (q + 1)) - 10 * radInv 2 L (q + 1)| : ℚ) : ℝ) ≤ ((10 / 2 ^ p : ℚ) : ℝ) := Rat.cast_le.2 k1
    have k2' : ((|fl (8 * b) - 8 * radInv 3 M (q + 1)| : ℚ) : ℝ) ≤ ((8 * (M + 3) / 2 ^ p : ℚ) : ℝ) := Rat.cast_le.2 k2
    push_cast at k1' k2'
    exact ⟨k1', k2'⟩

/-! ### Non-vacuity -/

/-- The 80 sites of the tests in double precision. -/
example : ∃ s, (∀ r, Create2dSitesF (ieee 53) 10 8 r ↔ r = .ok s) ∧ s.length = 80 ∧ s.Nodup := by
  obtain ⟨s, h1, h2, h3, -⟩ := C148_sites (ieee_nearest (p := 53) (by norm_num)) (nx := 10) (ny := 8) (L := 7) (M := 4) (by norm_num) (by norm_num) (by norm_num) (by norm_num) (by norm_num)
  exact ⟨s, h1, by omega, h3⟩

/-- `sphere` and `sphere3_hopf` in double precision, with the exact sine and cosine rounded: the square of the norm is within `1e-14` of 1. -/
example : ∃ P Q, spherePtF (ieee 53) (fun x => ieee 53 (Real.sin x)) (fun x => ieee 53 (Real.cos x)) (ieee 53 (2 * Real.pi)) (1 / 4) (1 / 3) = .ok P ∧
    hopfPtF (ieee 53) (fun x => ieee 53 (Real.sin x)) (fun x => ieee 53 (Real.cos x)) (ieee 53 (2 * Real.pi)) (1 / 2) (1 / 3) (1 / 5) = .ok Q ∧ |∑ i, P i ^ 2 - 1| ≤ 1e-14 ∧ |∑ i, Q i ^ 2 - 1| ≤ 1e-14 := by
  have hfl : Nearest 53 (ieee 53 : ℝ → ℝ) := ieee_nearest (by norm_num)
  have hr := hfl.relErr
  have ht : TrigErr (1 / 2 ^ 53) (fun x => ieee 53 (Real.sin x)) (fun x => ieee 53 (Real.cos x)) := fun x =>
    ⟨(hr _).trans (mul_le_of_le_one_right (by positivity) (Real.abs_sin_le_one x)), (hr _).trans (mul_le_of_le_one_right (by positivity) (Real.abs_cos_le_one x))⟩
  have hτ := hr (2 * Real.pi)
  rw [abs_of_pos (show 0 < 2 * Real.pi by positivity)] at hτ
  obtain ⟨P, -, h1, -, h2, -⟩ := C148_sphere hfl.rounding hr ht hτ (by positivity) (by norm_num) (v := 1 / 4) (w := 1 / 3) (by norm_num) (by norm_num) (by norm_num) (by norm_num)
  obtain ⟨Q, -, h3, -, h4, -⟩ := C148_sphere3_hopf hfl.rounding hr ht hτ (by positivity) (by norm_num) (v0 := 1 / 2) (v1 := 1 / 3) (v2 := 1 / 5) (by norm_num) (by norm_num) (by norm_num) (by norm_num) (by norm_num) (by norm_num)
  exact ⟨P, Q, h1, h3, h2.trans (by norm_num), h4.trans (by norm_num)⟩

end Verif
