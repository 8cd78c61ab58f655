import Verif.Model.EllFloat
import Verif.Proofs.EllUpdate
import Verif.Spec.RelErr

/-! # Rounding errors of one ellipsoid update -/
namespace Verif
open Matrix

/-- `x'` approximates `x` up to the relative error `a`. -/
def Rel (a x' x : ℝ) : Prop := |x' - x| ≤ a * |x|

namespace Rel
variable {a b u x' x y' y : ℝ} {fl : ℝ → ℝ}

theorem mono (h : Rel a x' x) (hab : a ≤ b) : Rel b x' x := h.trans (mul_le_mul_of_nonneg_right hab (abs_nonneg _))

theorem refl (ha : 0 ≤ a) : Rel a x x := by unfold Rel; simp; positivity

theorem abs_le' (h : Rel a x' x) : |x'| ≤ (1 + a) * |x| := by
  have := abs_sub_abs_le_abs_sub x' x
  unfold Rel at h; linarith

theorem le_abs (h : Rel a x' x) : (1 - a) * |x| ≤ |x'| := by
  have := abs_sub_abs_le_abs_sub x x'
  rw [abs_sub_comm] at this
  unfold Rel at h; linarith

theorem lower (h : Rel a x' x) (hx : 0 ≤ x) : (1 - a) * x ≤ x' := by
  unfold Rel at h; rw [abs_of_nonneg hx, abs_le] at h; linarith [h.1]

theorem upper (h : Rel a x' x) (hx : 0 ≤ x) : x' ≤ (1 + a) * x := by
  unfold Rel at h; rw [abs_of_nonneg hx, abs_le] at h; linarith [h.2]

theorem pos (h : Rel a x' x) (hx : 0 < x) (ha : a < 1) : 0 < x' :=
  lt_of_lt_of_le (mul_pos (by linarith) hx) (h.lower hx.le)

theorem round (hfl : RelErr u fl) (hu : 0 ≤ u) (h : Rel a x' x) (ha : a ≤ 1) : Rel (a + 2 * u) (fl x') x := by
  have h1 := hfl x'
  have h2 := mul_le_mul_of_nonneg_left h.abs_le' hu
  have h3 := abs_add_le (fl x' - x') (x' - x)
  have h4 : u * (a * |x|) ≤ u * (1 * |x|) := mul_le_mul_of_nonneg_left (mul_le_mul_of_nonneg_right ha (abs_nonneg _)) hu
  unfold Rel at *
  rw [sub_add_sub_cancel] at h3
  linarith

theorem of_fl (hfl : RelErr u fl) (x : ℝ) : Rel u (fl x) x := hfl x

theorem mul (h : Rel a x' x) (h' : Rel b y' y) (ha : 0 ≤ a) (hb : b ≤ 1 / 10) : Rel (11 / 10 * a + b) (x' * y') (x * y) := by
  have h1 : x' * y' - x * y = (x' - x) * y' + x * (y' - y) := by ring
  have h2 := mul_le_mul h h'.abs_le' (abs_nonneg _) (by positivity)
  have h3 := mul_le_mul_of_nonneg_left h' (abs_nonneg x)
  have h4 : a * |x| * ((1 + b) * |y|) ≤ a * |x| * (11 / 10 * |y|) :=
    mul_le_mul_of_nonneg_left (mul_le_mul_of_nonneg_right (by linarith) (abs_nonneg _)) (by positivity)
  unfold Rel
  rw [h1, abs_mul x y]
  refine (abs_add_le _ _).trans ?_
  rw [abs_mul, abs_mul]
  linarith

theorem mul_left (c : ℝ) (h : Rel a x' x) : Rel a (c * x') (c * x) := by
  unfold Rel at *
  rw [← mul_sub, abs_mul, abs_mul]
  have := mul_le_mul_of_nonneg_left h (abs_nonneg c)
  linarith

theorem div (h : Rel a x' x) (h' : Rel b y' y) (ha : 0 ≤ a) (hb0 : 0 ≤ b) (hb : b ≤ 1 / 10) (hy : y ≠ 0) :
    Rel (10 / 9 * (a + b)) (x' / y') (x / y) := by
  have hy0 : 0 < |y| := abs_pos.2 hy
  have h0 : 9 / 10 * |y| ≤ |y'| := (mul_le_mul_of_nonneg_right (by linarith) hy0.le).trans h'.le_abs
  have hy' : y' ≠ 0 := by
    intro h; rw [h, abs_zero] at h0; linarith
  have h1 : x' / y' - x / y = ((x' - x) * y - x * (y' - y)) / (y' * y) := by field_simp; ring
  unfold Rel
  rw [h1, abs_div, abs_mul, abs_div, div_le_iff₀ (by positivity)]
  have h2 : |(x' - x) * y - x * (y' - y)| ≤ (a + b) * (|x| * |y|) := by
    refine (abs_sub _ _).trans ?_
    rw [abs_mul, abs_mul]
    have e1 := mul_le_mul_of_nonneg_right h hy0.le
    have e2 := mul_le_mul_of_nonneg_left h' (abs_nonneg x)
    linarith
  refine h2.trans ?_
  have h3 : 10 / 9 * (a + b) * (|x| / |y|) * (|y'| * |y|) = (a + b) * |x| * (10 / 9 * |y'|) := by field_simp
  rw [h3, ← mul_assoc]
  exact mul_le_mul_of_nonneg_left (by linarith) (by positivity)

theorem add (h : Rel a x' x) (h' : Rel a y' y) (hx : 0 ≤ x) (hy : 0 ≤ y) : Rel a (x' + y') (x + y) := by
  unfold Rel at *
  have h1 : x' + y' - (x + y) = (x' - x) + (y' - y) := by ring
  rw [abs_of_nonneg hx] at h
  rw [abs_of_nonneg hy] at h'
  rw [h1, abs_of_nonneg (add_nonneg hx hy)]
  exact (abs_add_le _ _).trans (by linarith)

theorem sqrt (h : Rel a x' x) (hx : 0 < x) (ha : a < 1) : Rel a (√x') (√x) := by
  have hx' := h.pos hx ha
  have hs : 0 < √x := Real.sqrt_pos.2 hx
  unfold Rel at *
  rw [abs_of_pos hs]
  have h1 : (√x' - √x) * (√x' + √x) = x' - x := by
    have := Real.sq_sqrt hx.le; have := Real.sq_sqrt hx'.le; ring_nf; linarith
  have h2 : |√x' - √x| * √x ≤ |√x' - √x| * |√x' + √x| := by
    refine mul_le_mul_of_nonneg_left ?_ (abs_nonneg _)
    rw [abs_of_pos (by positivity)]
    linarith [Real.sqrt_nonneg x']
  rw [← abs_mul, h1] at h2
  rw [abs_of_pos hx] at h
  have h3 : a * x = a * √x * √x := by rw [mul_assoc, Real.mul_self_sqrt hx.le]
  exact le_of_mul_le_mul_right (by linarith) hs

end Rel

/-! ### One entry of the matrix, one entry of the centre -/

section scalar
variable {u t : ℝ} {fl : ℝ → ℝ}

theorem entry_err (hfl : RelErr u fl) (hu0 : 0 ≤ u) (hu : u ≤ t) (ht : t ≤ 1 / 1000) {d e w P R P' R' q σ s' : ℝ}
    (hd : 0 ≤ d) (he : 0 ≤ e) (hw : 0 < w) (hP : |P| ≤ d * w) (hR : |R| ≤ e * w) (hP' : |P' - P| ≤ t * (d * w))
    (hR' : |R' - R| ≤ t * (e * w)) (hq : |q| ≤ d * e) (hσ0 : 0 ≤ σ) (hσ : σ ≤ 1) (hs : Rel (32 * t) s' (σ / w ^ 2)) :
    |fl (q - fl (s' * fl (P' * R'))) - (q - σ / w ^ 2 * (P * R))| ≤ 40 * t * (d * e) := by
  have ht0 : 0 ≤ t := hu0.trans hu
  set M := d * e * w ^ 2 with hM
  have hM0 : 0 ≤ M := by positivity
  set m := d * e with hm
  have hm0 : 0 ≤ m := by positivity
  have tt : t * t ≤ 1 / 1000 * t := mul_le_mul_of_nonneg_right ht ht0
  have ut : u * t ≤ 1 / 1000 * t := by nlinarith
  -- the product
  have hR1 : |R'| ≤ (1 + t) * (e * w) := by
    have := abs_sub_abs_le_abs_sub R' R; linarith
  have h1 : |P' * R' - P * R| ≤ (21 / 10 * t) * M := by
    have e1 : P' * R' - P * R = (P' - P) * R' + P * (R' - R) := by ring
    have e2 := mul_le_mul hP' hR1 (abs_nonneg _) (by positivity)
    have e3 := mul_le_mul hP hR' (abs_nonneg _) (by positivity)
    rw [e1]
    refine (abs_add_le _ _).trans ?_
    rw [abs_mul, abs_mul]
    have e4 : t * (d * w) * ((1 + t) * (e * w)) + d * w * (t * (e * w)) = (2 * t + t * t) * M := by rw [hM, hm]; ring
    have e5 : (2 * t + t * t) * M ≤ (21 / 10 * t) * M := mul_le_mul_of_nonneg_right (by linarith) hM0
    linarith
  have hPR : |P * R| ≤ M := by
    rw [abs_mul]
    have := mul_le_mul hP hR (abs_nonneg _) (by positivity)
    have e4 : d * w * (e * w) = M := by rw [hM, hm]; ring
    linarith
  have h2 : |fl (P' * R') - P * R| ≤ (16 / 5 * t) * M := by
    have e1 := hfl (P' * R')
    have e2 := abs_sub_abs_le_abs_sub (P' * R') (P * R)
    have e3 : u * |P' * R'| ≤ u * ((1 + 21 / 10 * t) * M) := mul_le_mul_of_nonneg_left (by linarith) hu0
    have e4 := abs_add_le (fl (P' * R') - P' * R') (P' * R' - P * R)
    rw [sub_add_sub_cancel] at e4
    have e5 : u * ((1 + 21 / 10 * t) * M) ≤ (11 / 10 * t) * M := by
      rw [← mul_assoc]; exact mul_le_mul_of_nonneg_right (by linarith) hM0
    linarith
  set X := fl (P' * R')
  -- times `σ / ω`
  have hsM : σ / w ^ 2 * M = σ * m := by rw [hM]; field_simp
  have hs0 : 0 ≤ σ / w ^ 2 := by positivity
  have hσm : σ * m ≤ m := by simpa using mul_le_mul_of_nonneg_right hσ hm0
  have hσm0 : 0 ≤ σ * m := by positivity
  unfold Rel at hs
  rw [abs_of_nonneg hs0] at hs
  have h3 : |s' * X - σ / w ^ 2 * (P * R)| ≤ (36 * t) * m := by
    have e1 : s' * X - σ / w ^ 2 * (P * R) = (s' - σ / w ^ 2) * X + σ / w ^ 2 * (X - P * R) := by ring
    have hX : |X| ≤ (1 + 16 / 5 * t) * M := by have := abs_sub_abs_le_abs_sub X (P * R); linarith
    have e2 := mul_le_mul hs hX (abs_nonneg _) (by positivity)
    have e3 := mul_le_mul_of_nonneg_left h2 hs0
    rw [e1]
    refine (abs_add_le _ _).trans ?_
    rw [abs_mul, abs_mul, abs_of_nonneg hs0]
    have e4 : 32 * t * (σ / w ^ 2) * ((1 + 16 / 5 * t) * M) + σ / w ^ 2 * (16 / 5 * t * M) =
        (32 * t * (1 + 16 / 5 * t) + 16 / 5 * t) * (σ / w ^ 2 * M) := by ring
    rw [hsM] at e4
    have e5 : (32 * t * (1 + 16 / 5 * t) + 16 / 5 * t) * (σ * m) ≤ (36 * t) * m :=
      mul_le_mul (by nlinarith) hσm hσm0 (by positivity)
    linarith
  have hsPR : |σ / w ^ 2 * (P * R)| ≤ m := by
    rw [abs_mul, abs_of_nonneg hs0]
    have := mul_le_mul_of_nonneg_left hPR hs0
    linarith
  have h4 : |fl (s' * X) - σ / w ^ 2 * (P * R)| ≤ (371 / 10 * t) * m := by
    have e1 := hfl (s' * X)
    have e2 := abs_sub_abs_le_abs_sub (s' * X) (σ / w ^ 2 * (P * R))
    have e3 : u * |s' * X| ≤ u * ((1 + 36 * t) * m) := mul_le_mul_of_nonneg_left (by linarith) hu0
    have e4 := abs_add_le (fl (s' * X) - s' * X) (s' * X - σ / w ^ 2 * (P * R))
    rw [sub_add_sub_cancel] at e4
    have e5 : u * ((1 + 36 * t) * m) ≤ (11 / 10 * t) * m := by
      rw [← mul_assoc]; exact mul_le_mul_of_nonneg_right (by linarith) hm0
    linarith
  set Z := fl (s' * X)
  have e1 := hfl (q - Z)
  have e2 : |q - Z| ≤ (2 + 371 / 10 * t) * m := by
    have a1 := abs_sub q Z
    have a2 := abs_sub_abs_le_abs_sub Z (σ / w ^ 2 * (P * R))
    linarith
  have e3 := mul_le_mul_of_nonneg_left e2 hu0
  have e5 : u * ((2 + 371 / 10 * t) * m) ≤ (21 / 10 * t) * m := by
    rw [← mul_assoc]; exact mul_le_mul_of_nonneg_right (by linarith) hm0
  have e6 : fl (q - Z) - (q - σ / w ^ 2 * (P * R)) = (fl (q - Z) - (q - Z)) - (Z - σ / w ^ 2 * (P * R)) := by ring
  rw [e6]
  refine (abs_sub _ _).trans ?_
  have e7 : 0 ≤ t * m := by positivity
  linarith

theorem centre_err (hfl : RelErr u fl) (hu0 : 0 ≤ u) (hu : u ≤ t) (ht : t ≤ 1 / 1000) {d w k P P' c ρ r' : ℝ}
    (hd : 0 ≤ d) (hw : 0 < w) (hP : |P| ≤ d * w) (hP' : |P' - P| ≤ t * (d * w)) (hρ0 : 0 ≤ ρ) (hρ : ρ ≤ k * w)
    (hr : Rel (16 * t) r' (ρ / w ^ 2)) :
    |fl (c - fl (r' * P')) - (c - ρ / w ^ 2 * P)| ≤ 20 * t * (k * d) + u * |c| := by
  have ht0 : 0 ≤ t := hu0.trans hu
  have hk : 0 ≤ k := by
    by_contra h
    have := mul_neg_of_neg_of_pos (not_le.1 h) hw
    linarith
  set m := k * d with hm
  have hm0 : 0 ≤ m := by positivity
  have tt : t * t ≤ 1 / 1000 * t := mul_le_mul_of_nonneg_right ht ht0
  have ut : u * t ≤ 1 / 1000 * t := by nlinarith
  have hr0 : 0 ≤ ρ / w ^ 2 := by positivity
  have hrd : ρ / w ^ 2 * (d * w) ≤ m := by
    have : ρ / w ^ 2 * (d * w) = ρ / w * d := by field_simp
    rw [this]
    exact mul_le_mul_of_nonneg_right ((div_le_iff₀ hw).2 hρ) hd
  have hrd0 : 0 ≤ ρ / w ^ 2 * (d * w) := by positivity
  unfold Rel at hr
  rw [abs_of_nonneg hr0] at hr
  have h1 : |r' * P' - ρ / w ^ 2 * P| ≤ (171 / 10 * t) * m := by
    have e1 : r' * P' - ρ / w ^ 2 * P = (r' - ρ / w ^ 2) * P' + ρ / w ^ 2 * (P' - P) := by ring
    have hX : |P'| ≤ (1 + t) * (d * w) := by have := abs_sub_abs_le_abs_sub P' P; linarith
    have e2 := mul_le_mul hr hX (abs_nonneg _) (by positivity)
    have e3 := mul_le_mul_of_nonneg_left hP' hr0
    rw [e1]
    refine (abs_add_le _ _).trans ?_
    rw [abs_mul, abs_mul, abs_of_nonneg hr0]
    have e4 : 16 * t * (ρ / w ^ 2) * ((1 + t) * (d * w)) + ρ / w ^ 2 * (t * (d * w)) =
        (16 * t * (1 + t) + t) * (ρ / w ^ 2 * (d * w)) := by ring
    have e5 : (16 * t * (1 + t) + t) * (ρ / w ^ 2 * (d * w)) ≤ (171 / 10 * t) * m :=
      mul_le_mul (by nlinarith) hrd hrd0 (by positivity)
    linarith
  have h2 : |ρ / w ^ 2 * P| ≤ m := by
    rw [abs_mul, abs_of_nonneg hr0]
    exact (mul_le_mul_of_nonneg_left hP hr0).trans hrd
  have h3 : |fl (r' * P') - ρ / w ^ 2 * P| ≤ (182 / 10 * t) * m := by
    have e1 := hfl (r' * P')
    have e2 := abs_sub_abs_le_abs_sub (r' * P') (ρ / w ^ 2 * P)
    have e3 : u * |r' * P'| ≤ u * ((1 + 171 / 10 * t) * m) := mul_le_mul_of_nonneg_left (by linarith) hu0
    have e4 := abs_add_le (fl (r' * P') - r' * P') (r' * P' - ρ / w ^ 2 * P)
    rw [sub_add_sub_cancel] at e4
    have e5 : u * ((1 + 171 / 10 * t) * m) ≤ (11 / 10 * t) * m := by
      rw [← mul_assoc]; exact mul_le_mul_of_nonneg_right (by linarith) hm0
    linarith
  set Z := fl (r' * P')
  have e1 := hfl (c - Z)
  have e2 : |c - Z| ≤ |c| + (1 + 182 / 10 * t) * m := by
    have a1 := abs_sub c Z
    have a2 := abs_sub_abs_le_abs_sub Z (ρ / w ^ 2 * P)
    linarith
  have e3 := mul_le_mul_of_nonneg_left e2 hu0
  have e5 : u * ((1 + 182 / 10 * t) * m) ≤ (11 / 10 * t) * m := by
    rw [← mul_assoc]; exact mul_le_mul_of_nonneg_right (by linarith) hm0
  have e6 : fl (c - Z) - (c - ρ / w ^ 2 * P) = (fl (c - Z) - (c - Z)) - (Z - ρ / w ^ 2 * P) := by ring
  rw [e6]
  refine (abs_sub _ _).trans ?_
  have e7 : 0 ≤ t * m := by positivity
  linarith

end scalar

/-! ### The parameters of a deep cut -/

theorem fl_nonneg {u x : ℝ} {fl : ℝ → ℝ} (hfl : RelErr u fl) (hu : u ≤ 1) (hx : 0 ≤ x) : 0 ≤ fl x := by
  have h := hfl x
  rw [abs_of_nonneg hx, abs_le] at h
  have : u * x ≤ 1 * x := mul_le_mul_of_nonneg_right hu hx
  linarith [h.1]

namespace Ell
variable {n : ℕ} {u t : ℝ} {fl : ℝ → ℝ}

theorem c1F_rel (hn : 2 ≤ n) (hfl : RelErr u fl) (hu0 : 0 ≤ u) (hu : u ≤ 1 / 1000) : Rel (16 / 5 * u) (c1F fl n) (c1 n) := by
  have hn' : (2 : ℝ) ≤ n := by exact_mod_cast hn
  have h1 : (n : ℝ) * n - 1 ≠ 0 := by nlinarith
  have h2 := (Rel.refl (x := (n : ℝ) * n) le_rfl).div (Rel.of_fl hfl ((n : ℝ) * n - 1)) le_rfl hu0 (by linarith) h1
  exact (h2.round hfl hu0 (by linarith)).mono (by linarith)

/-- The exact parameters of a deep (or central) cut. -/
noncomputable def rhoD (n : ℕ) (τ β : ℝ) : ℝ := (τ + n * β) / (n + 1)
noncomputable def sigmaD (n : ℕ) (τ β : ℝ) : ℝ := 2 * ((τ + n * β) / (n + 1)) / (τ + β)
noncomputable def deltaD (n : ℕ) (τ β : ℝ) : ℝ := c1 n * (1 - β * (β / τ ^ 2))

theorem deep_bounds (hn : 2 ≤ n) {τ β b : ℝ} (hτ : 0 < τ) (hβ0 : 0 ≤ β) (hb0 : 0 < b) (hβ : β ≤ (1 - b) * τ) :
    0 < rhoD n τ β ∧ rhoD n τ β ≤ τ ∧ 0 < sigmaD n τ β ∧ b / 6 ≤ 1 - sigmaD n τ β ∧ 0 < deltaD n τ β ∧
      4 / 9 * b ^ 2 ≤ deltaD n τ β * (1 - sigmaD n τ β) ∧ b ≤ 1 - β * (β / τ ^ 2) := by
  have hn' : (2 : ℝ) ≤ n := by exact_mod_cast hn
  have hb1 : b ≤ 1 := by
    by_contra h
    have : (1 - b) * τ < 0 := mul_neg_of_neg_of_pos (by linarith [not_le.1 h]) hτ
    linarith
  have hβτ : β ≤ τ := by nlinarith
  have hbτ : b * τ ≤ τ - β := by linarith
  have h1 : sigmaD n τ β = 1 - (n - 1) * (τ - β) / ((n + 1) * (τ + β)) := by
    have := deep_one_sub_sigma (n := n) hn (τ := τ) (β := β) (by linarith)
    unfold sigmaD; linarith
  have hq : b ≤ 1 - β * (β / τ ^ 2) := by
    have : β * (β / τ ^ 2) ≤ 1 - b := by
      rw [← mul_div_assoc, div_le_iff₀ (by positivity)]
      nlinarith
    linarith
  have hc1 : 1 < c1 n := by unfold c1; rw [lt_div_iff₀ (by nlinarith)]; linarith
  refine ⟨by unfold rhoD; positivity, ?_, by unfold sigmaD; positivity, ?_, ?_, ?_, hq⟩
  · unfold rhoD
    rw [div_le_iff₀ (by linarith)]
    nlinarith
  · rw [h1]
    rw [sub_sub_cancel, le_div_iff₀ (by positivity)]
    have e1 : (n + 1 : ℝ) ≤ 3 * (n - 1) := by linarith
    have e2 : τ + β ≤ 2 * τ := by linarith
    have e3 : (n + 1 : ℝ) * (τ + β) ≤ 3 * (n - 1) * (2 * τ) := mul_le_mul e1 e2 (by linarith) (by linarith)
    have e4 := mul_le_mul_of_nonneg_left e3 (show (0 : ℝ) ≤ b / 6 by linarith)
    have e5 := mul_le_mul_of_nonneg_left hbτ (show (0 : ℝ) ≤ n - 1 by linarith)
    linarith
  · unfold deltaD
    have : 0 < 1 - β * (β / τ ^ 2) := by linarith
    have : 0 < c1 n := by linarith
    positivity
  · have h2 : deltaD n τ β * (1 - sigmaD n τ β) = (n / (n + 1)) ^ 2 * ((τ - β) / τ) ^ 2 := by
      rw [h1]
      unfold deltaD c1
      have a1 : (n : ℝ) * n - 1 = (n - 1) * (n + 1) := by ring
      have a2 : (n : ℝ) - 1 ≠ 0 := by linarith
      have a3 : τ + β ≠ 0 := by linarith
      rw [a1]
      field_simp
      ring
    rw [h2]
    have e1 : (2 / 3 : ℝ) ≤ n / (n + 1) := by rw [le_div_iff₀ (by linarith)]; linarith
    have e2 : b ≤ (τ - β) / τ := by rw [le_div_iff₀ hτ]; linarith
    have e3 : (2 / 3 : ℝ) ^ 2 ≤ (n / (n + 1)) ^ 2 := pow_le_pow_left₀ (by norm_num) e1 2
    have e4 : b ^ 2 ≤ ((τ - β) / τ) ^ 2 := pow_le_pow_left₀ hb0.le e2 2
    have := mul_le_mul e3 e4 (by positivity) (by positivity)
    linarith

theorem calcDcF_acc (hn : 2 ≤ n) (hfl : RelErr u fl) (hu0 : 0 ≤ u) (hu : u ≤ t) {τ β b tsq : ℝ} (hτ : 0 < τ) (hβ0 : 0 ≤ β)
    (hb0 : 0 < b) (hβ : β ≤ (1 - b) * τ) (ht : 1000 * t ≤ b ^ 2) (htsq : Rel (41 / 10 * t) tsq (τ ^ 2)) :
    ∃ ρ' σ' δ', calcDcF fl n tsq β = .ok (.accept ρ' σ' δ', tsq) ∧ Rel (101 / 10 * t) ρ' (rhoD n τ β) ∧
      Rel (49 / 2 * t) σ' (sigmaD n τ β) ∧ Rel (17 * (t / b)) δ' (deltaD n τ β) := by
  have hn' : (2 : ℝ) ≤ n := by exact_mod_cast hn
  have ht0 : 0 ≤ t := hu0.trans hu
  have hb1 : b ≤ 1 := by
    by_contra h
    have : (1 - b) * τ < 0 := mul_neg_of_neg_of_pos (by linarith [not_le.1 h]) hτ
    linarith
  have hbb : b ^ 2 ≤ b := by nlinarith
  have ht1 : t ≤ 1 / 1000 := by linarith
  have htb : t ≤ t / b := by rw [le_div_iff₀ hb0]; nlinarith
  have htb' : t / b ≤ 1 / 1000 := by rw [div_le_iff₀ hb0]; linarith
  have htsq0 : 0 < tsq := htsq.pos (by positivity) (by linarith)
  have hτ' : Rel (61 / 10 * t) (fl √tsq) τ := by
    have h := htsq.sqrt (by positivity) (by linarith)
    rw [Real.sqrt_sq hτ.le] at h
    exact (h.round hfl hu0 (by linarith)).mono (by linarith)
  set τ' := fl √tsq with hτd
  have hτ0 : 0 < τ' := hτ'.pos hτ (by linarith)
  have hsq : sqrtF fl tsq = .ok τ' := by
    unfold sqrtF; rw [pySqrt_ok.2 ⟨htsq0.le, rfl⟩]; rfl
  have hbd : 0 ≤ fl (τ' - β) := by
    refine fl_nonneg hfl (by linarith) ?_
    have h1 := hτ'.lower hτ.le
    have h2 : 61 / 10 * t * τ ≤ b * τ := mul_le_mul_of_nonneg_right (by linarith) hτ.le
    linarith
  have hc1 := c1F_rel hn hfl hu0 (hu.trans ht1)
  by_cases hz : β = 0
  · subst hz
    refine ⟨fl (τ' / (n + 1)), c2F fl n, c1F fl n, ?_, ?_, ?_, ?_⟩
    · simp only [calcDcF, hsq]
      rw [if_neg (not_lt.2 hbd), if_pos trivial]; rfl
    · have h := (hτ'.div (Rel.refl (x := (n : ℝ) + 1) le_rfl) (by positivity) le_rfl (by norm_num) (by linarith)).round hfl hu0
        (by linarith)
      have e : rhoD n τ 0 = τ / (n + 1) := by unfold rhoD; simp
      rw [e]
      exact h.mono (by linarith)
    · have e : sigmaD n τ 0 = 2 / (n + 1) := by unfold sigmaD; simp; field_simp
      rw [e]
      exact (Rel.of_fl hfl _).mono (by linarith)
    · have e : deltaD n τ 0 = c1 n := by unfold deltaD; simp
      rw [e]
      exact hc1.mono (by linarith)
  · have hβp : 0 < β := lt_of_le_of_ne hβ0 (Ne.symm hz)
    have hg : Rel (81 / 10 * t) (fl (τ' + fl (n * β))) (τ + n * β) :=
      ((hτ'.add ((Rel.of_fl hfl ((n : ℝ) * β)).mono (by linarith : u ≤ 61 / 10 * t)) hτ.le (by positivity)).round hfl hu0
        (by linarith)).mono (by linarith)
    have hg0 : 0 < fl (τ' + fl (n * β)) := hg.pos (by positivity) (by linarith)
    set γ := fl (τ' + fl (n * β))
    have hρ : Rel (101 / 10 * t) (fl (γ / (n + 1))) (rhoD n τ β) := by
      have h : Rel (81 / 10 * t) (γ / (n + 1)) ((τ + n * β) / (n + 1)) := by
        rw [div_eq_inv_mul γ, div_eq_inv_mul (τ + n * β)]; exact hg.mul_left _
      exact (h.round hfl hu0 (by linarith)).mono (by linarith)
    have hs : Rel (81 / 10 * t) (fl (τ' + β)) (τ + β) :=
      ((hτ'.add (Rel.refl (x := β) (by positivity)) hτ.le hβ0).round hfl hu0 (by linarith)).mono (by linarith)
    have hs0 : 0 < fl (τ' + β) := hs.pos (by positivity) (by linarith)
    have hσ : Rel (49 / 2 * t) (fl (fl (2 * fl (γ / (n + 1))) / fl (τ' + β))) (sigmaD n τ β) := by
      have h1 : Rel (121 / 10 * t) (fl (2 * fl (γ / (n + 1)))) (2 * ((τ + n * β) / (n + 1))) :=
        ((hρ.mul_left 2).round hfl hu0 (by linarith)).mono (by linarith)
      exact ((h1.div hs (by positivity) (by positivity) (by linarith) (by positivity)).round hfl hu0 (by linarith)).mono
        (by linarith)
    have hbt : Rel (66 / 10 * t) (fl (β / tsq)) (β / τ ^ 2) :=
      (((Rel.refl (x := β) le_rfl).div htsq le_rfl (by positivity) (by linarith) (by positivity)).round hfl hu0
        (by linarith)).mono (by linarith)
    have hbb : Rel (86 / 10 * t) (fl (β * fl (β / tsq))) (β * (β / τ ^ 2)) :=
      ((hbt.mul_left β).round hfl hu0 (by linarith)).mono (by linarith)
    have hge := (deep_bounds hn hτ hβ0 hb0 hβ).2.2.2.2.2.2
    have h1m : Rel (86 / 10 * (t / b)) (1 - fl (β * fl (β / tsq))) (1 - β * (β / τ ^ 2)) := by
      unfold Rel at hbb ⊢
      have a0 : (0 : ℝ) ≤ β * (β / τ ^ 2) := by positivity
      rw [abs_of_nonneg a0] at hbb
      rw [abs_of_pos (show 0 < 1 - β * (β / τ ^ 2) by linarith)]
      have a1 : 1 - fl (β * fl (β / tsq)) - (1 - β * (β / τ ^ 2)) = -(fl (β * fl (β / tsq)) - β * (β / τ ^ 2)) := by ring
      rw [a1, abs_neg]
      have a2 : 86 / 10 * t * (β * (β / τ ^ 2)) ≤ 86 / 10 * t * 1 := mul_le_mul_of_nonneg_left (by linarith) (by positivity)
      have a3 : t = t / b * b := by field_simp
      have a4 : t / b * b ≤ t / b * (1 - β * (β / τ ^ 2)) := mul_le_mul_of_nonneg_left hge (by positivity)
      linarith
    have h1r : Rel (106 / 10 * (t / b)) (fl (1 - fl (β * fl (β / tsq)))) (1 - β * (β / τ ^ 2)) :=
      (h1m.round hfl hu0 (by linarith)).mono (by linarith)
    have hδ : Rel (17 * (t / b)) (fl (c1F fl n * fl (1 - fl (β * fl (β / tsq))))) (deltaD n τ β) := by
      have h := (hc1.mul h1r (by positivity) (by linarith)).round hfl hu0 (by linarith)
      exact h.mono (by linarith)
    refine ⟨_, _, _, ?_, hρ, hσ, hδ⟩
    simp only [calcDcF, hsq]
    rw [if_neg (not_lt.2 hbd), if_neg hz, if_neg (not_lt.2 hg0.le)]
    change (do
      let _q ← divF fl (fl (τ' - β)) γ
      let sigma ← divF fl (fl (2 * fl (γ / (n + 1)))) (fl (τ' + β))
      let bt ← divF fl β tsq
      return (Calc.accept (fl (γ / (n + 1))) sigma (fl (c1F fl n * fl (1 - fl (β * bt)))), tsq)) = _
    simp only [divF, pyDiv, if_neg hg0.ne', if_neg hs0.ne', if_neg htsq0.ne', bind, Except.bind, Except.map, pure, Except.pure]


/-! ### The whole matrix -/

theorem quad_err {M N : Matrix (Fin n) (Fin n) ℝ} {d : Fin n → ℝ} {e : ℝ} (h : ∀ i j, |M i j - N i j| ≤ e * (d i * d j)) (y : Fin n → ℝ) :
    |y ⬝ᵥ M *ᵥ y - y ⬝ᵥ N *ᵥ y| ≤ e * (∑ i, d i * |y i|) ^ 2 := by
  have h1 : y ⬝ᵥ M *ᵥ y - y ⬝ᵥ N *ᵥ y = ∑ i, ∑ j, y i * ((M i j - N i j) * y j) := by
    simp only [dotProduct, mulVec]
    rw [← Finset.sum_sub_distrib]
    refine Finset.sum_congr rfl fun i _ => ?_
    rw [Finset.mul_sum, Finset.mul_sum, ← Finset.sum_sub_distrib]
    exact Finset.sum_congr rfl fun j _ => by ring
  have h2 : e * (∑ i, d i * |y i|) ^ 2 = ∑ i, ∑ j, |y i| * (e * (d i * d j) * |y j|) := by
    rw [pow_two, Finset.sum_mul_sum, Finset.mul_sum]
    refine Finset.sum_congr rfl fun i _ => ?_
    rw [Finset.mul_sum]
    exact Finset.sum_congr rfl fun j _ => by ring
  rw [h1, h2]
  refine (Finset.abs_sum_le_sum_abs _ _).trans (Finset.sum_le_sum fun i _ => ?_)
  refine (Finset.abs_sum_le_sum_abs _ _).trans (Finset.sum_le_sum fun j _ => ?_)
  rw [abs_mul, abs_mul]
  exact mul_le_mul_of_nonneg_left (mul_le_mul_of_nonneg_right (h i j) (abs_nonneg _)) (abs_nonneg _)

theorem single_mulVec (Q : Matrix (Fin n) (Fin n) ℝ) (i : Fin n) (y : Fin n → ℝ) : Pi.single i 1 ⬝ᵥ Q *ᵥ y = (Q *ᵥ y) i := by
  simp

/-- The entries of a positive semidefinite matrix are bounded by its diagonal. -/
theorem psd_entry {Q : Matrix (Fin n) (Fin n) ℝ} (hQ : Q.PosSemidef) (i j : Fin n) : |Q i j| ≤ √(Q i i) * √(Q j j) := by
  have h := psd_cauchy hQ (Pi.single i 1) (Pi.single j 1)
  rw [single_mulVec, single_mulVec, single_mulVec, mulVec_single_one, mulVec_single_one] at h
  have hj : 0 ≤ Q i i := by
    have := (psd_iff.1 hQ).2 (Pi.single i 1); rwa [single_mulVec, mulVec_single_one] at this
  rw [← Real.sqrt_mul hj]
  exact Real.abs_le_sqrt h

theorem psd_mulVec {Q : Matrix (Fin n) (Fin n) ℝ} (hQ : Q.PosSemidef) (i : Fin n) (g : Fin n → ℝ) :
    |(Q *ᵥ g) i| ≤ √(Q i i) * √(g ⬝ᵥ Q *ᵥ g) := by
  have h := psd_cauchy hQ (Pi.single i 1) g
  rw [single_mulVec, single_mulVec, mulVec_single_one] at h
  have hj : 0 ≤ Q i i := by
    have := (psd_iff.1 hQ).2 (Pi.single i 1); rwa [single_mulVec, mulVec_single_one] at this
  rw [← Real.sqrt_mul hj]
  exact Real.abs_le_sqrt h

end Ell
end Verif
