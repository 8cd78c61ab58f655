import Verif.Model.QuasiFloat
import Verif.Props.AdaptorFloat
import Verif.Props.Example
import Verif.Props.LevelFloat
import Verif.Spec.ProfitFloatSpec

/-! # C143: the quasi-convex and linear programs of the tests, every operation rounded -/
namespace Verif
open Matrix Ell FloatSpec
variable {fl ex : ℝ → ℝ} {u : ℝ} {p : ℕ}

/-- A correctly rounded `math.exp` is accurate. -/
example (hp : 1 ≤ p) : ExpErr (1 / 2 ^ p) fun x => ieee p (Real.exp x) := fun x => by
  have := (ieee_nearest hp).relErr (Real.exp x)
  rwa [abs_of_pos (Real.exp_pos x)] at this

section
variable (hn : Nearest p fl) (hfl : RelErr u fl) (hu0 : 0 ≤ u) (hu : u ≤ 1 / 50)

include hn in
theorem nearest_nonneg {x : ℝ} (h : 0 ≤ x) : 0 ≤ fl x := by
  have := hn.rounding.mono h
  rwa [hn.rounding.exact 0 rep_zero] at this

include hn in
theorem nearest_nonpos {x : ℝ} (h : x ≤ 0) : fl x ≤ 0 := by
  have := hn.rounding.mono h
  rwa [hn.rounding.exact 0 rep_zero] at this

include hfl hu0 hu in
/-- Rounding is a factor close to one. -/
theorem rel_factor (x : ℝ) : ∃ a, |a| ≤ u ∧ fl x = x * (1 + a) := by
  rcases eq_or_ne x 0 with rfl | h
  · refine ⟨0, by simpa using hu0, ?_⟩
    have := hfl 0
    simp at this
    simp [this]
  · refine ⟨(fl x - x) / x, ?_, by field_simp; ring⟩
    rw [abs_div, div_le_iff₀ (abs_pos.2 h)]
    exact hfl x

include hfl hu0 hu in
theorem rel_pos {x : ℝ} (h : 0 < x) : 0 < fl x := by
  obtain ⟨a, ha, e⟩ := rel_factor hfl hu0 hu x
  rw [e]
  have := abs_le.1 ha
  exact mul_pos h (by linarith)

include hu0 hu in
theorem ExpErr.pos (hex : ExpErr u ex) (x : ℝ) : 0 < ex x := by
  have h1 := Real.exp_pos x
  have := abs_le.1 (hex x)
  nlinarith

include hn hfl hu0 hu in
/-- **C143** (`test_quasicvx.py`, a call).  A representable point and a representable level `t ≥ 0`.  An improved level is representable and not below `t`; it is the value at the point up to a factor
`1 ± 4u`, and the point is feasible up to a factor `1 - u`. -/
theorem C143_hit1 (hex : ExpErr u ex) {x : Fin 2 → ℝ} (hx : VecRep p x) {t s : ℝ} (ht : Rep p t) (ht0 : 0 ≤ t) {c : _} (h : quasi1F fl ex x t = (c, some s)) :
    Rep p s ∧ t ≤ s ∧ 0 < x 0 ∧ (1 - u) * x 0 ^ 2 ≤ x 1 ∧ |s * Real.exp (x 1) - x 0| ≤ 4 * (u * x 0) ∧ c = (![-1, x 0], .scalar 0) := by
  have hE := Real.exp_pos (x 1)
  have hT := hex.pos hu0 hu (x 1)
  have hEr := abs_le.1 (hex (x 1))
  unfold quasi1F at h
  simp only at h
  split_ifs at h with h1 h2 <;> simp only [Prod.mk.injEq, Option.some.injEq, reduceCtorEq, and_false] at h
  obtain ⟨rfl, rfl⟩ := h
  set E := Real.exp (x 1)
  set T := ex (x 1)
  -- signs are not lost
  have k1 : fl (t * T) < x 0 := by
    by_contra hc
    exact absurd (nearest_nonneg hn (x := -x 0 + fl (t * T)) (by linarith)) (not_le.2 h2)
  have k2 : t * T < x 0 := by
    by_contra hc
    have := hn.rounding.mono (not_lt.1 hc)
    rw [hn.rounding.exact _ (hx 0)] at this
    linarith
  have hx0 : 0 < x 0 := lt_of_le_of_lt (mul_nonneg ht0 hT.le) k2
  have k3 : fl (x 0 * x 0) ≤ x 1 := by
    by_contra hc
    exact h1 (rel_pos hfl hu0 hu (by linarith))
  have k4 : t ≤ fl (x 0 / T) := by
    have : t ≤ x 0 / T := by rw [le_div_iff₀ hT]; exact k2.le
    have := hn.rounding.mono this
    rwa [hn.rounding.exact _ ht] at this
  refine ⟨(hn _).1, k4, hx0, ?_, ?_, rfl⟩
  · obtain ⟨a, ha, e⟩ := rel_factor hfl hu0 hu (x 0 * x 0)
    rw [e] at k3
    have h5 := (abs_le.1 ha).1
    have h6 := mul_le_mul_of_nonneg_left h5 (sq_nonneg (x 0))
    nlinarith
  · obtain ⟨a, ha, e⟩ := rel_factor hfl hu0 hu (x 0 / T)
    rw [e, show x 0 / T * (1 + a) * E - x 0 = x 0 * ((E - T) + a * E) / T by field_simp; ring, abs_div, abs_of_pos hT, div_le_iff₀ hT, abs_mul, abs_of_pos hx0]
    have h5 : |E - T + a * E| ≤ 4 * (u * T) := by
      have h6 : |a * E| ≤ u * E := by rw [abs_mul, abs_of_pos hE]; exact mul_le_mul_of_nonneg_right ha hE.le
      have h7 : |E - T| ≤ u * E := by rw [abs_sub_comm]; exact hex (x 1)
      have h8 := abs_add_le (E - T) (a * E)
      have h9 : E ≤ 2 * T := by nlinarith
      nlinarith [mul_le_mul_of_nonneg_left h9 hu0]
    calc x 0 * |E - T + a * E| ≤ x 0 * (4 * (u * T)) := mul_le_mul_of_nonneg_left h5 hx0.le
      _ = _ := by ring

include hn hfl hu0 hu in
/-- **C143** (`test_quasicvx.py`, the cut).  In a box of size `R`, at a level `0 ≤ t` with new level at most one, the cut keeps the points with room up to `12·u·exp(R)·R`. -/
theorem C143_cut1 (hex : ExpErr u ex) {R : ℝ} (hR : 1 ≤ R) {x : Fin 2 → ℝ} (hx : VecRep p x) (hxR : ∀ i, |x i| ≤ R) {t : ℝ} (ht : Rep p t) (ht0 : 0 ≤ t) :
    ∃ g β t1, quasi1F fl ex x t = ((g, .scalar β), t1) ∧ 0 ≤ β ∧ (t1.getD t ≤ 1 → ∀ z, (∀ i, |z i| ≤ R) → ∀ δ, room1 (t1.getD t) z δ →
      g ⬝ᵥ (z - x) + β ≤ -δ + 12 * (u * (Real.exp R * R))) := by
  have hE := Real.exp_pos (x 1)
  have hT := hex.pos hu0 hu (x 1)
  have hEr := abs_le.1 (hex (x 1))
  have hM : R ≤ Real.exp R := by linarith [Real.add_one_le_exp R]
  have hEM : Real.exp (x 1) ≤ Real.exp R := Real.exp_le_exp.2 ((le_abs_self _).trans (hxR 1))
  have hx0 := abs_le.1 (hxR 0)
  have hx1 := abs_le.1 (hxR 1)
  rcases hq : quasi1F fl ex x t with ⟨c, _ | s⟩
  · have hq' := hq
    unfold quasi1F at hq
    simp only at hq
    split_ifs at hq with h1 h2 <;> simp only [Prod.mk.injEq, reduceCtorEq, and_false, and_true] at hq
    · subst hq
      refine ⟨_, _, _, rfl, h1.le, fun _ z hz δ hr => ?_⟩
      have hz0 := abs_le.1 (hz 0)
      obtain ⟨a, ha, ea⟩ := rel_factor hfl hu0 hu (x 0 * x 0)
      obtain ⟨b, hb, eb⟩ := rel_factor hfl hu0 hu (2 * x 0)
      obtain ⟨d, hd, ed⟩ := rel_factor hfl hu0 hu (fl (x 0 * x 0) - x 1)
      have hsq : |x 0 * x 0| ≤ R * R := by rw [abs_mul]; exact mul_le_mul (hxR 0) (hxR 0) (abs_nonneg _) (by linarith)
      have i1 : |x 0 * x 0 * a| ≤ R * R * u := by rw [abs_mul]; exact mul_le_mul hsq ha (abs_nonneg _) (by positivity)
      have i2 : |fl (x 0 * x 0) - x 1| ≤ 3 * (R * R) := by
        rw [ea]
        have := abs_sub (x 0 * x 0 * (1 + a)) (x 1)
        have j : |x 0 * x 0 * (1 + a)| ≤ R * R + R * R * u := by
          rw [mul_add, mul_one]
          exact (abs_add_le _ _).trans (add_le_add hsq i1)
        nlinarith [hxR 1, mul_nonneg (by linarith : (0:ℝ) ≤ R) (by linarith : (0:ℝ) ≤ R - 1), mul_nonneg (mul_nonneg (by linarith : (0:ℝ) ≤ R) (by linarith : (0:ℝ) ≤ R)) (by linarith : 0 ≤ 1 / 50 - u)]
      have i3 : |(fl (x 0 * x 0) - x 1) * d| ≤ 3 * (R * R) * u := by rw [abs_mul]; exact mul_le_mul i2 hd (abs_nonneg _) (by positivity)
      have i4 : |2 * x 0 * b * (z 0 - x 0)| ≤ 4 * (R * R) * u := by
        rw [abs_mul, abs_mul, abs_mul, abs_two]
        have j1 : |z 0 - x 0| ≤ 2 * R := by rw [abs_le]; constructor <;> linarith
        have j2 : 2 * |x 0| * |b| ≤ 2 * R * u := mul_le_mul (by linarith [hxR 0]) hb (abs_nonneg _) (by positivity)
        calc 2 * |x 0| * |b| * |z 0 - x 0| ≤ 2 * R * u * (2 * R) := mul_le_mul j2 j1 (abs_nonneg _) (by positivity)
          _ = _ := by ring
      have e : ![fl (2 * x 0), -1] ⬝ᵥ (z - x) + fl (fl (x 0 * x 0) - x 1) =
          (2 * x 0 * (z 0 - x 0) + x 0 * x 0 - z 1) + 2 * x 0 * b * (z 0 - x 0) + x 0 * x 0 * a + (fl (x 0 * x 0) - x 1) * d := by
        rw [dot2, ed, eb]
        simp only [cons_val_zero, cons_val_one, Pi.sub_apply]
        rw [ea]; ring
      rw [e]
      have m1 := (abs_le.1 i1).2
      have m3 := (abs_le.1 i3).2
      have m4 := (abs_le.1 i4).2
      have m5 : R * R * u ≤ u * (Real.exp R * R) := by
        have := mul_le_mul_of_nonneg_left (mul_le_mul_of_nonneg_right hM (by linarith : 0 ≤ R)) hu0
        linarith
      have m6 := mul_nonneg hu0 (mul_nonneg (Real.exp_pos R).le (by linarith : 0 ≤ R))
      have := hr.1
      nlinarith [sq_nonneg (z 0 - x 0)]
    · subst hq
      refine ⟨_, _, _, rfl, not_lt.1 h2, fun ht1 z hz δ hr => ?_⟩
      have hz1 := abs_le.1 (hz 1)
      simp only [Option.getD_none] at ht1 hr
      have hr := hr.2
      set E := Real.exp (x 1) with hEdef
      set T := ex (x 1)
      have htan := mul_le_mul_of_nonneg_left (exp_tangent (x 1) (z 1)) ht0
      rw [← hEdef] at htan
      obtain ⟨a, ha, ea⟩ := rel_factor hfl hu0 hu (t * T)
      obtain ⟨d, hd, ed⟩ := rel_factor hfl hu0 hu (-x 0 + fl (t * T))
      have hE0 : 0 ≤ t * E := mul_nonneg ht0 hE.le
      have hTE : T ≤ 2 * E := by nlinarith
      have htE : t * E ≤ Real.exp R := (mul_le_of_le_one_left hE.le ht1).trans hEM
      have htT : t * T ≤ 2 * Real.exp R := by nlinarith [mul_le_mul_of_nonneg_left hTE ht0]
      have htT0 : 0 ≤ t * T := mul_nonneg ht0 hT.le
      have i1 : |t * T * a| ≤ 2 * Real.exp R * u := by rw [abs_mul, abs_of_nonneg htT0]; exact mul_le_mul htT ha (abs_nonneg _) (by positivity)
      have i2 : |t * (T - E)| ≤ Real.exp R * u := by
        rw [abs_mul, abs_of_nonneg ht0]
        calc t * |T - E| ≤ t * (u * E) := mul_le_mul_of_nonneg_left (hex (x 1)) ht0
          _ = t * E * u := by ring
          _ ≤ _ := mul_le_mul_of_nonneg_right htE hu0
      have i3 : |fl (t * T) - t * E| ≤ 3 * Real.exp R * u := by
        rw [ea, show t * T * (1 + a) - t * E = t * T * a + t * (T - E) by ring]
        exact (abs_add_le _ _).trans (by linarith)
      have i4 : |(fl (t * T) - t * E) * (1 + (z 1 - x 1))| ≤ 3 * Real.exp R * u * (3 * R) := by
        rw [abs_mul]
        exact mul_le_mul i3 (by rw [abs_le]; constructor <;> linarith) (abs_nonneg _) (by positivity)
      have i5 : |(-x 0 + fl (t * T)) * d| ≤ (R + 2 * Real.exp R) * u := by
        rw [abs_mul]
        refine mul_le_mul ?_ hd (abs_nonneg _) (by positivity)
        have hf0 : 0 ≤ fl (t * T) := nearest_nonneg hn htT0
        have hf1 : fl (t * T) ≤ 2 * Real.exp R := by
          have := (abs_le.1 i3).2
          nlinarith [mul_le_mul_of_nonneg_left hu (Real.exp_pos R).le]
        rw [abs_le]; constructor <;> linarith
      have e : ![-1, fl (t * T)] ⬝ᵥ (z - x) + fl (-x 0 + fl (t * T)) =
          (-z 0 + (t * E + t * E * (z 1 - x 1))) + (fl (t * T) - t * E) * (1 + (z 1 - x 1)) + (-x 0 + fl (t * T)) * d := by
        rw [dot2, ed]
        simp only [cons_val_zero, cons_val_one, Pi.sub_apply]
        ring
      rw [e]
      have m4 := (abs_le.1 i4).2
      have m5 := (abs_le.1 i5).2
      have htan' : t * E + t * E * (z 1 - x 1) ≤ t * Real.exp (z 1) := by linarith
      have m6 : R * u ≤ u * (Real.exp R * R) := by
        have := mul_nonneg (mul_nonneg hu0 (by linarith : 0 ≤ R)) (by linarith : 0 ≤ Real.exp R - 1)
        linarith
      have m7 : Real.exp R * u ≤ u * (Real.exp R * R) := by
        have := mul_nonneg (mul_nonneg hu0 (Real.exp_pos R).le) (by linarith : 0 ≤ R - 1)
        linarith
      linarith
  · obtain ⟨-, k2, k3, -, k5, rfl⟩ := C143_hit1 hn hfl hu0 hu hex hx ht ht0 hq
    refine ⟨_, _, _, rfl, le_rfl, fun ht1 z hz δ hr => ?_⟩
    have hz1 := abs_le.1 (hz 1)
    simp only [Option.getD_some] at ht1 hr
    have hr := hr.2
    have htan := mul_le_mul_of_nonneg_left (exp_tangent (x 1) (z 1)) (ht0.trans k2)
    set E := Real.exp (x 1)
    have i4 : |(s * E - x 0) * (1 + (z 1 - x 1))| ≤ 4 * (u * R) * (3 * R) := by
      rw [abs_mul]
      refine mul_le_mul (k5.trans ?_) (by rw [abs_le]; constructor <;> linarith) (abs_nonneg _) (by positivity)
      have := mul_le_mul_of_nonneg_left hx0.2 hu0
      linarith
    have e : ![-1, x 0] ⬝ᵥ (z - x) + 0 = -z 0 + (s * E + s * E * (z 1 - x 1)) - (s * E - x 0) * (1 + (z 1 - x 1)) := by
      rw [dot2]
      simp only [cons_val_zero, cons_val_one, Pi.sub_apply]
      ring
    rw [e]
    have m4 := (abs_le.1 i4).1
    have m5 : R * R * u ≤ u * (Real.exp R * R) := by
      have := mul_le_mul_of_nonneg_left (mul_le_mul_of_nonneg_right hM (by linarith : 0 ≤ R)) hu0
      linarith
    linarith

include hn hfl hu0 hu in
/-- **C143** (`test_quasicvx2.py`, a call).  A representable point and a representable level.  An improved level is representable and not above `t`; it is the value at the point up to a factor
`1 ± 3u`, and the point is feasible up to a factor `1 - u`. -/
theorem C143_hit2 (hex : ExpErr u ex) {x : Fin 2 → ℝ} {t s : ℝ} (ht : Rep p t) {c : _} (h : quasi2F fl ex x t = (c, some s)) :
    Rep p s ∧ s ≤ t ∧ 0 < x 0 ∧ 0 < x 1 ∧ (1 - u) * Real.exp (x 0) ≤ x 1 ∧ |s * x 1 + √(x 0)| ≤ 3 * (u * √(x 0)) ∧
      c = (![fl (-0.5 / fl (√(x 0))), -s], .scalar 0) := by
  have hE := Real.exp_pos (x 0)
  have hEr := abs_le.1 (hex (x 0))
  unfold quasi2F at h
  simp only at h
  split_ifs at h with h1 h2 h3 h4 <;> simp only [Prod.mk.injEq, Option.some.injEq, reduceCtorEq, and_false] at h
  obtain ⟨rfl, rfl⟩ := h
  have hx : 0 < x 0 := not_le.1 h3
  have hy : 0 < x 1 := not_le.1 h2
  have hq : 0 < √(x 0) := Real.sqrt_pos.2 hx
  set q := √(x 0)
  have k1 : ex (x 0) ≤ x 1 := by
    by_contra hc
    exact h1 (rel_pos hfl hu0 hu (by linarith))
  have k2 : -fl q < fl (t * x 1) := by
    by_contra hc
    exact absurd (nearest_nonneg hn (x := -fl q - fl (t * x 1)) (by linarith)) (not_le.2 h4)
  have k3 : -fl q < t * x 1 := by
    by_contra hc
    have := hn.rounding.mono (not_lt.1 hc)
    rw [hn.rounding.exact _ (hn q).1.neg] at this
    linarith
  have k4 : fl (-fl q / x 1) ≤ t := by
    have : -fl q / x 1 ≤ t := by rw [div_le_iff₀ hy]; exact k3.le
    have := hn.rounding.mono this
    rwa [hn.rounding.exact _ ht] at this
  refine ⟨(hn _).1, k4, hx, hy, by linarith, ?_, rfl⟩
  obtain ⟨a, ha, ea⟩ := rel_factor hfl hu0 hu q
  obtain ⟨b, hb, eb⟩ := rel_factor hfl hu0 hu (-fl q / x 1)
  rw [eb, show -fl q / x 1 * (1 + b) * x 1 + q = q - fl q * (1 + b) by field_simp; ring, ea, show q - q * (1 + a) * (1 + b) = -(q * (a + b + a * b)) by ring, abs_neg,
    abs_mul, abs_of_pos hq]
  have h5 : |a + b + a * b| ≤ 3 * u := by
    have h6 : |a * b| ≤ u := by
      rw [abs_mul]
      calc |a| * |b| ≤ u * u := mul_le_mul ha hb (abs_nonneg _) hu0
        _ ≤ u := by nlinarith
    have := abs_add_three a b (a * b)
    linarith
  calc q * |a + b + a * b| ≤ q * (3 * u) := mul_le_mul_of_nonneg_left h5 hq.le
    _ = _ := by ring

include hfl hu0 hu in
/-- The rounded derivative of the square root, times the step, is not above the increase by more than `3·u·R`. -/
theorem sqrt_step {X Z R : ℝ} (hX : 0 < X) (hZ : 0 ≤ Z) (hXR : √X ≤ R) (hZR : √Z ≤ R) :
    fl (-0.5 / fl (√X)) * (Z - X) ≤ √X - √Z + 3 * (u * R) := by
  have hq : 0 < √X := Real.sqrt_pos.2 hX
  have e1 : X = √X ^ 2 := (Real.sq_sqrt hX.le).symm
  have e2 : Z = √Z ^ 2 := (Real.sq_sqrt hZ).symm
  have hw : 0 ≤ √Z := Real.sqrt_nonneg Z
  set q := √X
  set w := √Z
  obtain ⟨a, ha, ea⟩ := rel_factor hfl hu0 hu q
  obtain ⟨b, hb, eb⟩ := rel_factor hfl hu0 hu (-0.5 / fl q)
  have ha' := abs_le.1 ha
  have hb' := abs_le.1 hb
  have h1a : 0 < 1 + a := by linarith
  obtain ⟨θ, hθ, hθ'⟩ : ∃ θ, |θ| ≤ 3 * u ∧ (1 + b) / (1 + a) = 1 + θ := by
    refine ⟨(b - a) / (1 + a), ?_, by field_simp; ring⟩
    rw [abs_div, abs_of_pos h1a, div_le_iff₀ h1a]
    have := abs_sub b a
    nlinarith
  have hθ2 := abs_le.1 hθ
  have e3 : fl (-0.5 / fl q) * (Z - X) = (1 + θ) * (-(w ^ 2 - q ^ 2) / (2 * q)) := by
    rw [eb, ea, ← hθ', e1, e2]
    field_simp
    ring
  rw [e3]
  have h5 : -(w ^ 2 - q ^ 2) / (2 * q) ≤ q - w := by
    rw [div_le_iff₀ (by positivity)]
    nlinarith [sq_nonneg (w - q)]
  have h6 := mul_le_mul_of_nonneg_left h5 (by linarith : 0 ≤ 1 + θ)
  have h7 : |θ * (q - w)| ≤ 3 * u * R := by
    rw [abs_mul]
    exact mul_le_mul hθ (by rw [abs_le]; constructor <;> linarith) (abs_nonneg _) (by positivity)
  have := (abs_le.1 h7).2
  linarith

include hn hfl hu0 hu in
/-- **C143** (`test_quasicvx2.py`, the cut).  In a box of size `R`, with new level at least minus one, the cut keeps the points with room up to `12·u·exp(R)·R`. -/
theorem C143_cut2 (hex : ExpErr u ex) {R : ℝ} (hR : 1 ≤ R) {x : Fin 2 → ℝ} (hxR : ∀ i, |x i| ≤ R) {t : ℝ} (ht : Rep p t) :
    ∃ g β t1, quasi2F fl ex x t = ((g, .scalar β), t1) ∧ 0 ≤ β ∧ (-1 ≤ t1.getD t → ∀ z, (∀ i, |z i| ≤ R) → ∀ δ, 0 ≤ δ → room2 (t1.getD t) z δ →
      g ⬝ᵥ (z - x) + β ≤ -δ + 12 * (u * (Real.exp R * R))) := by
  have hE := Real.exp_pos (x 0)
  have hT := hex.pos hu0 hu (x 0)
  have hEr := abs_le.1 (hex (x 0))
  have hM : R ≤ Real.exp R := by linarith [Real.add_one_le_exp R]
  have hEM : Real.exp (x 0) ≤ Real.exp R := Real.exp_le_exp.2 ((le_abs_self _).trans (hxR 0))
  have hx0 := abs_le.1 (hxR 0)
  have hx1 := abs_le.1 (hxR 1)
  have m6 : R * u ≤ u * (Real.exp R * R) := by
    have := mul_nonneg (mul_nonneg hu0 (by linarith : 0 ≤ R)) (by linarith : 0 ≤ Real.exp R - 1)
    linarith
  have m7 : Real.exp R * u ≤ u * (Real.exp R * R) := by
    have := mul_nonneg (mul_nonneg hu0 (Real.exp_pos R).le) (by linarith : 0 ≤ R - 1)
    linarith
  have m8 := mul_nonneg hu0 (mul_nonneg (Real.exp_pos R).le (by linarith : 0 ≤ R))
  have hsqrt : ∀ y, |y| ≤ R → √y ≤ R := fun y hy => by
    rw [Real.sqrt_le_left (by linarith)]
    have := le_abs_self y
    nlinarith
  rcases hq : quasi2F fl ex x t with ⟨c, _ | s⟩
  · unfold quasi2F at hq
    simp only at hq
    split_ifs at hq with h1 h2 h3 h4 <;> simp only [Prod.mk.injEq, reduceCtorEq, and_false, and_true] at hq
    · subst hq
      refine ⟨_, _, _, rfl, h1.le, fun _ z hz δ _ hr => ?_⟩
      have hz0 := abs_le.1 (hz 0)
      set E := Real.exp (x 0) with hEdef
      set T := ex (x 0)
      have htan := exp_tangent (x 0) (z 0)
      rw [← hEdef] at htan
      obtain ⟨d, hd, ed⟩ := rel_factor hfl hu0 hu (T - x 1)
      have hTE : T ≤ 2 * E := by nlinarith
      have i4 : |(T - E) * (1 + (z 0 - x 0))| ≤ u * Real.exp R * (3 * R) := by
        rw [abs_mul]
        refine mul_le_mul ((hex (x 0)).trans (mul_le_mul_of_nonneg_left hEM hu0)) (by rw [abs_le]; constructor <;> linarith) (abs_nonneg _) (by positivity)
      have i5 : |(T - x 1) * d| ≤ (R + 2 * Real.exp R) * u := by
        rw [abs_mul]
        refine mul_le_mul ?_ hd (abs_nonneg _) (by positivity)
        rw [abs_le]; constructor <;> linarith
      have e : ![T, -1] ⬝ᵥ (z - x) + fl (T - x 1) = (E + E * (z 0 - x 0) - z 1) + (T - E) * (1 + (z 0 - x 0)) + (T - x 1) * d := by
        rw [dot2, ed]
        simp only [cons_val_zero, cons_val_one, Pi.sub_apply]
        ring
      rw [e]
      have m4 := (abs_le.1 i4).2
      have m5 := (abs_le.1 i5).2
      have := hr.1
      linarith
    · exfalso
      exact h1 (rel_pos hfl hu0 hu (by linarith))
    · subst hq
      refine ⟨_, _, _, rfl, by linarith, fun _ z hz δ _ hr => ?_⟩
      have := hr.2.1
      rw [dot2]
      simp only [cons_val_zero, cons_val_one, Pi.sub_apply]
      linarith
    · subst hq
      have hx : 0 < x 0 := not_le.1 h3
      have hy : 0 < x 1 := not_le.1 h2
      have hsq : 0 < √(x 0) := Real.sqrt_pos.2 hx
      refine ⟨_, _, _, rfl, not_lt.1 h4, fun ht1 z hz δ hδ hr => ?_⟩
      simp only [Option.getD_none] at ht1 hr
      have hstep := sqrt_step hfl hu0 hu hx (hδ.trans hr.2.1) (hsqrt _ (hxR 0)) (hsqrt _ (hz 0))
      have hqR := hsqrt _ (hxR 0)
      set q := √(x 0)
      obtain ⟨a, ha, ea⟩ := rel_factor hfl hu0 hu q
      obtain ⟨b, hb, eb⟩ := rel_factor hfl hu0 hu (t * x 1)
      obtain ⟨d, hd, ed⟩ := rel_factor hfl hu0 hu (-fl q - fl (t * x 1))
      have hfq := rel_pos hfl hu0 hu hsq
      have htneg : t * x 1 < 0 := by
        by_contra hc
        have h5 := nearest_nonneg hn (not_lt.1 hc)
        have h6 := rel_pos hfl hu0 hu (x := fl q + fl (t * x 1)) (by linarith)
        have h7 := nearest_nonpos hn (x := -fl q - fl (t * x 1)) (by linarith)
        have h8 : fl (-fl q - fl (t * x 1)) = 0 := le_antisymm h7 (not_lt.1 h4)
        rw [ed] at h8
        have hd' := abs_le.1 hd
        rcases mul_eq_zero.1 h8 with h8 | h8 <;> linarith
      have ht' : t < 0 := by
        by_contra hc
        exact absurd (mul_nonneg (not_lt.1 hc) hy.le) (not_le.2 htneg)
      have hty : |t * x 1| ≤ R := by
        rw [abs_mul, abs_of_neg ht']
        calc -t * |x 1| ≤ 1 * |x 1| := mul_le_mul_of_nonneg_right (by linarith) (abs_nonneg _)
          _ ≤ R := by rw [one_mul]; exact hxR 1
      have i1 : |q * a| ≤ R * u := by rw [abs_mul, abs_of_pos hsq]; exact mul_le_mul hqR ha (abs_nonneg _) (by linarith)
      have i2 : |t * x 1 * b| ≤ R * u := by rw [abs_mul]; exact mul_le_mul hty hb (abs_nonneg _) (by linarith)
      have hRu : R * u ≤ R := by nlinarith
      have hfl1 : |fl q| ≤ 2 * R := by
        rw [ea, mul_add, mul_one]
        have := abs_add_le q (q * a)
        rw [abs_of_pos hsq] at this
        linarith
      have hfl2 : |fl (t * x 1)| ≤ 2 * R := by
        rw [eb, mul_add, mul_one]
        have := abs_add_le (t * x 1) (t * x 1 * b)
        linarith
      have i3 : |(-fl q - fl (t * x 1)) * d| ≤ 4 * R * u := by
        rw [abs_mul]
        refine mul_le_mul ?_ hd (abs_nonneg _) (by positivity)
        have := abs_sub (-fl q) (fl (t * x 1))
        rw [abs_neg] at this
        linarith
      have e : ![fl (-0.5 / fl q), -t] ⬝ᵥ (z - x) + fl (-fl q - fl (t * x 1)) =
          fl (-0.5 / fl q) * (z 0 - x 0) - t * z 1 - q - q * a - t * x 1 * b + (-fl q - fl (t * x 1)) * d := by
        rw [dot2, ed]
        simp only [cons_val_zero, cons_val_one, Pi.sub_apply]
        have : t * x 1 = fl (t * x 1) - t * x 1 * b := by rw [eb]; ring
        have h9 : q = fl q - q * a := by rw [ea]; ring
        linear_combination this + h9
      rw [e]
      have m1 := (abs_le.1 i1).1
      have m2 := (abs_le.1 i2).1
      have m3 := (abs_le.1 i3).2
      have := hr.2.2
      linarith
  · obtain ⟨-, k2, hx, hy, -, k5, rfl⟩ := C143_hit2 hn hfl hu0 hu hex ht hq
    refine ⟨_, _, _, rfl, le_rfl, fun ht1 z hz δ hδ hr => ?_⟩
    simp only [Option.getD_some] at ht1 hr
    have hstep := sqrt_step hfl hu0 hu hx (hδ.trans hr.2.1) (hsqrt _ (hxR 0)) (hsqrt _ (hz 0))
    have hqR := hsqrt _ (hxR 0)
    have i1 := mul_le_mul_of_nonneg_left hqR hu0
    rw [dot2]
    simp only [cons_val_zero, cons_val_one, Pi.sub_apply]
    have m1 := (abs_le.1 k5).2
    have := hr.2.2
    linarith
end

/-- `z = (sqrtx, ly)` is feasible for the program of `test_quasicvx.py` up to a factor `1 - ν`, `t` is its value up to `ν`, and not above the optimum by more than `ν`. -/
def QuasiNear1 (ν : ℝ) (z : Fin 2 → ℝ) (t : ℝ) : Prop :=
  0 < z 0 ∧ (1 - ν) * z 0 ^ 2 ≤ z 1 ∧ |t - quasiValue (z 0 ^ 2) (Real.exp (z 1))| ≤ ν ∧ t ≤ quasiOpt + ν

/-- Likewise for `test_quasicvx2.py`, where `z = (x, y)` and the objective has the opposite sign. -/
def QuasiNear2 (ν : ℝ) (z : Fin 2 → ℝ) (t : ℝ) : Prop :=
  0 < z 0 ∧ (1 - ν) * Real.exp (z 0) ≤ z 1 ∧ |t + quasiValue (z 0) (z 1)| ≤ ν ∧ -quasiOpt - ν ≤ t

theorem quasiNear1_of {ν s : ℝ} {z : Fin 2 → ℝ} (hu0 : 0 ≤ u) (hu : u ≤ 1 / 50) (hν : 5 * u ≤ ν) (hz : 0 < z 0) (h1 : (1 - u) * z 0 ^ 2 ≤ z 1)
    (h2 : |s * Real.exp (z 1) - z 0| ≤ 4 * (u * z 0)) : QuasiNear1 ν z s := by
  have hE := Real.exp_pos (z 1)
  obtain ⟨o1, o2⟩ := quasiOpt_num
  have hval : quasiValue (z 0 ^ 2) (Real.exp (z 1)) = z 0 / Real.exp (z 1) := by unfold quasiValue; rw [Real.sqrt_sq hz.le]
  have h3 : (1 - u) * (z 0 / Real.exp (z 1)) ≤ quasiOpt := by
    have h4 := C98_opt.1 ((1 - u) * z 0 ^ 2) (Real.exp ((1 - u) * z 0 ^ 2)) ⟨le_rfl, by have := sq_nonneg (z 0); nlinarith⟩
    refine le_trans ?_ h4
    unfold quasiValue
    rw [← mul_div_assoc]
    refine div_le_div₀ (Real.sqrt_nonneg _) ?_ (Real.exp_pos _) (Real.exp_le_exp.2 h1)
    apply Real.le_sqrt_of_sq_le
    nlinarith [mul_nonneg (mul_nonneg (by linarith : 0 ≤ 1 - u) hu0) (sq_nonneg (z 0))]
  have h0 : 0 < z 0 / Real.exp (z 1) := div_pos hz hE
  set v := z 0 / Real.exp (z 1) with hv
  have hv1 : v ≤ quasiOpt * (1 + 2 * u) := by
    have k1 := mul_le_mul_of_nonneg_right h3 (by linarith : 0 ≤ 1 + 2 * u)
    have k2 := mul_nonneg (mul_nonneg hu0 (by linarith : 0 ≤ 1 - 2 * u)) h0.le
    linarith
  have hv2 : v ≤ 1 := by nlinarith
  have h5 : |s - v| ≤ 4 * u := by
    have e : s - v = (s * Real.exp (z 1) - z 0) / Real.exp (z 1) := by rw [hv]; field_simp
    rw [e, abs_div, abs_of_pos hE, div_le_iff₀ hE]
    refine h2.trans ?_
    have : z 0 ≤ Real.exp (z 1) := by rwa [hv, div_le_one hE] at hv2
    nlinarith
  refine ⟨hz, ?_, ?_, ?_⟩
  · refine le_trans (mul_le_mul_of_nonneg_right (by linarith) (sq_nonneg _)) h1
  · rw [hval]; linarith
  · have := (abs_le.1 h5).2
    nlinarith

theorem quasiNear2_of {ν s : ℝ} {z : Fin 2 → ℝ} (hu0 : 0 ≤ u) (hu : u ≤ 1 / 50) (hν : 5 * u ≤ ν) (hz : 0 < z 0) (hy : 0 < z 1) (h1 : (1 - u) * Real.exp (z 0) ≤ z 1)
    (h2 : |s * z 1 + √(z 0)| ≤ 3 * (u * √(z 0))) : QuasiNear2 ν z s := by
  have hE := Real.exp_pos (z 0)
  obtain ⟨o1, o2⟩ := quasiOpt_num
  have h3 : (1 - u) * (√(z 0) / z 1) ≤ quasiOpt := by
    have h4 := C98_opt.1 (z 0) (Real.exp (z 0)) ⟨le_rfl, hz.le⟩
    refine le_trans ?_ h4
    unfold quasiValue
    rw [← mul_div_assoc, div_le_div_iff₀ hy hE]
    have := mul_le_mul_of_nonneg_left h1 (Real.sqrt_nonneg (z 0))
    linarith
  have h0 : 0 < √(z 0) / z 1 := div_pos (Real.sqrt_pos.2 hz) hy
  set v := √(z 0) / z 1 with hv
  have hv1 : v ≤ quasiOpt * (1 + 2 * u) := by
    have k1 := mul_le_mul_of_nonneg_right h3 (by linarith : 0 ≤ 1 + 2 * u)
    have k2 := mul_nonneg (mul_nonneg hu0 (by linarith : 0 ≤ 1 - 2 * u)) h0.le
    linarith
  have hv2 : v ≤ 1 := by nlinarith
  have h5 : |s + v| ≤ 4 * u := by
    have e : s + v = (s * z 1 + √(z 0)) / z 1 := by rw [hv]; field_simp
    rw [e, abs_div, abs_of_pos hy, div_le_iff₀ hy]
    refine h2.trans ?_
    have : √(z 0) ≤ z 1 := by rwa [hv, div_le_one hy] at hv2
    nlinarith
  refine ⟨hz, ?_, ?_, ?_⟩
  · refine le_trans (mul_le_mul_of_nonneg_right (by linarith) hE.le) h1
  · unfold quasiValue; linarith
  · have := (abs_le.1 h5).1
    nlinarith

theorem dc_feasible {W X C T : Type _} [DecidableEq T] {Ω : X → T → W → Except PyErr (W × C × Option T)} {S : Space W X C ℝ} {t0 t : T} {o : Options ℝ} {w w' : W} {xb : Option X} {info : CInfo}
    (h : cuttingPlaneDc Ω S t0 o w = .ok (w', xb, t, info)) : info.feasible = decide (t ≠ t0) := by
  obtain ⟨s, i, -, -, -, rfl, rfl⟩ := dc_ok h
  rfl

/-- **C143** (`test_quasicvx.py`).  A first ellipsoid with a representable centre that contains a small ball near the optimum.  There are an `N`, a number of bits, an accuracy of `math.exp` and a tolerance,
none of them zero, such that from any representable start level `t₀ ≥ 0`: a run with `max_it ≥ N` that returns has a level above `opt - 4r`; unless nothing was found, the level is at most `opt + r`, is the value
at the returned point up to `r`, and the point is feasible up to a factor `1 - r`; started above `opt + r` the run reports infeasible.  If `t₀ ≤ opt - 4r`, such a point is found within `N` oracle calls,
before which nothing is raised. -/
theorem C143_quasi1 {E₀ : Ell 2} (hE : E₀.Proper) {r : ℝ} (h0 : 0 < r) (h1 : r ≤ 1 / 10) (hball : euclBall ![√(1 / 2), 1 / 2 + 4 * r] r ⊆ E₀.pts) :
    ∃ (N p₀ : ℕ) (ζ₀ tol₀ : ℝ), 0 < ζ₀ ∧ 0 < tol₀ ∧ ∀ p fl, p₀ ≤ p → Nearest p fl → ∀ ex, ExpErr ζ₀ ex → VecRep p E₀.xc → ∀ tol, tol ≤ tol₀ → ∀ t0, Rep p t0 → 0 ≤ t0 →
      let Ω := fun x t => liftOracle (pureOracle (quasi1F fl ex) x t)
      let S := (Ell.spaceF fl (vecDot fl)).beside Unit
      (∀ m : Int, (N : Int) ≤ m → ∀ w' xb t info, cuttingPlaneDc Ω S t0 ⟨m, tol⟩ ((), E₀) = .ok (w', xb, t, info) →
        quasiOpt - 4 * r < t ∧ ((xb = none ∧ t = t0) ∨ ∃ z, xb = some z ∧ t0 ≤ t ∧ QuasiNear1 r z t) ∧ (quasiOpt + r < t0 → info.feasible = false)) ∧
      (t0 ≤ quasiOpt - 4 * r → ∃ (j : ℕ) (log : _) (P : Unit × Ell 2) (c : _) (s : ℝ), j < N ∧ DcRounds Ω S tol t0 ((), E₀) j log P ∧
        quasi1F fl ex P.2.xc (bestT t0 log) = (c, some s) ∧ quasiOpt - 4 * r < s ∧ QuasiNear1 r P.2.xc s) := by
  obtain ⟨N, R, ε₀, tol₀, hR, hK, hε, htol₀, main⟩ := C143_levels (W := Unit) (T := ℝ) hE h0 (half_pos h0) hball
  obtain ⟨o1, o2⟩ := quasiOpt_num
  set R' := max 1 R
  have hR1 : 1 ≤ R' := le_max_left _ _
  have hB : 0 < Real.exp R' * R' := by positivity
  set ζ := min ε₀ (min (1 / 50) (min (r / 5) (r / 2 / (12 * (Real.exp R' * R'))))) with hζdef
  have hζ : 0 < ζ := by positivity
  obtain ⟨p₀, hp₀⟩ := bits_precise 0 2 hζ
  refine ⟨N, p₀, ζ, tol₀, hζ, htol₀, fun p fl hp hfl ex hex hx₀ tol htol t0 ht0 ht0' => ?_⟩
  obtain ⟨v, hv0, hv, e1, -, e3⟩ := hp₀ p fl hp hfl
  have f1 : RelErr ζ fl := fun x => (e1 x).trans (mul_le_mul_of_nonneg_right hv (abs_nonneg _))
  have f3 : VecDotErr ζ (vecDot (n := 2) fl) := fun x y => (e3 x y).trans (mul_le_mul_of_nonneg_right hv (Finset.sum_nonneg fun _ _ => abs_nonneg _))
  have z1 : ζ ≤ ε₀ := min_le_left _ _
  have z2 : ζ ≤ 1 / 50 := (min_le_right _ _).trans (min_le_left _ _)
  have z3 : 5 * ζ ≤ r := by
    have : ζ ≤ r / 5 := (min_le_right _ _).trans ((min_le_right _ _).trans (min_le_left _ _))
    linarith
  have z4 : 12 * (ζ * (Real.exp R' * R')) ≤ r / 2 := by
    have : ζ ≤ r / 2 / (12 * (Real.exp R' * R')) := (min_le_right _ _).trans ((min_le_right _ _).trans (min_le_right _ _))
    rw [le_div_iff₀ (by positivity)] at this
    linarith
  have hhit : ∀ x t s c, VecRep p x → Rep p t → t0 ≤ t → quasi1F fl ex x t = (c, some s) → Rep p s ∧ t0 ≤ s ∧ t ≤ s ∧ QuasiNear1 r x s := by
    intro x t s c hx ht htt hq
    obtain ⟨a1, a2, a3, a4, a5, -⟩ := C143_hit1 hfl f1 hζ.le z2 hex hx ht (ht0'.trans htt) hq
    exact ⟨a1, htt.trans a2, a2, quasiNear1_of hζ.le z2 z3 a3 a4 a5⟩
  have hpure : ∀ {x t w w' c s}, pureOracle (quasi1F fl ex) x t w = .ok (w', c, s) → quasi1F fl ex x t = (c, s) := fun h => by
    simp only [pureOracle, Except.ok.injEq, Prod.mk.injEq] at h
    exact h.2
  have hcuts : LevelCuts p (euclBall ![√(1 / 2), 1 / 2 + 4 * r] r) (fun t => Rep p t ∧ t0 ≤ t) (fun t => t ≤ quasiOpt - 4 * r) R (r / 2) (fun _ : Unit => True) (pureOracle (quasi1F fl ex)) := by
    constructor
    · rintro x t w w' c s hx ⟨ht, htt⟩ hq
      obtain ⟨a1, a2, a3, -⟩ := hhit x t s c hx ht htt (hpure hq)
      exact ⟨⟨a1, a2⟩, fun h => a3.trans h⟩
    · rintro x hx hxR t w - ⟨ht, htt⟩ hbad
      obtain ⟨g, β, t1, b1, b2, b3⟩ := C143_cut1 hfl f1 hζ.le z2 hex hR1 hx (fun i => (hxR i).trans (le_max_right _ _)) ht (ht0'.trans htt)
      refine ⟨w, g, β, t1, by simp only [pureOracle, b1], trivial, b2, fun hb z hz => ?_⟩
      have := b3 (by linarith) z (fun i => (hK z hz i).trans (le_max_right _ _)) r (room1_ball h0 h1 hb z hz)
      linarith
  obtain ⟨r1, r2⟩ := main ζ hζ.le z1 p fl (vecDot fl) hfl f1 f3 tol htol _ _ _ _ hcuts hx₀ () trivial t0 ⟨ht0, le_rfl⟩
  dsimp only
  refine ⟨fun m hm w' xb t info h => ?_, fun hbad => ?_⟩
  · have q1 := r1 m hm w' xb t info h
    obtain ⟨-, q2⟩ := (dc_guarded hfl (fun x t w w' c s a1 a2 a3 => (hcuts.lev x t w w' c s a1 a2 a3).1) hx₀ ⟨ht0, le_rfl⟩ _).2 w' xb t info h
    have q3 : (xb = none ∧ t = t0) ∨ ∃ z, xb = some z ∧ t0 ≤ t ∧ QuasiNear1 r z t := by
      rcases q2 with q2 | ⟨x, s, w, w1, c, q2, q3, ⟨q4, q5⟩, q6⟩
      · exact .inl q2
      · obtain ⟨-, a2, -, a4⟩ := hhit x s t c q3 q4 q5 (hpure q6)
        exact .inr ⟨x, q2, a2, a4⟩
    refine ⟨not_le.1 q1, q3, fun hlt => ?_⟩
    rcases q3 with ⟨-, q3⟩ | ⟨z, -, q4, -, -, -, q5⟩
    · rw [dc_feasible h]; simp [q3]
    · linarith
  · obtain ⟨k, log, P, w', c, s, q1, q2, -, -, q3, ⟨q4, q5⟩, -, q6, q7⟩ := r2 hbad
    exact ⟨k, log, P, c, s, q1, q2, hpure q6, not_le.1 q7, (hhit _ _ _ _ q3 q4 q5 (hpure q6)).2.2.2⟩

/-- **C143** (`test_quasicvx2.py`), likewise, from any representable start level; this oracle minimises. -/
theorem C143_quasi2 {E₀ : Ell 2} (hE : E₀.Proper) {r : ℝ} (h0 : 0 < r) (h1 : r ≤ 1 / 10) (hball : euclBall ![1 / 2, Real.exp (1 / 2) + 4 * r] r ⊆ E₀.pts) :
    ∃ (N p₀ : ℕ) (ζ₀ tol₀ : ℝ), 0 < ζ₀ ∧ 0 < tol₀ ∧ ∀ p fl, p₀ ≤ p → Nearest p fl → ∀ ex, ExpErr ζ₀ ex → VecRep p E₀.xc → ∀ tol, tol ≤ tol₀ → ∀ t0, Rep p t0 →
      let Ω := fun x t => liftOracle (pureOracle (quasi2F fl ex) x t)
      let S := (Ell.spaceF fl (vecDot fl)).beside Unit
      (∀ m : Int, (N : Int) ≤ m → ∀ w' xb t info, cuttingPlaneDc Ω S t0 ⟨m, tol⟩ ((), E₀) = .ok (w', xb, t, info) →
        t < -quasiOpt + 4 * r ∧ ((xb = none ∧ t = t0) ∨ ∃ z, xb = some z ∧ t ≤ t0 ∧ QuasiNear2 r z t) ∧ (t0 < -quasiOpt - r → info.feasible = false)) ∧
      (-quasiOpt + 4 * r ≤ t0 → ∃ (j : ℕ) (log : _) (P : Unit × Ell 2) (c : _) (s : ℝ), j < N ∧ DcRounds Ω S tol t0 ((), E₀) j log P ∧
        quasi2F fl ex P.2.xc (bestT t0 log) = (c, some s) ∧ s < -quasiOpt + 4 * r ∧ QuasiNear2 r P.2.xc s) := by
  obtain ⟨N, R, ε₀, tol₀, hR, hK, hε, htol₀, main⟩ := C143_levels (W := Unit) (T := ℝ) hE h0 (half_pos h0) hball
  obtain ⟨o1, o2⟩ := quasiOpt_num
  set R' := max 1 R
  have hR1 : 1 ≤ R' := le_max_left _ _
  have hB : 0 < Real.exp R' * R' := by positivity
  set ζ := min ε₀ (min (1 / 50) (min (r / 5) (r / 2 / (12 * (Real.exp R' * R'))))) with hζdef
  have hζ : 0 < ζ := by positivity
  obtain ⟨p₀, hp₀⟩ := bits_precise 0 2 hζ
  refine ⟨N, p₀, ζ, tol₀, hζ, htol₀, fun p fl hp hfl ex hex hx₀ tol htol t0 ht0 => ?_⟩
  obtain ⟨v, hv0, hv, e1, -, e3⟩ := hp₀ p fl hp hfl
  have f1 : RelErr ζ fl := fun x => (e1 x).trans (mul_le_mul_of_nonneg_right hv (abs_nonneg _))
  have f3 : VecDotErr ζ (vecDot (n := 2) fl) := fun x y => (e3 x y).trans (mul_le_mul_of_nonneg_right hv (Finset.sum_nonneg fun _ _ => abs_nonneg _))
  have z1 : ζ ≤ ε₀ := min_le_left _ _
  have z2 : ζ ≤ 1 / 50 := (min_le_right _ _).trans (min_le_left _ _)
  have z3 : 5 * ζ ≤ r := by
    have : ζ ≤ r / 5 := (min_le_right _ _).trans ((min_le_right _ _).trans (min_le_left _ _))
    linarith
  have z4 : 12 * (ζ * (Real.exp R' * R')) ≤ r / 2 := by
    have : ζ ≤ r / 2 / (12 * (Real.exp R' * R')) := (min_le_right _ _).trans ((min_le_right _ _).trans (min_le_right _ _))
    rw [le_div_iff₀ (by positivity)] at this
    linarith
  have hhit : ∀ x t s c, Rep p t → t ≤ t0 → quasi2F fl ex x t = (c, some s) → Rep p s ∧ s ≤ t0 ∧ s ≤ t ∧ QuasiNear2 r x s := by
    intro x t s c ht htt hq
    obtain ⟨a1, a2, a3, a3', a4, a5, -⟩ := C143_hit2 hfl f1 hζ.le z2 hex ht hq
    exact ⟨a1, a2.trans htt, a2, quasiNear2_of hζ.le z2 z3 a3 a3' a4 a5⟩
  have hpure : ∀ {x t w w' c s}, pureOracle (quasi2F fl ex) x t w = .ok (w', c, s) → quasi2F fl ex x t = (c, s) := fun h => by
    simp only [pureOracle, Except.ok.injEq, Prod.mk.injEq] at h
    exact h.2
  have hcuts : LevelCuts p (euclBall ![1 / 2, Real.exp (1 / 2) + 4 * r] r) (fun t => Rep p t ∧ t ≤ t0) (fun t => -quasiOpt + 4 * r ≤ t) R (r / 2) (fun _ : Unit => True) (pureOracle (quasi2F fl ex)) := by
    constructor
    · rintro x t w w' c s hx ⟨ht, htt⟩ hq
      obtain ⟨a1, a2, a3, -⟩ := hhit x t s c ht htt (hpure hq)
      exact ⟨⟨a1, a2⟩, fun h => le_trans h a3⟩
    · rintro x hx hxR t w - ⟨ht, htt⟩ hbad
      obtain ⟨g, β, t1, b1, b2, b3⟩ := C143_cut2 hfl f1 hζ.le z2 hex hR1 (fun i => (hxR i).trans (le_max_right _ _)) ht
      refine ⟨w, g, β, t1, by simp only [pureOracle, b1], trivial, b2, fun hb z hz => ?_⟩
      have := b3 (by linarith) z (fun i => (hK z hz i).trans (le_max_right _ _)) r h0.le (room2_ball h0 h1 hb z hz)
      linarith
  obtain ⟨r1, r2⟩ := main ζ hζ.le z1 p fl (vecDot fl) hfl f1 f3 tol htol _ _ _ _ hcuts hx₀ () trivial t0 ⟨ht0, le_rfl⟩
  dsimp only
  refine ⟨fun m hm w' xb t info h => ?_, fun hbad => ?_⟩
  · have q1 := r1 m hm w' xb t info h
    obtain ⟨-, q2⟩ := (dc_guarded hfl (fun x t w w' c s a1 a2 a3 => (hcuts.lev x t w w' c s a1 a2 a3).1) hx₀ ⟨ht0, le_rfl⟩ _).2 w' xb t info h
    have q3 : (xb = none ∧ t = t0) ∨ ∃ z, xb = some z ∧ t ≤ t0 ∧ QuasiNear2 r z t := by
      rcases q2 with q2 | ⟨x, s, w, w1, c, q2, q3, ⟨q4, q5⟩, q6⟩
      · exact .inl q2
      · obtain ⟨-, a2, -, a4⟩ := hhit x s t c q4 q5 (hpure q6)
        exact .inr ⟨x, q2, a2, a4⟩
    refine ⟨not_le.1 q1, q3, fun hlt => ?_⟩
    rcases q3 with ⟨-, q3⟩ | ⟨z, -, q4, -, -, -, q5⟩
    · rw [dc_feasible h]; simp [q3]
    · linarith
  · obtain ⟨k, log, P, w', c, s, q1, q2, -, -, q3, ⟨q4, q5⟩, -, q6, q7⟩ := r2 hbad
    exact ⟨k, log, P, c, s, q1, q2, hpure q6, not_le.1 q7, (hhit _ _ _ _ q4 q5 (hpure q6)).2.2.2⟩

/-- **C143** (`test_quasicvx.py:test_case_feasible`).  `ell(10, (0,0))`, start level 0, with or without the deferral trick: for any accuracy there are a number of iterations, a number of bits, an accuracy of
`math.exp` and a tolerance for which a run that returns is feasible and within `acc` of the optimum `0.4288…`, which is the value at the returned point up to `acc`; and such a point is found. -/
theorem C143_test_quasicvx (nd : Bool) {acc : ℝ} (hacc : 0 < acc) (hacc1 : acc ≤ 2 / 5) :
    ∃ (N p₀ : ℕ) (ζ₀ tol₀ : ℝ), 0 < ζ₀ ∧ 0 < tol₀ ∧ ∀ p fl, p₀ ≤ p → Nearest p fl → ∀ ex, ExpErr ζ₀ ex → ∀ tol, tol ≤ tol₀ →
      let Ω := fun x t => liftOracle (pureOracle (quasi1F fl ex) x t)
      let S := (Ell.spaceF fl (vecDot fl)).beside Unit
      let w₀ : Unit × Ell 2 := ((), ⟨true, nd, ![0, 0], 1, 10⟩)
      (∀ m : Int, (N : Int) ≤ m → ∀ w' xb t info, cuttingPlaneDc Ω S 0 ⟨m, tol⟩ w₀ = .ok (w', xb, t, info) →
        info.feasible = true ∧ |t - quasiOpt| ≤ acc ∧ ∃ z, xb = some z ∧ QuasiNear1 acc z t) ∧
      (∃ (j : ℕ) (log : _) (P : Unit × Ell 2) (c : _) (s : ℝ), j < N ∧ DcRounds Ω S tol 0 w₀ j log P ∧
        quasi1F fl ex P.2.xc (bestT 0 log) = (c, some s) ∧ |s - quasiOpt| ≤ acc ∧ QuasiNear1 acc P.2.xc s) ∧
      (7 ≤ p → ∀ m : Int, (N : Int) ≤ m → ∀ w' xb t info, cuttingPlaneDc Ω S 100 ⟨m, tol⟩ w₀ = .ok (w', xb, t, info) → info.feasible = false) := by
  have e10 : (10 : ℝ) = √10 ^ 2 := (Real.sq_sqrt (by norm_num)).symm
  have hpts : (⟨true, nd, ![0, 0], 1, 10⟩ : Ell 2).pts = euclBall ![0, 0] √10 := by
    have := euclBall_eq_pts (n := 2) (by norm_num) ![0, 0] √10 true nd
    rwa [← e10] at this
  obtain ⟨hs, hs1, hs2⟩ := sqrt_half
  obtain ⟨o1, o2⟩ := quasiOpt_num
  have hmono : ∀ {z t}, QuasiNear1 (acc / 4) z t → QuasiNear1 acc z t := fun {z t} ⟨a1, a2, a3, a4⟩ =>
    ⟨a1, by nlinarith [sq_nonneg (z 0)], by linarith, by linarith⟩
  obtain ⟨N, p₀, ζ₀, tol₀, h1, h2, h3⟩ := C143_quasi1 (E₀ := ⟨true, nd, ![0, 0], 1, 10⟩) (r := acc / 4) ⟨by norm_num, Matrix.PosDef.one, by norm_num⟩ (by linarith) (by linarith) (by
    rw [hpts]
    intro z hz
    obtain ⟨b0, b1⟩ := ball2 (by linarith) hz
    change ∑ i, (z i - (![0, 0] : Fin 2 → ℝ) i) ^ 2 ≤ √10 ^ 2
    rw [← e10, Fin.sum_univ_two]
    simp only [cons_val_zero, cons_val_one, sub_zero] at b0 b1 ⊢
    rw [abs_le] at b0 b1
    have c0 : |z 0| ≤ 2 := by rw [abs_le]; constructor <;> linarith
    have c1 : |z 1| ≤ 2 := by rw [abs_le]; constructor <;> linarith
    have d0 := (sq_le_sq₀ (abs_nonneg _) (by norm_num)).2 c0
    have d1 := (sq_le_sq₀ (abs_nonneg _) (by norm_num)).2 c1
    rw [sq_abs] at d0 d1
    linarith)
  have hx₀ : ∀ p, VecRep p (![0, 0] : Fin 2 → ℝ) := fun p i => by fin_cases i <;> exact rep_zero
  refine ⟨N, p₀, ζ₀, tol₀, h1, h2, fun p fl hp hfl ex hex tol htol => ?_⟩
  obtain ⟨q1, q2⟩ := h3 p fl hp hfl ex hex (hx₀ p) tol htol 0 rep_zero le_rfl
  dsimp only
  refine ⟨fun m hm w' xb t info h => ?_, ?_, fun h7 m hm w' xb t info h => ?_⟩
  · obtain ⟨r1, r2, -⟩ := q1 m hm w' xb t info h
    rcases r2 with ⟨-, r2⟩ | ⟨z, r2, r3, r4⟩
    · linarith
    · refine ⟨?_, ?_, z, r2, hmono r4⟩
      · rw [dc_feasible h]; simp; linarith
      · have := r4.2.2.2
        rw [abs_le]; constructor <;> linarith
  · obtain ⟨j, log, P, c, s, a1, a2, a3, a4, a5⟩ := q2 (by linarith)
    refine ⟨j, log, P, c, s, a1, a2, a3, ?_, hmono a5⟩
    have := a5.2.2.2
    rw [abs_le]; constructor <;> linarith
  · have h100 : Rep p (100 : ℝ) := by
      have := rep_int (α := ℝ) (p := p) (z := 100) (by
        rw [show |(100 : ℤ)| = 100 by norm_num]
        exact le_trans (by norm_num) (pow_le_pow_right₀ (by norm_num : (1 : ℤ) ≤ 2) h7))
      simpa using this
    exact ((h3 p fl hp hfl ex hex (hx₀ p) tol htol 100 h100 (by norm_num)).1 m hm w' xb t info h).2.2 (by linarith)

/-- **C143** (`test_quasicvx2.py:test_case_feasible`), likewise: `ell(10, (1,1))`, start level 0. -/
theorem C143_test_quasicvx2 (nd : Bool) {acc : ℝ} (hacc : 0 < acc) (hacc1 : acc ≤ 2 / 5) :
    ∃ (N p₀ : ℕ) (ζ₀ tol₀ : ℝ), 0 < ζ₀ ∧ 0 < tol₀ ∧ ∀ p fl, p₀ ≤ p → Nearest p fl → ∀ ex, ExpErr ζ₀ ex → ∀ tol, tol ≤ tol₀ →
      let Ω := fun x t => liftOracle (pureOracle (quasi2F fl ex) x t)
      let S := (Ell.spaceF fl (vecDot fl)).beside Unit
      let w₀ : Unit × Ell 2 := ((), ⟨true, nd, ![1, 1], 1, 10⟩)
      (∀ m : Int, (N : Int) ≤ m → ∀ w' xb t info, cuttingPlaneDc Ω S 0 ⟨m, tol⟩ w₀ = .ok (w', xb, t, info) →
        info.feasible = true ∧ |t + quasiOpt| ≤ acc ∧ ∃ z, xb = some z ∧ QuasiNear2 acc z t) ∧
      (∃ (j : ℕ) (log : _) (P : Unit × Ell 2) (c : _) (s : ℝ), j < N ∧ DcRounds Ω S tol 0 w₀ j log P ∧
        quasi2F fl ex P.2.xc (bestT 0 log) = (c, some s) ∧ |s + quasiOpt| ≤ acc ∧ QuasiNear2 acc P.2.xc s) ∧
      (7 ≤ p → ∀ m : Int, (N : Int) ≤ m → ∀ w' xb t info, cuttingPlaneDc Ω S (-100) ⟨m, tol⟩ w₀ = .ok (w', xb, t, info) → info.feasible = false) := by
  have e10 : (10 : ℝ) = √10 ^ 2 := (Real.sq_sqrt (by norm_num)).symm
  have hpts : (⟨true, nd, ![1, 1], 1, 10⟩ : Ell 2).pts = euclBall ![1, 1] √10 := by
    have := euclBall_eq_pts (n := 2) (by norm_num) ![1, 1] √10 true nd
    rwa [← e10] at this
  obtain ⟨x1, x2⟩ := exp_half_num
  obtain ⟨o1, o2⟩ := quasiOpt_num
  have hmono : ∀ {z t}, QuasiNear2 (acc / 4) z t → QuasiNear2 acc z t := fun {z t} ⟨a1, a2, a3, a4⟩ =>
    ⟨a1, by nlinarith [Real.exp_pos (z 0)], by linarith, by linarith⟩
  obtain ⟨N, p₀, ζ₀, tol₀, h1, h2, h3⟩ := C143_quasi2 (E₀ := ⟨true, nd, ![1, 1], 1, 10⟩) (r := acc / 4) ⟨by norm_num, Matrix.PosDef.one, by norm_num⟩ (by linarith) (by linarith) (by
    rw [hpts]
    intro z hz
    obtain ⟨b0, b1⟩ := ball2 (by linarith) hz
    change ∑ i, (z i - (![1, 1] : Fin 2 → ℝ) i) ^ 2 ≤ √10 ^ 2
    rw [← e10, Fin.sum_univ_two]
    simp only [cons_val_zero, cons_val_one] at b0 b1 ⊢
    rw [abs_le] at b0 b1
    have c0 : |z 0 - 1| ≤ 2 := by rw [abs_le]; constructor <;> linarith
    have c1 : |z 1 - 1| ≤ 2 := by rw [abs_le]; constructor <;> linarith
    have d0 := (sq_le_sq₀ (abs_nonneg _) (by norm_num)).2 c0
    have d1 := (sq_le_sq₀ (abs_nonneg _) (by norm_num)).2 c1
    rw [sq_abs] at d0 d1
    linarith)
  have hx₀ : ∀ p, VecRep p (![1, 1] : Fin 2 → ℝ) := fun p i => by
    have : Rep p (1 : ℝ) := by simpa using rep_pow (α := ℝ) (p := p) 0
    fin_cases i <;> exact this
  refine ⟨N, p₀, ζ₀, tol₀, h1, h2, fun p fl hp hfl ex hex tol htol => ?_⟩
  obtain ⟨q1, q2⟩ := h3 p fl hp hfl ex hex (hx₀ p) tol htol 0 rep_zero
  dsimp only
  refine ⟨fun m hm w' xb t info h => ?_, ?_, fun h7 m hm w' xb t info h => ?_⟩
  · obtain ⟨r1, r2, -⟩ := q1 m hm w' xb t info h
    rcases r2 with ⟨-, r2⟩ | ⟨z, r2, r3, r4⟩
    · linarith
    · refine ⟨?_, ?_, z, r2, hmono r4⟩
      · rw [dc_feasible h]; simp; linarith
      · have := r4.2.2.2
        rw [abs_le]; constructor <;> linarith
  · obtain ⟨j, log, P, c, s, a1, a2, a3, a4, a5⟩ := q2 (by linarith)
    refine ⟨j, log, P, c, s, a1, a2, a3, ?_, hmono a5⟩
    have := a5.2.2.2
    rw [abs_le]; constructor <;> linarith
  · have h100 : Rep p (-100 : ℝ) := by
      have := rep_int (α := ℝ) (p := p) (z := -100) (by
        rw [show |(-100 : ℤ)| = 100 by norm_num]
        exact le_trans (by norm_num) (pow_le_pow_right₀ (by norm_num : (1 : ℤ) ≤ 2) h7))
      simpa using this
    exact ((h3 p fl hp hfl ex hex (hx₀ p) tol htol (-100) h100).1 m hm w' xb t info h).2.2 (by linarith)

end Verif
