import Verif.Props.LowDiscr
import Mathlib.Analysis.SpecialFunctions.Complex.Arg
import Mathlib.Analysis.SpecialFunctions.Trigonometric.Angle

/-!
# C80, C81: more about the generators of `low_discr_seq.tpy`

The spheres are covered: each point is the image of generator values in `[0, 1)`, and of only one choice of them apart from poles.
-/
namespace Verif
namespace LowDiscr

/-- The angles of a point of the unit circle. -/
theorem exists_turn {a b : ℝ} (h : a ^ 2 + b ^ 2 = 1) :
    ∃ v ∈ Set.Ico (0 : ℝ) 1, Real.sin (2 * Real.pi * v) = a ∧ Real.cos (2 * Real.pi * v) = b := by
  have hz : ‖(⟨b, a⟩ : ℂ)‖ = 1 := by
    rw [Complex.norm_def, Complex.normSq_mk, ← Real.sqrt_one]; congr 1; linarith
  have hz0 : (⟨b, a⟩ : ℂ) ≠ 0 := fun h0 => by rw [h0, norm_zero] at hz; exact zero_ne_one hz
  set θ := Complex.arg ⟨b, a⟩
  have hs : Real.sin θ = a := by rw [Complex.sin_arg, hz, div_one]
  have hc : Real.cos θ = b := by rw [Complex.cos_arg hz0, hz, div_one]
  have e : 2 * Real.pi * Int.fract (θ / (2 * Real.pi)) = θ - ⌊θ / (2 * Real.pi)⌋ * (2 * Real.pi) := by
    rw [Int.fract, mul_sub, mul_div_cancel₀ _ (by positivity), mul_comm (2 * Real.pi)]
  refine ⟨Int.fract (θ / (2 * Real.pi)), ⟨Int.fract_nonneg _, Int.fract_lt_one _⟩, ?_, ?_⟩
  · rw [e, Real.sin_sub_int_mul_two_pi, hs]
  · rw [e, Real.cos_sub_int_mul_two_pi, hc]

theorem turn_unique {v w : ℝ} (hv : v ∈ Set.Ico (0 : ℝ) 1) (hw : w ∈ Set.Ico (0 : ℝ) 1)
    (hs : Real.sin (2 * Real.pi * v) = Real.sin (2 * Real.pi * w)) (hc : Real.cos (2 * Real.pi * v) = Real.cos (2 * Real.pi * w)) : v = w := by
  obtain ⟨k, hk⟩ := Real.Angle.angle_eq_iff_two_pi_dvd_sub.1 (Real.Angle.cos_sin_inj hc hs)
  have h1 : v - w = k := by
    have hp : (2 * Real.pi) ≠ 0 := by positivity
    apply mul_left_cancel₀ hp; linarith
  have h2 : (-1 : ℝ) < k := by rw [← h1]; linarith [hv.1, hw.2]
  have h3 : (k : ℝ) < 1 := by rw [← h1]; linarith [hv.2, hw.1]
  have h4 : k = 0 := by
    have a1 : -1 < k := by exact_mod_cast h2
    have a2 : k < 1 := by exact_mod_cast h3
    omega
  rw [h4] at h1
  push_cast at h1
  linarith

/-- **C81**: `circle` maps the values `[0, 1)` of its generator one to one onto the whole unit circle. -/
theorem C81_circle_bij : Set.BijOn circlePt (Set.Ico 0 1) {p | ∑ i, p i ^ 2 = 1} := by
  refine ⟨fun v _ => C81_circle v, fun v hv w hw h => ?_, fun p hp => ?_⟩
  · exact turn_unique hv hw (congrFun h 0) (congrFun h 1)
  · have hp' : p 0 ^ 2 + p 1 ^ 2 = 1 := by rw [← Fin.sum_univ_two (fun i => p i ^ 2)]; exact hp
    obtain ⟨v, hv, h1, h2⟩ := exists_turn hp'
    refine ⟨v, hv, ?_⟩
    ext i
    fin_cases i
    · exact h1
    · exact h2

/-- A point of radius `r` in the plane. -/
theorem exists_turn_radius {a b r : ℝ} (hr : 0 ≤ r) (h : a ^ 2 + b ^ 2 = r ^ 2) :
    ∃ v ∈ Set.Ico (0 : ℝ) 1, r * Real.sin (2 * Real.pi * v) = a ∧ r * Real.cos (2 * Real.pi * v) = b := by
  rcases hr.eq_or_lt with rfl | hr
  · refine ⟨0, by simp, ?_, ?_⟩ <;> nlinarith [sq_nonneg a, sq_nonneg b]
  · obtain ⟨v, hv, h1, h2⟩ := exists_turn (a := a / r) (b := b / r) (by rw [div_pow, div_pow, ← add_div, h]; field_simp)
    exact ⟨v, hv, by rw [h1]; field_simp, by rw [h2]; field_simp⟩

/-- **C81**: `sphere` reaches every point of the unit sphere but the north pole, whose height it never takes; off the south pole from
only one pair of generator values.  The height is `2v - 1`, uniform where the generator is. -/
theorem C81_sphere_onto {p : Fin 3 → ℝ} (hp : ∑ i, p i ^ 2 = 1) (hN : p 2 ≠ 1) :
    ∃ v ∈ Set.Ico (0 : ℝ) 1, ∃ u ∈ Set.Ico (0 : ℝ) 1, spherePt v u = .ok p ∧ p 2 = 2 * v - 1 ∧
      ∀ v' u', spherePt v' u' = .ok p → v' = v ∧ (p 2 ≠ -1 → u' ∈ Set.Ico (0 : ℝ) 1 → u' = u) := by
  rw [Fin.sum_univ_three] at hp
  have h2 : -1 ≤ p 2 ∧ p 2 ≤ 1 := abs_le.1 (abs_le_one_iff_mul_self_le_one.2 (by nlinarith [sq_nonneg (p 0), sq_nonneg (p 1)]))
  have h2' : p 2 < 1 := lt_of_le_of_ne h2.2 hN
  have hr : 0 ≤ 1 - p 2 * p 2 := by nlinarith [sq_nonneg (p 0), sq_nonneg (p 1)]
  obtain ⟨u, hu, h3, h4⟩ := exists_turn_radius (Real.sqrt_nonneg (1 - p 2 * p 2)) (a := p 0) (b := p 1)
    (by rw [Real.sq_sqrt hr]; nlinarith)
  have e : ∀ v, v = (p 2 + 1) / 2 → 2 * v - 1 = p 2 := fun v hv => by rw [hv]; ring
  refine ⟨(p 2 + 1) / 2, ⟨by linarith, by linarith⟩, u, hu, ?_, (e _ rfl).symm, fun v' u' h => ?_⟩
  · simp only [spherePt, e _ rfl, pySqrt, if_neg (not_lt.2 hr), Except.ok.injEq]
    ext i
    fin_cases i
    · exact h3
    · exact h4
    · rfl
  · have hv' : v' = (p 2 + 1) / 2 := by
      simp only [spherePt] at h
      split at h
      · simp at h
      · have := congrFun (Except.ok.inj h) 2
        simp only [Matrix.cons_val] at this
        linarith
    refine ⟨hv', fun hS hu' => ?_⟩
    have hpos : 0 < √(1 - p 2 * p 2) := by
      apply Real.sqrt_pos.2
      have : -1 < p 2 := lt_of_le_of_ne h2.1 (Ne.symm hS)
      nlinarith
    simp only [spherePt, e _ hv', pySqrt, if_neg (not_lt.2 hr), Except.ok.injEq] at h
    have a0 : √(1 - p 2 * p 2) * Real.sin (2 * Real.pi * u') = p 0 := congrFun h 0
    have a1 : √(1 - p 2 * p 2) * Real.cos (2 * Real.pi * u') = p 1 := congrFun h 1
    exact turn_unique hu' hu (mul_left_cancel₀ hpos.ne' (a0.trans h3.symm)) (mul_left_cancel₀ hpos.ne' (a1.trans h4.symm))

/-- **C81**: `sphere3_hopf` reaches every point of the unit 3-sphere outside the circle `x₂ = x₃ = 0` (which it never meets). -/
theorem C81_sphere3_hopf_onto {p : Fin 4 → ℝ} (hp : ∑ i, p i ^ 2 = 1) (hN : p 2 ≠ 0 ∨ p 3 ≠ 0) :
    ∃ v0 ∈ Set.Ico (0 : ℝ) 1, ∃ v1 ∈ Set.Ico (0 : ℝ) 1, ∃ v2 ∈ Set.Ico (0 : ℝ) 1, hopfPt v0 v1 v2 = .ok p ∧
      p 0 ^ 2 + p 1 ^ 2 = v2 := by
  rw [Fin.sum_univ_four] at hp
  have h1 : 0 < p 2 ^ 2 + p 3 ^ 2 := by
    rcases hN with h | h
    · have := sq_pos_of_ne_zero h; nlinarith [sq_nonneg (p 3)]
    · have := sq_pos_of_ne_zero h; nlinarith [sq_nonneg (p 2)]
  set v2 := p 0 ^ 2 + p 1 ^ 2 with hv2
  have h0 : 0 ≤ v2 := by positivity
  have h0' : 0 ≤ 1 - v2 := by linarith
  obtain ⟨v1, hv1, a1, a2⟩ := exists_turn_radius (Real.sqrt_nonneg v2) (a := p 1) (b := p 0) (by rw [Real.sq_sqrt h0]; linarith)
  obtain ⟨w, -, b1, b2⟩ := exists_turn_radius (Real.sqrt_nonneg (1 - v2)) (a := p 3) (b := p 2) (by rw [Real.sq_sqrt h0']; linarith)
  have e : Int.fract (w - v1) * (2 * Real.pi) + 2 * Real.pi * v1 = 2 * Real.pi * w - ⌊w - v1⌋ * (2 * Real.pi) := by
    rw [Int.fract]; ring
  refine ⟨Int.fract (w - v1), ⟨Int.fract_nonneg _, Int.fract_lt_one _⟩, v1, hv1, v2, ⟨h0, by linarith⟩, ?_, rfl⟩
  simp only [hopfPt, pySqrt, if_neg (not_lt.2 h0), if_neg (not_lt.2 h0'), mul_comm v1, e, Real.sin_sub_int_mul_two_pi,
    Real.cos_sub_int_mul_two_pi, Except.ok.injEq]
  ext i
  fin_cases i
  · exact a2
  · exact a1
  · exact b2
  · exact b1

/-- **C80**: `halton_n(n, base)` raises exactly when there are fewer than `n` bases, then an IndexError. -/
theorem C80_halton_init (n : ℕ) (bs : List ℕ) : (bs.length < n → Halton.init n bs = .error .indexError) ∧
    (n ≤ bs.length → ∃ g, Halton.init n bs = .ok g ∧ g.gens.length = n ∧ ∀ i (h : i < g.gens.length) (h' : i < bs.length),
      (g.gens[i]).base = bs[i] ∧ (g.gens[i]).count = 0) := by
  refine ⟨fun h => if_pos h, fun h => ⟨⟨(bs.take n).map Vdcorput.init⟩, if_neg (not_lt.2 h), by simp [h], fun i hi hi' => ?_⟩⟩
  simp [Vdcorput.init]

/-- Concrete: the point `(0, 0, -1)` is `sphere`'s image of `(0, 0)`. -/
example : ∃ v ∈ Set.Ico (0 : ℝ) 1, ∃ u ∈ Set.Ico (0 : ℝ) 1, spherePt v u = .ok ![0, 0, -1] :=
  let ⟨v, hv, u, hu, h, _⟩ := C81_sphere_onto (p := ![0, 0, -1]) (by rw [Fin.sum_univ_three]; simp) (by simp; norm_num)
  ⟨v, hv, u, hu, h⟩

end LowDiscr
end Verif
