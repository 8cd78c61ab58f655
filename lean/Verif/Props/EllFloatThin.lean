import Verif.Props.EllFloatMore
import Verif.Proofs.EllVolume

/-!
# C117: thin parallel cuts in doubles

`_calc_ll_cc` divides `1 - xi` by `b1²/tsq`; for a thin slab both are tiny and `xi` is rounded.
-/
namespace Verif
open Matrix Ell FloatSpec
variable {n : ℕ} {fl : ℝ → ℝ} {dot : (Fin n → ℝ) → (Fin n → ℝ) → ℝ} {E : Ell n} {g : Fin n → ℝ}

/-- An accepted cut, step by step. -/
theorem updateF_accept {b : Beta} {ρ σ δ tsq : ℝ} {w : Fin n → ℝ} {o : ℝ} (hw : ∀ i, dot (E.Q i) g = w i) (ho : dot g w = o)
    (ho0 : o ≠ 0) (h : calcLlF fl n E.usePar (fl (E.kappa * o)) b = .ok (.accept ρ σ δ, tsq)) (hd : E.noDefer = false) :
    updateF fl dot (g, b) E = .ok ({ E with
      xc := fun i => fl (E.xc i - fl (fl (ρ / o) * w i))
      Q := fun i j => fl (E.Q i j - fl (fl (σ / o) * fl (w i * w j)))
      kappa := fl (E.kappa * δ) }, .success, tsq) := by
  have hdv : ∀ a, divF fl a o = .ok (fl (a / o)) := fun a => by
    unfold divF pyDiv; rw [if_neg ho0]; rfl
  simp only [updateF, ho, h, hdv, hw, hd]
  rfl

/-- A central parallel cut `(0, b1)` of an ellipsoid with `tsq = 1` in the plane, step by step. -/
theorem calcLlF_thin {b1 s s2 t t' ξ : ℝ} (h0 : 0 ≤ b1) (hb : fl b1 = b1) (hs : fl (b1 * b1) = s) (hs0 : s ≠ 0)
    (ht : fl (1 - s) = t) (ht0 : 0 ≤ t) (hss : fl s = s) (hs2 : fl (s ^ 2) = s2) (ht' : fl (t + s2) = t') (ht0' : 0 ≤ t')
    (hξ : fl √t' = ξ) :
    ∃ ρ, calcLlF fl 2 true 1 (.seq [0, b1]) = .ok (.accept ρ (fl (c3F fl 2 + fl (fl (c2F fl 2 * fl (1 - ξ)) / s)))
      (fl (c1F fl 2 * fl (fl (1 - fl (s / 2)) + fl (ξ / 2)))), 1) := by
  have hd1 : divF fl b1 1 = .ok b1 := by unfold divF pyDiv; simp [Except.map, hb]
  have hsq : sqrtF fl t' = .ok ξ := by
    unfold sqrtF; rw [pySqrt_ok.2 ⟨ht0', rfl⟩]; simp [Except.map, hξ]
  have hds : ∀ a, divF fl a s = .ok (fl (a / s)) := fun a => by unfold divF pyDiv; simp [Except.map, hs0]
  have hd2 : ∀ a, divF fl a ((2 : ℕ) : ℝ) = .ok (fl (a / 2)) := fun a => by unfold divF pyDiv; simp [Except.map]
  have hh : halfN 2 = 1 := by unfold halfN; norm_num
  have hcc : calcLlCcF fl 2 b1 s = .ok (.accept (fl (fl (fl (c3F fl 2 + fl (fl (c2F fl 2 * fl (1 - ξ)) / s)) * b1) / 2))
      (fl (c3F fl 2 + fl (fl (c2F fl 2 * fl (1 - ξ)) / s))) (fl (c1F fl 2 * fl (fl (1 - fl (s / 2)) + fl (ξ / 2))))) := by
    simp only [calcLlCcF, hh, one_mul, hss, hs2, ht, ht', hsq, hds, hd2, bind, Except.bind, pure, Except.pure]
  refine ⟨fl (fl (fl (c3F fl 2 + fl (fl (c2F fl 2 * fl (1 - ξ)) / s)) * b1) / 2), ?_⟩
  simp only [calcLlF, calcLlCoreF, hd1, hs, ht, bind, Except.bind, sub_zero, hb, hcc]
  rw [if_neg (by simp [not_lt.2 ht0]), if_neg (not_lt.2 h0), if_pos trivial]
  rfl

private theorem sqrt_near {x r e : ℝ} (h1 : (r - e) ^ 2 < x) (h2 : x < (r + e) ^ 2) (he : 0 ≤ r + e) :
    |r - √x| < e := by
  rw [abs_lt]
  have a := Real.lt_sqrt_of_sq_lt h1
  have b := (Real.sqrt_lt' (lt_of_le_of_ne he (by rintro h; rw [← h] at h2; nlinarith [sq_nonneg (r - e)]))).2 h2
  constructor <;> linarith

/-- **C117** (finding): conditioning is not the only danger.  In doubles, whatever is done with ties, the thin central parallel cut
`0 ≤ -x₀ ≤ 27/2^28` (about `10⁻⁷`) of the *unit disc* is accepted and makes the matrix indefinite: `1 - xi` has lost its digits, and
the computed `sigma` exceeds 1.  The next central cut then reports success with `tsq = 0`, at which the drivers stop. -/
theorem C117_thin_indefinite (hfl : Nearest 53 fl) :
    ∃ E₁ E₂, updateF fl (vecDot fl) (![1, 0], .seq [0, 27 / 2 ^ 28]) (⟨true, false, 0, 1, 1⟩ : Ell 2) = .ok (E₁, .success, 1) ∧
      (∃ y, y ⬝ᵥ E₁.Q *ᵥ y < 0) ∧
      updateF fl (vecDot fl) (![1, 0], .scalar 0) E₁ = .ok (E₂, .success, 0) := by
  have ex : ∀ {x : ℝ} (m e : ℤ), |m| ≤ 2 ^ 53 → x = m * 2 ^ e → fl x = x := fun m e hm hx => hfl.rounding.exact _ ⟨m, e, hm, hx⟩
  have h1 : fl 1 = 1 := ex 1 0 (by norm_num) (by norm_num)
  have h0 : fl 0 = 0 := hfl.rounding.exact _ rep_zero
  have hrel := hfl.relErr
  have hw : ∀ i, vecDot fl ((1 : Matrix (Fin 2) (Fin 2) ℝ) i) ![1, 0] = (![1, 0] : Fin 2 → ℝ) i := by
    intro i
    fin_cases i
    · exact vecDot_two hfl (a := 1) (b := 0)
        (by change fl (1 * 1) = 1; rw [mul_one, h1]) (by change fl (0 * 0) = 0; rw [mul_zero, h0]) (by rw [add_zero, h1]; rfl)
    · exact vecDot_two hfl (a := 0) (b := 0)
        (by change fl (0 * 1) = 0; rw [mul_one, h0]) (by change fl (1 * 0) = 0; rw [mul_zero, h0]) (by rw [add_zero, h0]; rfl)
  have ho : vecDot fl ![1, 0] ![1, 0] = 1 :=
    vecDot_two hfl (a := 1) (b := 0) (by simpa using h1) (by simpa using h0) (by simpa using h1)
  have ht : fl (1 - 729 / 2 ^ 56) = 1 - 91 / 2 ^ 53 := by
    have : fl (1 - 729 / 2 ^ 56) = (2 ^ 53 - 91 : ℤ) * 2 ^ (-53 : ℤ) :=
      hfl.eq (by norm_num) (by norm_num) (by norm_num) (by norm_num) (by norm_num [abs_lt])
    rw [this]; norm_num
  have ht' : fl (1 - 91 / 2 ^ 53 + 531441 / 2 ^ 112) = 1 - 91 / 2 ^ 53 := by
    have : fl (1 - 91 / 2 ^ 53 + 531441 / 2 ^ 112) = (2 ^ 53 - 91 : ℤ) * 2 ^ (-53 : ℤ) :=
      hfl.eq (by norm_num) (by norm_num) (by norm_num) (by norm_num) (by norm_num [abs_lt])
    rw [this]; norm_num
  have hξ : fl √(1 - 91 / 2 ^ 53) = 1 - 46 / 2 ^ 53 := by
    have hn := sqrt_near (x := 1 - 91 / 2 ^ 53) (r := 1 - 46 / 2 ^ 53) (e := 1 / 2 ^ 54) (by norm_num)
      (by norm_num) (by norm_num)
    have : fl √(1 - 91 / 2 ^ 53) = (2 ^ 53 - 46 : ℤ) * 2 ^ (-53 : ℤ) := by
      refine hfl.eq (by norm_num) (by norm_num) (by norm_num) ?_ ?_
      · have := Real.le_sqrt_of_sq_le (show ((1 : ℝ) / 2) ^ 2 ≤ 1 - 91 / 2 ^ 53 by norm_num)
        refine le_trans ?_ this
        norm_num
      · have e : (((2 ^ 53 - 46 : ℤ) : ℝ) * 2 ^ (-53 : ℤ)) = 1 - 46 / 2 ^ 53 := by norm_num
        rw [e]
        refine lt_of_lt_of_le (mul_lt_mul_of_pos_left hn two_pos) ?_
        norm_num
    rw [this]; norm_num
  obtain ⟨ρ, hc⟩ := calcLlF_thin (fl := fl) (b1 := 27 / 2 ^ 28) (s := 729 / 2 ^ 56) (s2 := 531441 / 2 ^ 112)
    (t := 1 - 91 / 2 ^ 53) (t' := 1 - 91 / 2 ^ 53) (ξ := 1 - 46 / 2 ^ 53) (by norm_num)
    (ex 27 (-28) (by norm_num) (by norm_num))
    (by rw [show (27 / 2 ^ 28 * (27 / 2 ^ 28) : ℝ) = 729 / 2 ^ 56 by norm_num]; exact ex 729 (-56) (by norm_num) (by norm_num))
    (by norm_num) ht (by norm_num) (ex 729 (-56) (by norm_num) (by norm_num))
    (by rw [show ((729 / 2 ^ 56) ^ 2 : ℝ) = 531441 / 2 ^ 112 by norm_num]; exact ex 531441 (-112) (by norm_num) (by norm_num))
    ht' (by norm_num) hξ
  set σ := fl (c3F fl 2 + fl (fl (c2F fl 2 * fl (1 - (1 - 46 / 2 ^ 53))) / (729 / 2 ^ 56))) with hσ
  set δ := fl (c1F fl 2 * fl (fl (1 - fl (729 / 2 ^ 56 / 2)) + fl ((1 - 46 / 2 ^ 53) / 2))) with hδ
  have hc2 : fl (2 / 3) = 6004799503160661 / 2 ^ 53 := by
    have : fl (2 / 3) = (6004799503160661 : ℤ) * 2 ^ (-53 : ℤ) :=
      hfl.eq (by norm_num) (by norm_num) (by norm_num) (by norm_num) (by norm_num [abs_lt])
    rw [this]; norm_num
  have mono := hfl.rounding.mono
  have hσ1 : 1 + 1 / 512 ≤ σ := by
    have e2 : c2F fl 2 = 6004799503160661 / 2 ^ 53 := by
      rw [c2F, show (2 : ℝ) / ((2 : ℕ) + 1) = 2 / 3 by norm_num, hc2]
    have e3 : c3F fl 2 = 6004799503160661 / 2 ^ 53 := by
      rw [c3F, show (((2 : ℕ) : ℝ)) / ((2 : ℕ) + 1) = 2 / 3 by norm_num, hc2]
    have e4 : fl (1 - (1 - 46 / 2 ^ 53)) = 46 / 2 ^ 53 := by
      rw [show (1 : ℝ) - (1 - 46 / 2 ^ 53) = 46 / 2 ^ 53 by norm_num]; exact ex 46 (-53) (by norm_num) (by norm_num)
    rw [e2, e4] at hσ
    rw [e3] at hσ
    -- `fl` is monotone and keeps the short numbers below
    have a1 : (245 / 8 : ℝ) / 2 ^ 53 ≤ fl (6004799503160661 / 2 ^ 53 * (46 / 2 ^ 53)) := by
      have := (abs_le.1 (hrel (6004799503160661 / 2 ^ 53 * (46 / 2 ^ 53)))).1
      norm_num at this ⊢
      linarith
    have a2 : (43 / 128 : ℝ) ≤ fl (fl (6004799503160661 / 2 ^ 53 * (46 / 2 ^ 53)) / (729 / 2 ^ 56)) := by
      have := mono (show (43 / 128 : ℝ) ≤ fl (6004799503160661 / 2 ^ 53 * (46 / 2 ^ 53)) / (729 / 2 ^ 56) by
        rw [le_div_iff₀ (by norm_num)]; norm_num at a1 ⊢; linarith)
      rwa [ex 43 (-7) (by norm_num) (by norm_num)] at this
    rw [hσ]
    have := mono (show (1 + 1 / 512 : ℝ) ≤
        6004799503160661 / 2 ^ 53 + fl (fl (6004799503160661 / 2 ^ 53 * (46 / 2 ^ 53)) / (729 / 2 ^ 56)) by
      norm_num at a2 ⊢; linarith)
    rwa [ex 513 (-9) (by norm_num) (by norm_num)] at this
  have hδ1 : 1 ≤ δ := by
    have b1 : (1 : ℝ) ≤ c1F fl 2 := by
      rw [c1F, show ((2 : ℕ) : ℝ) * (2 : ℕ) - 1 = 3 by norm_num, ex (x := 3) 3 0 (by norm_num) (by norm_num),
        show ((2 : ℕ) : ℝ) * (2 : ℕ) / 3 = 4 / 3 by norm_num]
      have := mono (show (1 : ℝ) ≤ 4 / 3 by norm_num)
      rwa [h1] at this
    have b2 : (1 / 2 : ℝ) ≤ fl (1 - fl (729 / 2 ^ 56 / 2)) := by
      rw [ex (x := 729 / 2 ^ 56 / 2) 729 (-57) (by norm_num) (by norm_num)]
      have := mono (show (1 / 2 : ℝ) ≤ 1 - 729 / 2 ^ 56 / 2 by norm_num)
      rwa [ex (x := 1 / 2) 1 (-1) (by norm_num) (by norm_num)] at this
    have b3 : (3 / 4 : ℝ) ≤ fl (1 - fl (729 / 2 ^ 56 / 2)) := by
      rw [ex (x := 729 / 2 ^ 56 / 2) 729 (-57) (by norm_num) (by norm_num)]
      have := mono (show (3 / 4 : ℝ) ≤ 1 - 729 / 2 ^ 56 / 2 by norm_num)
      rwa [ex (x := 3 / 4) 3 (-2) (by norm_num) (by norm_num)] at this
    have b4 : (1 / 4 : ℝ) ≤ fl ((1 - 46 / 2 ^ 53) / 2) := by
      have := mono (show (1 / 4 : ℝ) ≤ (1 - 46 / 2 ^ 53) / 2 by norm_num)
      rwa [ex (x := 1 / 4) 1 (-2) (by norm_num) (by norm_num)] at this
    have b5 : (1 : ℝ) ≤ fl (fl (1 - fl (729 / 2 ^ 56 / 2)) + fl ((1 - 46 / 2 ^ 53) / 2)) := by
      have := mono (show (1 : ℝ) ≤ fl (1 - fl (729 / 2 ^ 56 / 2)) + fl ((1 - 46 / 2 ^ 53) / 2) by linarith)
      rwa [h1] at this
    have := mono (one_le_mul_of_one_le_of_one_le b1 b5)
    rwa [h1] at this
  have s1 := updateF_accept (fl := fl) (dot := vecDot fl) (g := ![1, 0]) (b := .seq [0, 27 / 2 ^ 28]) (tsq := 1)
    (E := (⟨true, false, 0, 1, 1⟩ : Ell 2)) (ρ := ρ) (σ := σ) (δ := δ) hw ho one_ne_zero
    (by simp only [mul_one, h1]; exact hc) rfl
  -- the new matrix
  have hσσ : 1 + 1 / 512 ≤ fl (fl (σ / 1) * 1) := by
    have e : fl (1 + 1 / 512) = 1 + 1 / 512 := ex 513 (-9) (by norm_num) (by norm_num)
    have h2 := mono hσ1
    rw [e] at h2
    have h3 := mono h2
    rw [e] at h3
    rwa [div_one, mul_one]
  set a := fl (1 - fl (fl (σ / 1) * 1)) with ha
  have ha0 : a ≤ -(1 / 512) := by
    have := mono (show 1 - fl (fl (σ / 1) * 1) ≤ -(1 / 512) by linarith)
    rwa [ex (x := -(1 / 512)) (-1) (-9) (by norm_num) (by norm_num)] at this
  have hQ : (fun i j => fl ((1 : Matrix (Fin 2) (Fin 2) ℝ) i j -
      fl (fl (σ / 1) * fl ((![1, 0] : Fin 2 → ℝ) i * (![1, 0] : Fin 2 → ℝ) j)))) =
      (!![a, 0; 0, 1] : Matrix (Fin 2) (Fin 2) ℝ) := by
    ext i j
    fin_cases i <;> fin_cases j
    · change fl (1 - fl (fl (σ / 1) * fl (1 * 1))) = a
      rw [mul_one, h1]
    · change fl (0 - fl (fl (σ / 1) * fl (1 * 0))) = 0
      simp [h0]
    · change fl (0 - fl (fl (σ / 1) * fl (0 * 1))) = 0
      simp [h0]
    · change fl (1 - fl (fl (σ / 1) * fl (0 * 0))) = 1
      simp [h0, h1]
  simp only [hQ] at s1
  set κ := fl (1 * δ) with hκ
  have hκ1 : 1 ≤ κ := by
    have := mono (show (1 : ℝ) ≤ 1 * δ by linarith)
    rwa [h1] at this
  have haa : fl a = a := hfl.rounding.exact _ (hfl _).1
  refine ⟨_, _, s1, ⟨![1, 0], ?_⟩, updateF_central (τ := 0) (tsq := 0) (w := ![a, 0]) (o := a) ?_ ?_ (by linarith) ?_ rfl⟩
  · have : (![1, 0] : Fin 2 → ℝ) ⬝ᵥ (!![a, 0; 0, 1] : Matrix (Fin 2) (Fin 2) ℝ) *ᵥ ![1, 0] = a := by
      simp [dotProduct, mulVec, Fin.sum_univ_two]
    rw [this]; linarith
  · intro i
    fin_cases i
    · exact vecDot_two hfl (a := a) (b := 0) (by simpa using haa) (by simpa using h0) (by simpa using haa)
    · exact vecDot_two hfl (a := 0) (b := 0) (by simpa using h0) (by simpa using h0) (by simpa using h0)
  · exact vecDot_two hfl (a := a) (b := 0) (by simpa using haa) (by simpa using h0) (by simpa using haa)
  · have hneg : fl (κ * a) < 0 := by
      have := mono (show κ * a ≤ -(1 / 512) by nlinarith)
      rw [ex (x := -(1 / 512)) (-1) (-9) (by norm_num) (by norm_num)] at this
      linarith
    have hs : sqrtF fl (fl (κ * a)) = .error .valueError := by
      unfold sqrtF pySqrt; rw [if_pos hneg]; rfl
    simp only [calcDcF, hs]
    simp [h0]

/-- Doubles within `2^-55` of 1 are rounded to 1. -/
private theorem fl_near_one (hfl : Nearest 53 fl) {x : ℝ} (h : |1 - x| ≤ 1 / 2 ^ 55) : fl x = 1 := by
  have h' := abs_le.1 h
  have := hfl.eq (x := x) (m := 2 ^ 53) (e := -53) (by norm_num) (by norm_num) (by norm_num)
    (by have := h'.2; norm_num at this ⊢; linarith)
    (by
      have e : (((2 ^ 53 : ℤ) : ℝ) * 2 ^ (-53 : ℤ)) = 1 := by norm_num
      rw [e]; norm_num at h ⊢; linarith)
  rw [this]; norm_num

/-- **C117** (finding): and thinner parallel cuts make the ellipsoid *grow*.  In doubles, whatever is done with ties, for every double
`0 < b1 ≤ 2^-28` the central parallel cut `0 ≤ -x₀ ≤ b1` of the unit disc is accepted, and the area of the new ellipsoid is larger
than that of the old one (the square of the area grows by more than 30 %), although the slice that is left is arbitrarily thin. -/
theorem C117_thin_grows (hfl : Nearest 53 fl) {b1 : ℝ} (hb : Rep 53 b1) (h0b : 0 < b1) (hb1 : b1 ≤ 1 / 2 ^ 28) :
    ∃ E₁, updateF fl (vecDot fl) (![1, 0], .seq [0, b1]) (⟨true, false, 0, 1, 1⟩ : Ell 2) = .ok (E₁, .success, 1) ∧
      1.3 * ((1 : ℝ) ^ 2 * (1 : Matrix (Fin 2) (Fin 2) ℝ).det) < E₁.kappa ^ 2 * E₁.Q.det := by
  have ex : ∀ {x : ℝ} (m e : ℤ), |m| ≤ 2 ^ 53 → x = m * 2 ^ e → fl x = x := fun m e hm hx => hfl.rounding.exact _ ⟨m, e, hm, hx⟩
  have h1 : fl 1 = 1 := ex 1 0 (by norm_num) (by norm_num)
  have h0 : fl 0 = 0 := hfl.rounding.exact _ rep_zero
  have mono := hfl.rounding.mono
  have hrel := hfl.relErr
  have hs0 : 0 < fl (b1 * b1) := by
    have hp := mul_pos h0b h0b
    have := (abs_le.1 (hrel (b1 * b1))).1
    rw [abs_of_pos hp] at this
    norm_num at this
    nlinarith
  have hs1 : fl (b1 * b1) ≤ 1 / 2 ^ 56 := by
    have := mono (show b1 * b1 ≤ 1 / 2 ^ 56 by norm_num at hb1 ⊢; nlinarith)
    rwa [ex (x := 1 / 2 ^ 56) 1 (-56) (by norm_num) (by norm_num)] at this
  set s := fl (b1 * b1) with hs
  have hss : fl s = s := hfl.rounding.exact _ (hfl _).1
  have hs2 : 0 ≤ fl (s ^ 2) ∧ fl (s ^ 2) ≤ 1 / 2 ^ 56 := by
    refine ⟨by have := mono (sq_nonneg s); rwa [h0] at this, ?_⟩
    have := mono (show s ^ 2 ≤ 1 / 2 ^ 56 by norm_num at hs1 ⊢; nlinarith)
    rwa [ex (x := 1 / 2 ^ 56) 1 (-56) (by norm_num) (by norm_num)] at this
  obtain ⟨ρ, hc⟩ := calcLlF_thin (fl := fl) (b1 := b1) (s := s) (s2 := fl (s ^ 2)) (t := 1) (t' := 1) (ξ := 1) h0b.le
    (hfl.rounding.exact _ hb) hs.symm hs0.ne'
    (fl_near_one hfl (by rw [abs_le]; norm_num at hs1 ⊢; constructor <;> linarith)) zero_le_one hss rfl
    (fl_near_one hfl (by rw [abs_le]; norm_num at hs2 ⊢; constructor <;> linarith)) zero_le_one (by rw [Real.sqrt_one, h1])
  have e3 : fl (c3F fl 2 + fl (fl (c2F fl 2 * fl (1 - 1)) / s)) = c3F fl 2 := by
    rw [sub_self, h0, mul_zero, h0, zero_div, h0, add_zero]
    exact hfl.rounding.exact _ (hfl _).1
  have e1 : fl (fl (1 - fl (s / 2)) + fl (1 / 2)) = 3 / 2 := by
    have hh : 0 ≤ fl (s / 2) ∧ fl (s / 2) ≤ 1 / 2 ^ 56 := by
      refine ⟨by have := mono (show 0 ≤ s / 2 by linarith); rwa [h0] at this, ?_⟩
      have := mono (show s / 2 ≤ 1 / 2 ^ 56 by norm_num at hs1 ⊢; linarith)
      rwa [ex (x := 1 / 2 ^ 56) 1 (-56) (by norm_num) (by norm_num)] at this
    rw [fl_near_one hfl (x := 1 - fl (s / 2)) (by rw [abs_le]; norm_num at hh ⊢; constructor <;> linarith),
      ex (x := 1 / 2) 1 (-1) (by norm_num) (by norm_num), show (1 : ℝ) + 1 / 2 = 3 / 2 by norm_num]
    exact ex 3 (-1) (by norm_num) (by norm_num)
  rw [e3, e1] at hc
  have hw : ∀ i, vecDot fl ((1 : Matrix (Fin 2) (Fin 2) ℝ) i) ![1, 0] = (![1, 0] : Fin 2 → ℝ) i := by
    intro i
    fin_cases i
    · exact vecDot_two hfl (a := 1) (b := 0)
        (by change fl (1 * 1) = 1; rw [mul_one, h1]) (by change fl (0 * 0) = 0; rw [mul_zero, h0]) (by rw [add_zero, h1]; rfl)
    · exact vecDot_two hfl (a := 0) (b := 0)
        (by change fl (0 * 1) = 0; rw [mul_one, h0]) (by change fl (1 * 0) = 0; rw [mul_zero, h0]) (by rw [add_zero, h0]; rfl)
  have ho : vecDot fl ![1, 0] ![1, 0] = 1 :=
    vecDot_two hfl (a := 1) (b := 0) (by simpa using h1) (by simpa using h0) (by simpa using h1)
  have s1 := updateF_accept (fl := fl) (dot := vecDot fl) (g := ![1, 0]) (b := .seq [0, b1]) (tsq := 1)
    (E := (⟨true, false, 0, 1, 1⟩ : Ell 2)) (ρ := ρ) (σ := c3F fl 2) (δ := fl (c1F fl 2 * (3 / 2))) hw ho one_ne_zero
    (by simp only [mul_one, h1]; exact hc) rfl
  have hcc : fl (c3F fl 2) = c3F fl 2 := hfl.rounding.exact _ (hfl _).1
  set a := fl (1 - c3F fl 2) with ha
  have hQ : (fun i j => fl ((1 : Matrix (Fin 2) (Fin 2) ℝ) i j -
      fl (fl (c3F fl 2 / 1) * fl ((![1, 0] : Fin 2 → ℝ) i * (![1, 0] : Fin 2 → ℝ) j)))) =
      (!![a, 0; 0, 1] : Matrix (Fin 2) (Fin 2) ℝ) := by
    ext i j
    fin_cases i <;> fin_cases j
    · change fl (1 - fl (fl (c3F fl 2 / 1) * fl (1 * 1))) = a
      rw [mul_one, h1, div_one, mul_one, hcc, hcc]
    · change fl (0 - fl (fl (c3F fl 2 / 1) * fl (1 * 0))) = 0
      simp [h0]
    · change fl (0 - fl (fl (c3F fl 2 / 1) * fl (0 * 1))) = 0
      simp [h0]
    · change fl (1 - fl (fl (c3F fl 2 / 1) * fl (0 * 0))) = 1
      simp [h0, h1]
  simp only [hQ] at s1
  refine ⟨_, s1, ?_⟩
  have c3u : c3F fl 2 ≤ 683 / 1024 := by
    rw [c3F, show (((2 : ℕ) : ℝ)) / ((2 : ℕ) + 1) = 2 / 3 by norm_num]
    have := mono (show (2 / 3 : ℝ) ≤ 683 / 1024 by norm_num)
    rwa [ex (x := 683 / 1024) 683 (-10) (by norm_num) (by norm_num)] at this
  have al : 341 / 1024 ≤ a := by
    have := mono (show (341 / 1024 : ℝ) ≤ 1 - c3F fl 2 by linarith)
    rwa [ex (x := 341 / 1024) 341 (-10) (by norm_num) (by norm_num)] at this
  have c1l : 1365 / 1024 ≤ c1F fl 2 := by
    rw [c1F, show ((2 : ℕ) : ℝ) * (2 : ℕ) - 1 = 3 by norm_num, ex (x := 3) 3 0 (by norm_num) (by norm_num),
      show ((2 : ℕ) : ℝ) * (2 : ℕ) / 3 = 4 / 3 by norm_num]
    have := mono (show (1365 / 1024 : ℝ) ≤ 4 / 3 by norm_num)
    rwa [ex (x := 1365 / 1024) 1365 (-10) (by norm_num) (by norm_num)] at this
  have kl : 4095 / 2048 ≤ fl (1 * fl (c1F fl 2 * (3 / 2))) := by
    have e : fl (4095 / 2048 : ℝ) = 4095 / 2048 := ex 4095 (-11) (by norm_num) (by norm_num)
    have h2 := mono (show (4095 / 2048 : ℝ) ≤ c1F fl 2 * (3 / 2) by linarith)
    rw [e] at h2
    have h3 := mono (show (4095 / 2048 : ℝ) ≤ 1 * fl (c1F fl 2 * (3 / 2)) by linarith)
    rwa [e] at h3
  have hd : (!![a, 0; 0, 1] : Matrix (Fin 2) (Fin 2) ℝ).det = a := by simp [Matrix.det_fin_two]
  change _ < fl (1 * fl (c1F fl 2 * (3 / 2))) ^ 2 * (!![a, 0; 0, 1] : Matrix (Fin 2) (Fin 2) ℝ).det
  rw [hd, Matrix.det_one]
  have hk2 : (4095 / 2048 : ℝ) ^ 2 ≤ fl (1 * fl (c1F fl 2 * (3 / 2))) ^ 2 := pow_le_pow_left₀ (by norm_num) kl 2
  have := mul_le_mul hk2 al (by norm_num) (by positivity)
  norm_num at this ⊢
  linarith

/-- A cut of width `10⁻⁹` or so: `b1 = 2^-30`. -/
example (hfl : Nearest 53 fl) :
    ∃ E₁, updateF fl (vecDot fl) (![1, 0], .seq [0, 1 / 2 ^ 30]) (⟨true, false, 0, 1, 1⟩ : Ell 2) = .ok (E₁, .success, 1) ∧
      1.3 * ((1 : ℝ) ^ 2 * (1 : Matrix (Fin 2) (Fin 2) ℝ).det) < E₁.kappa ^ 2 * E₁.Q.det :=
  C117_thin_grows hfl ⟨1, -30, by norm_num, by norm_num⟩ (by norm_num) (by norm_num)

/-- The rounding of IEEE 754 meets the hypothesis. -/
example := C117_thin_indefinite (ieee_nearest (p := 53) (by norm_num))

end Verif
