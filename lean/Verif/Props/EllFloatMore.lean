import Verif.Props.EllFloat
import Verif.Props.CholFloat

/-!
# C117: an ellipsoid in floating point, continued

What holds without any assumption on the rounding, the verdict "no solution", doubles, and how positive definiteness is lost.
-/
namespace Verif
open Matrix Ell FloatSpec
variable {n : ℕ}

section
variable {u ε C b β : ℝ} {fl : ℝ → ℝ} {dot : (Fin n → ℝ) → (Fin n → ℝ) → ℝ} {E : Ell n} {g : Fin n → ℝ}

/-- Inversion of a rounded update. -/
theorem updateF_ok {E' : Ell n} {cut : (Fin n → ℝ) × Beta} {st : CUTStatus} {tsq : ℝ} (h : updateF fl dot cut E = .ok (E', st, tsq)) :
    (E' = E ∧ calcLlF fl n E.usePar (fl (E.kappa * dot cut.1 fun i => dot (E.Q i) cut.1)) cut.2 = .ok (.reject st, tsq)) ∨
    (st = .success ∧ ∃ ρ so δ xc, ∃ Q : Matrix (Fin n) (Fin n) ℝ,
      (∀ i j, Q i j = fl (E.Q i j - fl (so * fl (dot (E.Q i) cut.1 * dot (E.Q j) cut.1)))) ∧
      (∀ i, xc i = fl (E.xc i - fl (ρ * dot (E.Q i) cut.1))) ∧
      E' = if E.noDefer then { E with xc := xc, Q := fun i j => fl (Q i j * δ) } else { E with xc := xc, Q := Q, kappa := fl (E.kappa * δ) }) := by
  simp only [updateF] at h
  split at h
  · simp at h
  · rename_i hc
    simp only [Except.ok.injEq, Prod.mk.injEq] at h
    obtain ⟨rfl, rfl, rfl⟩ := h
    exact .inl ⟨rfl, hc⟩
  · right
    split at h
    · rename_i ro so _ _
      by_cases hd : E.noDefer
      · rw [if_pos hd] at h
        simp only [Except.ok.injEq, Prod.mk.injEq] at h
        obtain ⟨rfl, rfl, -⟩ := h
        exact ⟨rfl, ro, so, _, _, _, fun _ _ => rfl, fun _ => rfl, by rw [if_pos hd]⟩
      · rw [if_neg hd] at h
        simp only [Except.ok.injEq, Prod.mk.injEq] at h
        obtain ⟨rfl, rfl, -⟩ := h
        exact ⟨rfl, ro, so, _, _, _, fun _ _ => rfl, fun _ => rfl, by rw [if_neg hd]⟩
    · simp at h

/-- **C117**: whatever the rounding and however the dot products are summed, with any kind of cut the matrix stays exactly symmetric. -/
theorem C117_symmetric {E' : Ell n} {cut : (Fin n → ℝ) × Beta} {st : CUTStatus} {tsq : ℝ} (hQ : E.Qᵀ = E.Q)
    (h : updateF fl dot cut E = .ok (E', st, tsq)) : E'.Qᵀ = E'.Q := by
  have hs : ∀ i j, E.Q j i = E.Q i j := fun i j => congrFun (congrFun hQ i) j
  rcases updateF_ok h with ⟨rfl, -⟩ | ⟨-, ρ, so, δ, xc, Q, hQ', -, rfl⟩
  · exact hQ
  · have h1 : ∀ i j, Q j i = Q i j := fun i j => by rw [hQ', hQ', hs i j, mul_comm (dot (E.Q j) cut.1)]
    split_ifs
    · ext i j; change fl (Q j i * δ) = fl (Q i j * δ); rw [h1]
    · ext i j; exact h1 i j

/-- **C117**: an update that reports anything but success leaves the ellipsoid as it was. -/
theorem C117_reject {E' : Ell n} {cut : (Fin n → ℝ) × Beta} {st : CUTStatus} {tsq : ℝ} (hst : st ≠ .success)
    (h : updateF fl dot cut E = .ok (E', st, tsq)) : E' = E := by
  rcases updateF_ok h with ⟨rfl, -⟩ | ⟨rfl, -⟩
  · rfl
  · exact absurd rfl hst

/-- **C117**: without rounding it is the update of the real model. -/
theorem C117_exact (cut : (Fin n → ℝ) × Beta) : updateF id (· ⬝ᵥ ·) cut E = update cut E := by
  have hd : ∀ a b, divF id a b = pyDiv a b := fun a b => by unfold divF; cases pyDiv a b <;> rfl
  have hq : ∀ a, sqrtF id a = pySqrt a := fun a => by unfold sqrtF; cases pySqrt a <;> rfl
  have h1 : ∀ tsq β, calcDcF id n tsq β = calcDc n tsq β := fun tsq β => by
    simp only [calcDcF, calcDc, hd, hq, calcCcF, calcCc, c1F, c2F, c1, c2, id]
    rfl
  have h2 : ∀ b1 b1sqn, calcLlCcF id n b1 b1sqn = calcLlCc n b1 b1sqn := fun b1 b1sqn => by
    simp only [calcLlCcF, calcLlCc, hd, hq, c1F, c2F, c3F, c1, c2, c3, id]
  have h3 : ∀ up tsq b0 b1, calcLlCoreF id n up tsq b0 b1 = calcLlCore n up tsq b0 b1 := fun up tsq b0 b1 => by
    simp only [calcLlCoreF, calcLlCore, hd, hq, h1, h2, c1F, c3F, c1, c3, id]
  have h4 : ∀ up tsq bs, calcLlF id n up tsq bs = calcLl n up tsq bs := fun up tsq bs => by
    rcases bs with b | (_ | ⟨b0, _ | ⟨b1, l⟩⟩)
    · exact h1 _ _
    · rfl
    · exact h1 _ _
    · exact h3 _ _ _ _
  have hv : (fun i => E.Q i ⬝ᵥ cut.1) = E.Q *ᵥ cut.1 := rfl
  have hv' : ∀ i, E.Q i ⬝ᵥ cut.1 = (E.Q *ᵥ cut.1) i := fun _ => rfl
  simp only [updateF, update, hd, h4, id, hv]
  rcases calcLl n E.usePar (E.kappa * cut.1 ⬝ᵥ E.Q *ᵥ cut.1) cut.2 with e | ⟨_ | ⟨ρ, σ, δ⟩, tsq⟩
  · rfl
  · rfl
  · simp only
    rcases pyDiv ρ (cut.1 ⬝ᵥ E.Q *ᵥ cut.1) with e | ro
    · rfl
    · rcases pyDiv σ (cut.1 ⬝ᵥ E.Q *ᵥ cut.1) with e | so
      · rfl
      · have e : ∀ M : Matrix (Fin n) (Fin n) ℝ, (fun i j => M i j * δ) = δ • M := fun M => by
          ext i j; rw [Matrix.smul_apply, smul_eq_mul, mul_comm]
        have := e (E.Q - so • vecMulVec (E.Q *ᵥ cut.1) (E.Q *ᵥ cut.1))
        simp only
        rw [← this]
        rfl

/-- **C117**: "no solution" from a central or deep cut is right up to a relative error `7C²ε` of the depth at which a cut
misses the ellipsoid, in both directions. -/
theorem C117_nosoln (hE : E.Proper) (hfl : RelErr u fl) (hu0 : 0 ≤ u) (hu : u ≤ ε) (hdot : VecDotErr ε dot) (hC1 : 1 ≤ C)
    (hC : CondBound C E.Q) (hg : g ≠ 0) (hε : 1000 * (C ^ 2 * ε) ≤ 1) :
    (∀ E' tsq, updateF fl dot (g, .scalar β) E = .ok (E', .nosoln, tsq) →
      ∀ x ∈ E.pts, -(7 * (C ^ 2 * ε) * √(E.kappa * (g ⬝ᵥ E.Q *ᵥ g))) < g ⬝ᵥ (x - E.xc) + β) ∧
    ((∀ x ∈ E.pts, 7 * (C ^ 2 * ε) * √(E.kappa * (g ⬝ᵥ E.Q *ᵥ g)) < g ⬝ᵥ (x - E.xc) + β) →
      ∃ tsq, updateF fl dot (g, .scalar β) E = .ok (E, .nosoln, tsq)) := by
  obtain ⟨hn, hpd, hκ⟩ := hE
  have hQ := hpd.posSemidef
  have hω : 0 < g ⬝ᵥ E.Q *ᵥ g := (pd_iff.1 hpd).2 g hg
  have hε0 : 0 ≤ ε := hu0.trans hu
  set t := C ^ 2 * ε with ht
  have hεt : ε ≤ t := by rw [ht]; nlinarith [one_le_pow₀ hC1 (n := 2)]
  have hut : u ≤ t := hu.trans hεt
  have ht0 : 0 ≤ t := hε0.trans hεt
  obtain ⟨-, hω'⟩ := qg_err (g := g) hQ hdot hε0 (by linarith) hC1 hC
  rw [← ht] at hω'
  have htsq := ((hω'.mul_left E.kappa).round hfl hu0 (by linarith)).mono (by linarith : _ ≤ 41 / 10 * t)
  set tsq := fl (E.kappa * dot g fun i => dot (E.Q i) g) with htsqd
  have hκω : 0 < E.kappa * (g ⬝ᵥ E.Q *ᵥ g) := by positivity
  have htsq0 : 0 < tsq := htsq.pos hκω (by linarith)
  have hτ' := ((htsq.sqrt hκω (by linarith)).round hfl hu0 (by linarith)).mono (by linarith : _ ≤ 61 / 10 * t)
  set τ := √(E.kappa * (g ⬝ᵥ E.Q *ᵥ g)) with hτ
  have hτ0 : 0 < τ := Real.sqrt_pos.2 hκω
  set τ' := fl √tsq
  have hsq : sqrtF fl tsq = .ok τ' := by
    unfold sqrtF; rw [pySqrt_ok.2 ⟨htsq0.le, rfl⟩]; rfl
  have hlow := hτ'.lower hτ0.le
  have hupp := hτ'.upper hτ0.le
  have htτ : 0 ≤ t * τ := by positivity
  -- the sign of the rounded difference is the right one
  have hneg : fl (τ' - β) < 0 → τ' < β := fun h => by
    by_contra hc
    exact absurd (fl_nonneg hfl (by linarith) (by linarith : 0 ≤ τ' - β)) (not_le.2 h)
  have hneg' : τ' < β → fl (τ' - β) < 0 := fun h => by
    have h1 := hfl (τ' - β)
    rw [abs_of_neg (by linarith : τ' - β < 0), abs_le] at h1
    have h2 : u * -(τ' - β) ≤ 1 / 2 * -(τ' - β) := mul_le_mul_of_nonneg_right (by linarith) (by linarith)
    linarith [h1.2]
  constructor
  · intro E' tsq' h x hx
    have hr := updateF_ok h
    rcases hr with ⟨-, hc⟩ | ⟨h, -⟩
    · have hβ : τ' < β := by
        apply hneg
        simp only [calcLlF] at hc
        rw [← htsqd] at hc
        by_contra hb
        simp only [calcDcF, hsq] at hc
        rw [if_neg hb] at hc
        split_ifs at hc
        all_goals first
          | (simp [calcCcF] at hc; done)
          | skip
        simp only [bind_ok_iff] at hc
        obtain ⟨_, -, _, -, _, -, hc⟩ := hc
        simp [pure, Except.pure] at hc
      have h1 := (abs_le.1 (Real.abs_le_sqrt (hx g))).1
      rw [← hτ] at h1
      rcases eq_or_lt_of_le htτ with h0 | h0
      · linarith
      · linarith
    · simp at h
  · intro h
    refine ⟨tsq, ?_⟩
    have hβ : τ' < β := by
      -- the point of the ellipsoid furthest in direction `-g`
      have hx : (E.xc - (τ / (g ⬝ᵥ E.Q *ᵥ g)) • E.Q *ᵥ g) ∈ E.pts := by
        intro y
        have e : y ⬝ᵥ (E.xc - (τ / (g ⬝ᵥ E.Q *ᵥ g)) • E.Q *ᵥ g - E.xc) = -(τ / (g ⬝ᵥ E.Q *ᵥ g) * (y ⬝ᵥ E.Q *ᵥ g)) := by
          rw [sub_sub_cancel_left, dotProduct_neg, dotProduct_smul, smul_eq_mul]
        rw [e, neg_sq, mul_pow, div_pow, hτ, Real.sq_sqrt hκω.le]
        have h1 := psd_cauchy hQ y g
        have h2 : E.kappa * (g ⬝ᵥ E.Q *ᵥ g) / (g ⬝ᵥ E.Q *ᵥ g) ^ 2 * (y ⬝ᵥ E.Q *ᵥ g) ^ 2 =
            E.kappa * ((y ⬝ᵥ E.Q *ᵥ g) ^ 2 / (g ⬝ᵥ E.Q *ᵥ g)) := by field_simp
        rw [h2]
        refine mul_le_mul_of_nonneg_left ?_ hκ.le
        rwa [div_le_iff₀ hω]
      have h1 := h _ hx
      have e : g ⬝ᵥ (E.xc - (τ / (g ⬝ᵥ E.Q *ᵥ g)) • E.Q *ᵥ g - E.xc) = -τ := by
        rw [sub_sub_cancel_left, dotProduct_neg, dotProduct_smul, smul_eq_mul]
        field_simp
      rw [e] at h1
      linarith
    have hb := hneg' hβ
    simp only [updateF, calcLlF]
    rw [← htsqd]
    simp only [calcDcF, hsq]
    rw [if_pos hb]

/-- The dot product accumulated from left to right. -/
theorem vecDot_err (hfl : RelErr u fl) (hu : 0 ≤ u) : VecDotErr ((1 + u) ^ (n + 1) - 1) (vecDot (n := n) fl) := by
  intro x y
  have h := fold_err hfl hu (fun k => x k * y k) (List.finRange n)
  rw [List.length_finRange] at h
  have e1 : ((List.finRange n).map fun k => x k * y k).sum = x ⬝ᵥ y := by rw [dotProduct, ← List.sum_ofFn, List.ofFn_eq_map]
  have e2 : ((List.finRange n).map fun k => |x k * y k|).sum = ∑ i, |x i * y i| := by rw [← List.sum_ofFn, List.ofFn_eq_map]
  rw [e1, e2] at h
  exact h

/-- **C117** (doubles): with rounding to nearest on `p` bits and dot products accumulated from left to right, `ε` of
`C117_update` and `C117_nosoln` is `2(n + 1)/2^p`. -/
theorem C117_double {p : ℕ} (hfl : Nearest p fl) (hp : 4 * ((n : ℝ) + 1) ≤ 2 ^ p) :
    RelErr (1 / 2 ^ p) fl ∧ (1 / 2 ^ p : ℝ) ≤ 2 * (n + 1) / 2 ^ p ∧ VecDotErr (2 * (n + 1) / 2 ^ p) (vecDot (n := n) fl) := by
  have hu0 : (0 : ℝ) ≤ 1 / 2 ^ p := by positivity
  have h2 : (0 : ℝ) < 2 ^ p := by positivity
  refine ⟨hfl.relErr, ?_, fun x y => ?_⟩
  · rw [div_le_div_iff_of_pos_right h2]
    have : (0 : ℝ) ≤ n := Nat.cast_nonneg _
    linarith
  · refine (vecDot_err hfl.relErr hu0 x y).trans (mul_le_mul_of_nonneg_right ?_ (Finset.sum_nonneg fun _ _ => abs_nonneg _))
    refine (pow_sub_one_le hu0 (n + 1) ?_).trans (le_of_eq ?_)
    · rw [mul_one_div, div_le_iff₀ h2]; push_cast; linarith
    · push_cast; ring

/-- Concrete: doubles, the unit disc and the central cut with `g = (1, 1)`. -/
example : ∃ E' tsq, updateF (ieee 53) (vecDot (ieee 53)) (![1, 1], .scalar 0) (⟨true, false, 0, 1, 1⟩ : Ell 2) = .ok (E', .success, tsq) ∧
    E'.Proper ∧ ∀ x ∈ (⟨true, false, 0, 1, 1⟩ : Ell 2).pts ∩ cutSet (0 : Fin 2 → ℝ) (![1, 1], .scalar 0), ∀ y,
      |y ⬝ᵥ (x - E'.xc)| ≤ (1 + 10⁻¹ ^ 11) * √(E'.kappa * (y ⬝ᵥ E'.Q *ᵥ y)) := by
  have hfl : Nearest 53 (ieee 53 : ℝ → ℝ) := ieee_nearest (by norm_num)
  obtain ⟨h1, h2, h3⟩ := C117_double (n := 2) hfl (by norm_num)
  have h4 : (√2) ^ 4 = (4 : ℝ) := by
    rw [show (4 : ℕ) = 2 * 2 by rfl, pow_mul, Real.sq_sqrt (by norm_num)]; norm_num
  have hP : (⟨true, false, 0, 1, 1⟩ : Ell 2).Proper := ⟨le_rfl, PosDef.one, one_pos⟩
  have hC : CondBound √2 (1 : Matrix (Fin 2) (Fin 2) ℝ) := by
    intro y
    rw [one_mulVec, Real.sq_sqrt (by norm_num)]
    simp only [Fin.sum_univ_two, dotProduct, one_apply_eq, Real.sqrt_one, one_mul]
    nlinarith [sq_nonneg (|y 0| - |y 1|), sq_abs (y 0), sq_abs (y 1)]
  obtain ⟨E', tsq, e1, e2, -, e3⟩ := C117_update (E := (⟨true, false, 0, 1, 1⟩ : Ell 2)) (g := ![1, 1]) (β := 0) (b := 1) hP h1
    (by positivity) h2 h3 (by rw [Real.one_le_sqrt]; norm_num) hC (fun h => by simpa using congrFun h 0) one_pos le_rfl
    (by simp) (by rw [h4]; norm_num)
  refine ⟨E', tsq, e1, e2, fun x hx y => ?_⟩
  have h5 := e3 x hx y
  simp only [Pi.zero_apply, abs_zero, mul_zero, Finset.sum_const_zero, add_zero, h4] at h5
  refine h5.trans (mul_le_mul_of_nonneg_right ?_ (Real.sqrt_nonneg _))
  norm_num

/-! ### Losing positive definiteness -/

theorem vecDot_two (hfl : Nearest 53 fl) {x y : Fin 2 → ℝ} {a b c : ℝ} (ha : fl (x 0 * y 0) = a) (hb : fl (x 1 * y 1) = b)
    (hc : fl (a + b) = c) : vecDot fl x y = c := by
  have h : vecDot fl x y = fl (fl (0 + fl (x 0 * y 0)) + fl (x 1 * y 1)) := by
    simp [vecDot, List.finRange_succ]
  rw [h, zero_add, hfl.rounding.exact _ (hfl _).1, ha, hb, hc]

/-- A central cut, step by step. -/
theorem updateF_central {τ tsq : ℝ} {w : Fin n → ℝ} {o : ℝ} (hw : ∀ i, dot (E.Q i) g = w i) (ho : dot g w = o) (ho0 : o ≠ 0)
    (h : calcDcF fl n (fl (E.kappa * o)) 0 = .ok (calcCcF fl n τ, tsq)) (hd : E.noDefer = false) :
    updateF fl dot (g, .scalar 0) E = .ok ({ E with
      xc := fun i => fl (E.xc i - fl (fl (fl (τ / ((n : ℝ) + 1)) / o) * w i))
      Q := fun i j => fl (E.Q i j - fl (fl (c2F fl n / o) * fl (w i * w j)))
      kappa := fl (E.kappa * c1F fl n) }, .success, tsq) := by
  have hdv : ∀ a, divF fl a o = .ok (fl (a / o)) := fun a => by
    unfold divF pyDiv; rw [if_neg ho0]; rfl
  simp only [updateF, calcLlF, ho, h, calcCcF, hdv, hw, hd]
  rfl

/-- **C117** (finding): on a badly conditioned ellipsoid the guarantee of `C117_update` is not only unproved but false.  In doubles, whatever
is done with ties, one central cut turns the positive definite matrix `[[1, 1 - 4η], [1 - 4η, 1 - 7η]]`, `η = 2^-53`, into an
indefinite one.  A second central cut then meets `g'Qg < 0`: `math.sqrt` fails, the exception is caught, and the update
reports success with `tsq = 0`, at which the drivers stop. -/
theorem C117_loses_pd (hfl : Nearest 53 fl) :
    (⟨true, false, 0, !![1, 1 - 4 / 2 ^ 53; 1 - 4 / 2 ^ 53, 1 - 7 / 2 ^ 53], 1⟩ : Ell 2).Proper ∧
    ∃ E₁ E₂, updateF fl (vecDot fl) (![1, 0], .scalar 0)
        (⟨true, false, 0, !![1, 1 - 4 / 2 ^ 53; 1 - 4 / 2 ^ 53, 1 - 7 / 2 ^ 53], 1⟩ : Ell 2) = .ok (E₁, .success, 1) ∧
      (∃ y, y ⬝ᵥ E₁.Q *ᵥ y < 0) ∧
      updateF fl (vecDot fl) (![1, -(1 + 2 / 2 ^ 53)], .scalar 0) E₁ = .ok (E₂, .success, 0) := by
  have ex : ∀ {x : ℝ} (m e : ℤ), |m| ≤ 2 ^ 53 → x = m * 2 ^ e → fl x = x := fun m e hm hx => hfl.rounding.exact _ ⟨m, e, hm, hx⟩
  have h1 : fl 1 = 1 := ex 1 0 (by norm_num) (by norm_num)
  have h0 : fl 0 = 0 := hfl.rounding.exact _ rep_zero
  have h3 : fl 3 = 3 := ex 3 0 (by norm_num) (by norm_num)
  have hq : fl (1 - 4 / 2 ^ 53) = 1 - 4 / 2 ^ 53 := ex (2 ^ 53 - 4) (-53) (by norm_num) (by norm_num)
  have hc2 : c2F fl 2 = 6004799503160661 / 2 ^ 53 := by
    have : fl (2 / 3) = (6004799503160661 : ℤ) * 2 ^ (-53 : ℤ) :=
      hfl.eq (by norm_num) (by norm_num) (by norm_num) (by norm_num) (by norm_num [abs_lt])
    rw [c2F, show (2 : ℝ) / ((2 : ℕ) + 1) = 2 / 3 by norm_num, this]; norm_num
  have hc1 : 1 < c1F fl 2 := by
    have h := hfl.relErr (4 / 3)
    rw [c1F, show ((2 : ℕ) : ℝ) * (2 : ℕ) - 1 = 3 by norm_num, h3, show ((2 : ℕ) : ℝ) * (2 : ℕ) / 3 = 4 / 3 by norm_num]
    have := (abs_le.1 h).1
    norm_num at this ⊢
    linarith
  set f : ℝ := 6004799503160661 / 2 ^ 53 with hf
  refine ⟨⟨le_rfl, ?_, one_pos⟩, ?_⟩
  · rw [Verif.pd_iff]
    refine ⟨by ext i j; fin_cases i <;> fin_cases j <;> rfl, fun y hy => ?_⟩
    have e : y ⬝ᵥ (!![1, 1 - 4 / 2 ^ 53; 1 - 4 / 2 ^ 53, 1 - 7 / 2 ^ 53] : Matrix (Fin 2) (Fin 2) ℝ) *ᵥ y =
        (y 0 + (1 - 4 / 2 ^ 53) * y 1) ^ 2 + (1 / 2 ^ 53 - 16 / 2 ^ 106) * y 1 ^ 2 := by
      simp only [dotProduct, mulVec, Fin.sum_univ_two, of_apply, cons_val', cons_val_zero, cons_val_one, cons_val_fin_one]
      ring
    rw [e]
    by_cases hy1 : y 1 = 0
    · have hy0 : y 0 ≠ 0 := fun h => hy (by ext i; fin_cases i; exacts [h, hy1])
      rw [hy1]; simp only [mul_zero, add_zero]; positivity
    · have : (0 : ℝ) < 1 / 2 ^ 53 - 16 / 2 ^ 106 := by norm_num
      positivity
  have hw : ∀ i, vecDot fl ((!![1, 1 - 4 / 2 ^ 53; 1 - 4 / 2 ^ 53, 1 - 7 / 2 ^ 53] : Matrix (Fin 2) (Fin 2) ℝ) i) ![1, 0] =
      (![1, 1 - 4 / 2 ^ 53] : Fin 2 → ℝ) i := by
    intro i
    fin_cases i
    · exact vecDot_two hfl (a := 1) (b := 0) (by simpa using h1) (by simpa using h0) (by simpa using h1)
    · exact vecDot_two hfl (a := 1 - 4 / 2 ^ 53) (b := 0) (by simpa using hq) (by simpa using h0) (by simpa using hq)
  have ho : vecDot fl ![1, 0] ![1, 1 - 4 / 2 ^ 53] = 1 :=
    vecDot_two hfl (a := 1) (b := 0) (by simpa using h1) (by simpa using h0) (by simpa using h1)
  have s1 := updateF_central (fl := fl) (dot := vecDot fl) (g := ![1, 0]) (τ := 1) (tsq := 1)
    (E := (⟨true, false, 0, !![1, 1 - 4 / 2 ^ 53; 1 - 4 / 2 ^ 53, 1 - 7 / 2 ^ 53], 1⟩ : Ell 2)) hw ho one_ne_zero
    (by
      simp only [mul_one, h1, calcDcF, sqrtF, pySqrt_ok.2 ⟨zero_le_one, Real.sqrt_one.symm⟩]
      simp [Except.map, h1]) rfl
  have hff : fl f = f := ex 6004799503160661 (-53) (by norm_num) (by rw [hf]; norm_num)
  have hqq : fl ((1 - 4 / 2 ^ 53) * (1 - 4 / 2 ^ 53)) = 1 - 8 / 2 ^ 53 := by
    have : fl ((1 - 4 / 2 ^ 53) * (1 - 4 / 2 ^ 53)) = (2 ^ 53 - 8 : ℤ) * 2 ^ (-53 : ℤ) :=
      hfl.eq (by norm_num) (by norm_num) (by norm_num) (by norm_num) (by norm_num [abs_lt])
    rw [this]; norm_num
  have hf1 : fl (f * (1 - 4 / 2 ^ 53)) = f - 3 / 2 ^ 53 := by
    have : fl (f * (1 - 4 / 2 ^ 53)) = (6004799503160658 : ℤ) * 2 ^ (-53 : ℤ) :=
      hfl.eq (by norm_num) (by norm_num) (by norm_num) (by rw [hf]; norm_num) (by rw [hf]; norm_num [abs_lt])
    rw [this, hf]; norm_num
  have hf2 : fl (f * (1 - 8 / 2 ^ 53)) = f - 5 / 2 ^ 53 := by
    have : fl (f * (1 - 8 / 2 ^ 53)) = (6004799503160656 : ℤ) * 2 ^ (-53 : ℤ) :=
      hfl.eq (by norm_num) (by norm_num) (by norm_num) (by rw [hf]; norm_num) (by rw [hf]; norm_num [abs_lt])
    rw [this, hf]; norm_num
  set a : ℝ := 3002399751580331 / 2 ^ 53 with ha
  have ha0 : fl (1 - f) = a := by
    rw [show 1 - f = a by rw [hf, ha]; norm_num]; exact ex 3002399751580331 (-53) (by norm_num) (by rw [ha]; norm_num)
  have ha1 : fl (1 - 4 / 2 ^ 53 - (f - 3 / 2 ^ 53)) = a - 1 / 2 ^ 53 := by
    rw [show 1 - 4 / 2 ^ 53 - (f - 3 / 2 ^ 53) = a - 1 / 2 ^ 53 by rw [hf, ha]; norm_num]
    exact ex 3002399751580330 (-53) (by norm_num) (by rw [ha]; norm_num)
  have ha2 : fl (1 - 7 / 2 ^ 53 - (f - 5 / 2 ^ 53)) = a - 2 / 2 ^ 53 := by
    rw [show 1 - 7 / 2 ^ 53 - (f - 5 / 2 ^ 53) = a - 2 / 2 ^ 53 by rw [hf, ha]; norm_num]
    exact ex 3002399751580329 (-53) (by norm_num) (by rw [ha]; norm_num)
  have hQ : (fun i j => fl ((!![1, 1 - 4 / 2 ^ 53; 1 - 4 / 2 ^ 53, 1 - 7 / 2 ^ 53] : Matrix (Fin 2) (Fin 2) ℝ) i j -
      fl (fl (c2F fl 2 / 1) * fl ((![1, 1 - 4 / 2 ^ 53] : Fin 2 → ℝ) i * (![1, 1 - 4 / 2 ^ 53] : Fin 2 → ℝ) j)))) =
      (!![a, a - 1 / 2 ^ 53; a - 1 / 2 ^ 53, a - 2 / 2 ^ 53] : Matrix (Fin 2) (Fin 2) ℝ) := by
    rw [hc2, div_one, hff]
    ext i j
    fin_cases i <;> fin_cases j
    · change fl (1 - fl (f * fl (1 * 1))) = a
      rw [mul_one, h1, mul_one, hff, ha0]
    · change fl (1 - 4 / 2 ^ 53 - fl (f * fl (1 * (1 - 4 / 2 ^ 53)))) = a - 1 / 2 ^ 53
      rw [one_mul, hq, hf1, ha1]
    · change fl (1 - 4 / 2 ^ 53 - fl (f * fl ((1 - 4 / 2 ^ 53) * 1))) = a - 1 / 2 ^ 53
      rw [mul_one, hq, hf1, ha1]
    · change fl (1 - 7 / 2 ^ 53 - fl (f * fl ((1 - 4 / 2 ^ 53) * (1 - 4 / 2 ^ 53)))) = a - 2 / 2 ^ 53
      rw [hqq, hf2, ha2]
  simp only [hQ] at s1
  set κ := fl (1 * c1F fl 2)
  have hκ : 1 ≤ κ := by
    have := hfl.rounding.mono (show (1 : ℝ) ≤ 1 * c1F fl 2 by linarith)
    rwa [h1] at this
  set xc : Fin 2 → ℝ := fun i => fl ((0 : Fin 2 → ℝ) i - fl (fl (fl (1 / (((2 : ℕ) : ℝ) + 1)) / 1) * (![1, 1 - 4 / 2 ^ 53] : Fin 2 → ℝ) i))
  set E₁ : Ell 2 := ⟨true, false, xc, !![a, a - 1 / 2 ^ 53; a - 1 / 2 ^ 53, a - 2 / 2 ^ 53], κ⟩
  -- the second cut
  have hw2 : ∀ i, vecDot fl (E₁.Q i) ![1, -(1 + 2 / 2 ^ 53)] = (![1 / 2 ^ 54, 1 / 2 ^ 54] : Fin 2 → ℝ) i := by
    have b1 : fl ((a - 1 / 2 ^ 53) * -(1 + 2 / 2 ^ 53)) = -(a - 1 / 2 ^ 54) := by
      have : -fl (-((a - 1 / 2 ^ 53) * (1 + 2 / 2 ^ 53))) = (6004799503160661 : ℤ) * 2 ^ (-54 : ℤ) :=
        hfl.neg.eq (by norm_num) (by norm_num) (by norm_num) (by rw [ha]; norm_num) (by rw [ha]; norm_num [abs_lt])
      rw [mul_neg, ← neg_neg (fl _), this, ha]; norm_num
    have b2 : fl ((a - 2 / 2 ^ 53) * -(1 + 2 / 2 ^ 53)) = -(a - 3 / 2 ^ 54) := by
      have : -fl (-((a - 2 / 2 ^ 53) * (1 + 2 / 2 ^ 53))) = (6004799503160659 : ℤ) * 2 ^ (-54 : ℤ) :=
        hfl.neg.eq (by norm_num) (by norm_num) (by norm_num) (by rw [ha]; norm_num) (by rw [ha]; norm_num [abs_lt])
      rw [mul_neg, ← neg_neg (fl _), this, ha]; norm_num
    have b0 : fl (1 / 2 ^ 54) = 1 / 2 ^ 54 := ex 1 (-54) (by norm_num) (by norm_num)
    intro i
    fin_cases i
    · refine vecDot_two hfl (a := a) (b := -(a - 1 / 2 ^ 54)) ?_ b1 ?_
      · change fl (a * 1) = a
        rw [mul_one]; exact ex 3002399751580331 (-53) (by norm_num) (by rw [ha]; norm_num)
      · change fl (a + -(a - 1 / 2 ^ 54)) = 1 / 2 ^ 54
        rw [show a + -(a - 1 / 2 ^ 54) = 1 / 2 ^ 54 by ring, b0]
    · refine vecDot_two hfl (a := a - 1 / 2 ^ 53) (b := -(a - 3 / 2 ^ 54)) ?_ b2 ?_
      · change fl ((a - 1 / 2 ^ 53) * 1) = a - 1 / 2 ^ 53
        rw [mul_one]; exact ex 3002399751580330 (-53) (by norm_num) (by rw [ha]; norm_num)
      · change fl (a - 1 / 2 ^ 53 + -(a - 3 / 2 ^ 54)) = 1 / 2 ^ 54
        rw [show a - 1 / 2 ^ 53 + -(a - 3 / 2 ^ 54) = 1 / 2 ^ 54 by ring, b0]
  have ho2 : vecDot fl ![1, -(1 + 2 / 2 ^ 53)] ![1 / 2 ^ 54, 1 / 2 ^ 54] = -(1 / 2 ^ 106) := by
    refine vecDot_two hfl (a := 1 / 2 ^ 54) (b := -(1 + 2 / 2 ^ 53) * (1 / 2 ^ 54)) ?_ ?_ ?_
    · change fl (1 * (1 / 2 ^ 54)) = _
      rw [one_mul]; exact ex 1 (-54) (by norm_num) (by norm_num)
    · exact ex (x := -(1 + 2 / 2 ^ 53) * (1 / 2 ^ 54)) (-(2 ^ 52 + 1)) (-106) (by norm_num) (by norm_num)
    · rw [show (1 : ℝ) / 2 ^ 54 + -(1 + 2 / 2 ^ 53) * (1 / 2 ^ 54) = -(1 / 2 ^ 106) by norm_num]
      exact ex (-1) (-106) (by norm_num) (by norm_num)
  have hneg : fl (κ * -(1 / 2 ^ 106)) < 0 := by
    refine lt_of_le_of_lt (hfl.rounding.mono (show κ * -(1 / 2 ^ 106) ≤ -(1 / 2 ^ 106) by nlinarith)) ?_
    rw [ex (-1) (-106) (by norm_num) (by norm_num)]; norm_num
  have s2 := updateF_central (fl := fl) (dot := vecDot fl) (g := ![1, -(1 + 2 / 2 ^ 53)]) (τ := 0) (tsq := 0)
    (E := E₁) hw2 ho2 (by norm_num)
    (by
      have : sqrtF fl (fl (E₁.kappa * -(1 / 2 ^ 106))) = .error .valueError := by
        unfold sqrtF pySqrt; rw [if_pos hneg]; rfl
      simp only [calcDcF, this]
      simp [h0]) rfl
  refine ⟨E₁, _, s1, ⟨![a - 1 / 2 ^ 53, -a], ?_⟩, s2⟩
  change (![a - 1 / 2 ^ 53, -a] : Fin 2 → ℝ) ⬝ᵥ (!![a, a - 1 / 2 ^ 53; a - 1 / 2 ^ 53, a - 2 / 2 ^ 53] : Matrix (Fin 2) (Fin 2) ℝ) *ᵥ _ < 0
  have e : (![a - 1 / 2 ^ 53, -a] : Fin 2 → ℝ) ⬝ᵥ (!![a, a - 1 / 2 ^ 53; a - 1 / 2 ^ 53, a - 2 / 2 ^ 53] : Matrix (Fin 2) (Fin 2) ℝ) *ᵥ
      ![a - 1 / 2 ^ 53, -a] = -(a / 2 ^ 106) := by
    simp only [dotProduct, mulVec, Fin.sum_univ_two, of_apply, cons_val', cons_val_zero, cons_val_one, cons_val_fin_one]
    ring
  rw [e, ha]
  norm_num
end
end Verif
