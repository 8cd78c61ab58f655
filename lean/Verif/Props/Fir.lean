import Mathlib.Algebra.Order.Chebyshev
import Verif.Props.Convex
import Verif.Model.Fir
import Verif.Model.Problem

/-!
# C93: Chebyshev FIR design (`tests/test_firfilter.py`) end to end
-/
namespace Verif
open Matrix Ell
variable {n m : ℕ}

/-- Specification: the frequency response `∑ₖ hₖ e^{-jωk}` of the filter `h`. -/
noncomputable def freqResponse (h : Fin n → ℝ) (w : ℝ) : ℂ := ∑ k, (h k : ℂ) * Complex.exp (-Complex.I * w * (k.val : ℂ))

/-- Specification: the worst squared deviation from the desired response on the grid. -/
noncomputable def chebErr [NeZero m] (Hdes : Fin m → ℂ) (h : Fin n → ℝ) : ℝ :=
  Finset.univ.sup' ⟨0, Finset.mem_univ _⟩ fun i : Fin m => ‖freqResponse h (freq m i) - Hdes i‖ ^ 2

theorem FirData.err_eq (Hdes : Fin m → ℂ) (h : Fin n → ℝ) (i : Fin m) :
    (firData n m Hdes).err h i = ‖freqResponse h (freq m i) - Hdes i‖ ^ 2 := by
  have e : ∀ k : Fin n, Complex.exp (-Complex.I * (freq m i) * (k.val : ℂ)) =
      Complex.exp (-Complex.I * (freq m i * (k.val : ℝ) : ℝ)) := fun k => by push_cast; ring_nf
  rw [← Complex.normSq_eq_norm_sq, Complex.normSq_apply]
  simp only [FirData.err, firData, freqResponse, dotProduct, e, Complex.sub_re, Complex.sub_im, Complex.re_sum, Complex.im_sum,
    Complex.re_ofReal_mul, Complex.im_ofReal_mul]
  simp only [mul_comm (h _)]
  ring

/-- `err i` is convex, with gradient `grad i`. -/
theorem FirData.err_grad (D : FirData n m) (x z : Fin n → ℝ) (i : Fin m) :
    D.grad x i ⬝ᵥ (z - x) + D.err x i ≤ D.err z i := by
  have e1 : D.aR i ⬝ᵥ (z - x) = D.aR i ⬝ᵥ z - D.aR i ⬝ᵥ x := dotProduct_sub ..
  have e2 : D.aI i ⬝ᵥ (z - x) = D.aI i ⬝ᵥ z - D.aI i ⬝ᵥ x := dotProduct_sub ..
  simp only [FirData.grad, FirData.err, smul_dotProduct, add_dotProduct, e1, e2, smul_eq_mul]
  nlinarith [sq_nonneg (D.aR i ⬝ᵥ z - D.aR i ⬝ᵥ x), sq_nonneg (D.aI i ⬝ᵥ z - D.aI i ⬝ᵥ x)]

/-- What the loop returns. -/
theorem FirData.loop_spec (D : FirData n m) (h : Fin n → ℝ) (t : ℝ) : ∀ (is : List (Fin m)) (best : Option (ℝ × (Fin n → ℝ))) (pre : List (Fin m)),
    (best = none → pre = []) → (∀ b, best = some b → ∃ i ∈ pre, b = (D.err h i, D.grad h i) ∧ ∀ j ∈ pre, D.err h j ≤ D.err h i) →
    (∀ j ∈ pre, D.err h j < t) → pre ++ is ≠ [] →
    (∃ i ∈ pre ++ is, t ≤ D.err h i ∧ D.loop h t best is = .ok ((D.grad h i, .scalar (D.err h i - t)), none)) ∨
    (∃ i ∈ pre ++ is, (∀ j ∈ pre ++ is, D.err h j ≤ D.err h i ∧ D.err h j < t) ∧
      D.loop h t best is = .ok ((D.grad h i, .scalar 0), some (D.err h i)))
  | [], none, pre, h1, _, _, h4 => absurd (h1 rfl) (by simpa using h4)
  | [], some b, pre, _, h2, h3, _ => by
    obtain ⟨i, hi, rfl, hm⟩ := h2 b rfl
    exact .inr ⟨i, by simpa using hi, by simpa using fun j hj => ⟨hm j hj, h3 j hj⟩, rfl⟩
  | i :: is, best, pre, h1, h2, h3, _ => by
    by_cases ht : t ≤ D.err h i
    · exact .inl ⟨i, by simp, ht, by cases best <;> simp only [FirData.loop, if_pos ht]⟩
    have hlt := not_le.1 ht
    have h3' : ∀ j ∈ pre ++ [i], D.err h j < t := by
      intro j hj
      rcases List.mem_append.1 hj with hj | hj
      · exact h3 j hj
      · rw [List.mem_singleton.1 hj]; exact hlt
    cases best with
    | none =>
      have := FirData.loop_spec D h t is (some (D.err h i, D.grad h i)) (pre ++ [i]) (by simp)
        (by rintro b hb; cases hb
            refine ⟨i, by simp, rfl, fun j hj => ?_⟩
            rw [h1 rfl] at hj
            rw [List.mem_singleton.1 hj]) h3' (by simp)
      simp only [FirData.loop, if_neg ht]
      simpa using this
    | some b =>
      obtain ⟨i0, hi0, rfl, hm⟩ := h2 b rfl
      by_cases hmax : D.err h i0 < D.err h i
      · have := FirData.loop_spec D h t is (some (D.err h i, D.grad h i)) (pre ++ [i]) (by simp)
          (by rintro b hb; cases hb
              refine ⟨i, by simp, rfl, fun j hj => ?_⟩
              rcases List.mem_append.1 hj with hj | hj
              · exact (hm j hj).trans hmax.le
              · rw [List.mem_singleton.1 hj]) h3' (by simp)
        simp only [FirData.loop, if_neg ht, if_pos hmax]
        simpa using this
      · have := FirData.loop_spec D h t is (some (D.err h i0, D.grad h i0)) (pre ++ [i]) (by simp)
          (by rintro b hb; cases hb
              refine ⟨i0, by simp [hi0], rfl, fun j hj => ?_⟩
              rcases List.mem_append.1 hj with hj | hj
              · exact hm j hj
              · rw [List.mem_singleton.1 hj]; exact not_lt.1 hmax) h3' (by simp)
        simp only [FirData.loop, if_neg ht, if_neg hmax]
        simpa using this

/-- **C93** (oracle).  For at least one frequency the oracle never fails; it reports an improved level exactly when the worst
error is below `t`, and then the level is the worst error; the cut satisfies the subgradient inequality of the
worst error. -/
theorem C93_fir_oracle [NeZero m] (Hdes : Fin m → ℂ) (x : Fin n → ℝ) (t : ℝ) :
    ∃ g β t1, (firData n m Hdes).call x t = .ok ((g, .scalar β), t1) ∧ 0 ≤ β ∧
      t1 = (if chebErr Hdes x < t then some (chebErr Hdes x) else none) ∧
      ∀ z, g ⬝ᵥ (z - x) + β ≤ chebErr Hdes z - t1.getD t := by
  have hle : ∀ (y : Fin n → ℝ) i, (firData n m Hdes).err y i ≤ chebErr Hdes y := fun y i => by
    rw [FirData.err_eq]
    exact Finset.le_sup' (fun i : Fin m => ‖freqResponse y (freq m i) - Hdes i‖ ^ 2) (Finset.mem_univ i)
  have hne : List.finRange m ≠ [] := by
    intro h
    have := List.mem_finRange (0 : Fin m)
    rw [h] at this; simp at this
  rcases FirData.loop_spec (firData n m Hdes) x t (List.finRange m) none [] (by simp) (by simp) (by simp) (by simpa using hne) with
    ⟨i, -, h1, h2⟩ | ⟨i, -, h1, h2⟩
  · refine ⟨_, _, _, h2, by linarith, ?_, fun z => ?_⟩
    · rw [if_neg (not_lt.2 (h1.trans (hle x i)))]
    · have := FirData.err_grad (firData n m Hdes) x z i
      have := hle z i
      simp only [Option.getD_none]; linarith
  · have hx : chebErr Hdes x = (firData n m Hdes).err x i := by
      refine le_antisymm (Finset.sup'_le _ _ fun j _ => ?_) (hle x i)
      rw [← FirData.err_eq]
      exact (h1 j (by simp)).1
    refine ⟨_, _, _, h2, le_rfl, ?_, fun z => ?_⟩
    · rw [hx, if_pos (h1 i (by simp)).2]
    · have := FirData.err_grad (firData n m Hdes) x z i
      have := hle z i
      simp only [Option.getD_some]; linarith

/-- **C93**.  Without frequencies the oracle fails: `gmax` is never assigned. -/
theorem C93_fir_empty (D : FirData n 0) (x : Fin n → ℝ) (t : ℝ) : D.call x t = .error .unboundLocal := rfl

theorem fir_convexOracle [NeZero m] (Hdes : Fin m → ℂ) {c : ℝ} (hc : 0 ≤ c) :
    ConvexOracle (fun _ => -c) (chebErr (n := n) Hdes) (fun _ : Unit => True) (firData n m Hdes).omega := by
  intro x t w _
  obtain ⟨g, β, t1, h1, h2, h3, h4⟩ := C93_fir_oracle Hdes x t
  refine ⟨(), g, β, t1, by simp [FirData.omega, h1, Except.map], trivial, h2, fun s hs => ?_, fun z => (h4 z).trans (le_max_right _ _)⟩
  rw [hs] at h3
  split_ifs at h3 with h
  · rw [Option.some.inj h3]
    exact ⟨by linarith, rfl, h.le⟩

/-- **C93** (`Problem.solve`).  For every desired response, solving the design problem from any state: if the status is not
`"infeasible"`, `optim_value` is the worst squared error of `optim_var`; and if it is `"optimal"`, no filter in the
initial ball `‖h - h₀‖² ≤ R²` has a worst squared error of `optim_value - δ` or less, for every `δ ≥ 0` with `tol ≤ δ²`. -/
theorem C93_fir_solve [NeZero m] (hn : 2 ≤ n) (Hdes : Fin m → ℂ) {h₀ : Fin n → ℝ} {R t0 : ℝ} {E₀ : Ell n}
    (hinit : Ell.init (.scalar (R ^ 2)) h₀ = .ok E₀) {o : Options ℝ} {w' : Unit × Ell n} {p p' : PState (Fin n → ℝ) ℝ} {v : Option ℝ}
    (hs : solve (fun x t => liftOracle ((firData n m Hdes).omega x t)) (Ell.space Unit n) o t0 p ((), E₀) = .ok (w', p', v)) :
    (p'.status ≠ some .infeasible → ∃ h, p'.optimVar = some h ∧ p'.optimValue = some (chebErr Hdes h) ∧ v = some (chebErr Hdes h) ∧
      chebErr Hdes h < t0) ∧
    (p'.status = some .optimal → ∀ u, p'.optimValue = some u → ∀ δ, 0 ≤ δ → o.tol ≤ δ ^ 2 → ∀ z, ∑ i, (z i - h₀ i) ^ 2 ≤ R ^ 2 →
      u - δ < chebErr Hdes z) := by
  obtain ⟨hwf, hpts, -⟩ := init_bound (r := 1) hn hinit
  unfold solve at hs
  cases hd : cuttingPlaneDc (fun x t => liftOracle ((firData n m Hdes).omega x t)) (Ell.space Unit n) t0 o ((), E₀) with
  | error e => rw [hd] at hs; cases hs
  | ok r =>
    obtain ⟨⟨w, E⟩, xb, t, info⟩ := r
    rw [hd] at hs
    simp only [Except.ok.injEq, Prod.mk.injEq] at hs
    obtain ⟨-, rfl, rfl⟩ := hs
    have hfeas : info.feasible = true → t ≠ t0 := by
      obtain ⟨s, i, -, -, -, rfl, rfl⟩ := dc_ok hd
      exact of_decide_eq_true
    have hv := fun c (hc : 0 ≤ c) => C92_convex_verdict (fir_convexOracle Hdes hc) hwf (by trivial) hd
    by_cases hf : info.feasible = true
    · simp only [hf, if_true]
      refine ⟨fun _ => ?_, fun ho u hu δ h0 hδ z hz => ?_⟩
      · rcases (hv 0 le_rfl).1 with ⟨-, h⟩ | ⟨x, h1, -, h2, h3⟩
        · exact absurd h (hfeas hf)
        · exact ⟨x, h1, by rw [h2], by rw [h2], by rw [h2]; exact lt_of_le_of_ne h3 (hfeas hf)⟩
      · have hst : info.status ≠ .success := by
          intro h
          rw [h] at ho; simp at ho
        cases hu
        exact (hv δ h0).2 hst z (by rw [hpts]; exact hz) δ h0 hδ le_rfl
    · simp [hf]

theorem norm_freqResponse_sq (h : Fin n → ℝ) (w : ℝ) : ‖freqResponse h w‖ ^ 2 ≤ n * ∑ k, h k ^ 2 := by
  have h1 : ‖freqResponse h w‖ ≤ ∑ k, |h k| := by
    refine (norm_sum_le _ _).trans (Finset.sum_le_sum fun k _ => ?_)
    have e : -Complex.I * w * (k.val : ℂ) = ((-(w * k.val) : ℝ) : ℂ) * Complex.I := by push_cast; ring
    rw [norm_mul, e, Complex.norm_exp_ofReal_mul_I, mul_one, Complex.norm_real, Real.norm_eq_abs]
  have h2 : (∑ k, |h k|) ^ 2 ≤ n * ∑ k, |h k| ^ 2 := by
    simpa using sq_sum_le_card_mul_sum_sq (s := (Finset.univ : Finset (Fin n))) (f := fun k => |h k|)
  simp only [sq_abs] at h2
  exact (pow_le_pow_left₀ (norm_nonneg _) h1 2).trans h2

theorem chebErr_le [NeZero m] {Hdes : Fin m → ℂ} {B : ℝ} (hB : ∀ i, ‖Hdes i‖ ≤ B) {R : ℝ} (hR : 0 ≤ R) {h : Fin n → ℝ}
    (hh : h ∈ euclBall 0 R) : chebErr Hdes h ≤ (√n * R + B) ^ 2 := by
  refine Finset.sup'_le _ _ fun i _ => ?_
  have h1 : ‖freqResponse h (freq m i)‖ ≤ √n * R := by
    refine le_of_sq_le_sq ?_ (by positivity)
    rw [mul_pow, Real.sq_sqrt (Nat.cast_nonneg _)]
    refine (norm_freqResponse_sq h _).trans (mul_le_mul_of_nonneg_left ?_ (Nat.cast_nonneg _))
    simpa [euclBall] using hh
  exact pow_le_pow_left₀ (norm_nonneg _) ((norm_sub_le _ _).trans (add_le_add h1 (hB i))) 2

theorem chebErr_nonneg [NeZero m] (Hdes : Fin m → ℂ) (h : Fin n → ℝ) : 0 ≤ chebErr Hdes h :=
  (sq_nonneg _).trans (Finset.le_sup' (fun i : Fin m => ‖freqResponse h (freq m i) - Hdes i‖ ^ 2) (Finset.mem_univ 0))

theorem chebErr_convex [NeZero m] (Hdes : Fin m → ℂ) : ConvexOn ℝ Set.univ (chebErr (n := n) Hdes) := by
  refine ⟨convex_univ, fun x _ y _ a b ha hb hab => ?_⟩
  obtain ⟨g, β, t1, -, hβ, h3, h4⟩ := C93_fir_oracle Hdes (a • x + b • y) (chebErr Hdes (a • x + b • y))
  rw [if_neg (lt_irrefl _)] at h3
  subst h3
  have hx := h4 x
  have hy := h4 y
  simp only [Option.getD_none] at hx hy
  have e1 : a * (g ⬝ᵥ (x - (a • x + b • y))) + b * (g ⬝ᵥ (y - (a • x + b • y))) = 0 := by
    simp only [dotProduct_sub, dotProduct_add, dotProduct_smul, smul_eq_mul]
    have : b = 1 - a := by linarith
    subst this; ring
  simp only [smul_eq_mul]
  have k1 := mul_le_mul_of_nonneg_left hx ha
  have k2 := mul_le_mul_of_nonneg_left hy hb
  have k3 : a * β + b * β = β := by rw [← add_mul, hab, one_mul]
  have k4 : a * chebErr Hdes (a • x + b • y) + b * chebErr Hdes (a • x + b • y) = chebErr Hdes (a • x + b • y) := by
    rw [← add_mul, hab, one_mul]
  nlinarith

/-- **C93** (accuracy).  Starting as the test does from `h₀ = 0` with the ball of radius `R`, with `‖Hdesᵢ‖ ≤ B` and
`Q = (√n·R + B)²`: for every accuracy `0 < ε ≤ 2Q`, tolerance at most `(ε/2)²` and
`max_it > 2n(n+1)·ln(2Q/ε)`, every run that returns gives a value less than `ε` above the worst squared error of every
filter in the ball. -/
theorem C93_fir_accuracy [NeZero m] (hn : 2 ≤ n) {Hdes : Fin m → ℂ} {B : ℝ} (hB : ∀ i, ‖Hdes i‖ ≤ B) {R t0 : ℝ} (hR : 0 < R)
    {E₀ : Ell n} (hinit : Ell.init (.scalar (R ^ 2)) (0 : Fin n → ℝ) = .ok E₀) {ε Q : ℝ} (hε : 0 < ε) (hQ : Q = (√n * R + B) ^ 2)
    (hεQ : ε ≤ 2 * Q) {o : Options ℝ} (htol : o.tol ≤ (ε / 2) ^ 2)
    (hmax : 2 * (n : ℝ) * ((n : ℝ) + 1) * Real.log (2 * Q / ε) < o.maxIt) {w : Unit} {E : Ell n} {xb : Option (Fin n → ℝ)}
    {t : ℝ} {info : CInfo}
    (hd : cuttingPlaneDc (fun x t => liftOracle ((firData n m Hdes).omega x t)) (Ell.space Unit n) t0 o ((), E₀) =
      .ok ((w, E), xb, t, info)) :
    ∀ z : Fin n → ℝ, ∑ i, z i ^ 2 ≤ R ^ 2 → t < chebErr Hdes z + ε := by
  intro z hz
  have hQ0 : 0 < Q := by linarith
  have hθ : 0 < ε / (2 * Q) := by positivity
  have key := C92_convex_complexity (η := Q) (M := Q) (θ := ε / (2 * Q)) (a := 0) (ρ := R) (p := z) (t0 := t0) (w₀ := ()) hn
    (chebErr_convex Hdes) (convexOn_const (-Q) convex_univ) (fir_convexOracle Hdes hQ0.le) hR hQ0 hinit subset_rfl
    (fun y hy => ⟨le_rfl, hQ ▸ chebErr_le hB hR.le hy⟩) (by simpa [euclBall] using hz) (by linarith) hε hθ
    (by rw [div_le_one (by positivity)]; exact hεQ)
    (by
      have : ε / (2 * Q) * Q = ε / 2 := by field_simp
      rw [mul_sub, this]
      have := mul_nonneg hθ.le (chebErr_nonneg Hdes z)
      linarith) htol
    (by
      have : ε / (2 * Q) * Q = ε / 2 := by field_simp
      rw [this]; exact htol)
    (by
      have : R / (ε / (2 * Q) * R) = 2 * Q / ε := by field_simp
      rw [this]; exact hmax) trivial
  exact key.1 w E xb t info hd

/-- C93 applies to two-tap filters on 30 frequencies with `ell(4, 0)` and default options, for every response of modulus at
most one: every run that returns is within `1/5` of the best filter of the ball. -/
example (Hdes : Fin 30 → ℂ) (hH : ∀ i, ‖Hdes i‖ ≤ 1) (w : Unit) (E : Ell 2) (xb : Option (Fin 2 → ℝ)) (t : ℝ) (info : CInfo)
    (hd : cuttingPlaneDc (fun x t => liftOracle ((firData 2 30 Hdes).omega x t)) (Ell.space Unit 2) 100 ⟨2000, 1 / 10 ^ 8⟩
      ((), ⟨true, false, 0, 1, 2 ^ 2⟩) = .ok ((w, E), xb, t, info)) (z : Fin 2 → ℝ) (hz : ∑ i, z i ^ 2 ≤ 2 ^ 2) :
    t < chebErr Hdes z + 1 / 5 := by
  have hs : √((2 : ℕ) : ℝ) ≤ 1.42 := by
    rw [Real.sqrt_le_left (by norm_num)]; norm_num
  have hs0 : 1 ≤ √((2 : ℕ) : ℝ) := by
    rw [Real.one_le_sqrt]; norm_num
  refine C93_fir_accuracy (R := 2) (B := 1) (ε := 1 / 5) (Q := (√((2 : ℕ) : ℝ) * 2 + 1) ^ 2) le_rfl hH (by norm_num) ?_ (by norm_num) rfl ?_
    (by norm_num) ?_ hd z hz
  · unfold Ell.init c1? pyDiv; norm_num
  · generalize √((2 : ℕ) : ℝ) = r at *
    norm_num at *; nlinarith
  · generalize √((2 : ℕ) : ℝ) = r at *
    have h3 : (r * 2 + 1) ^ 2 ≤ 15 := by norm_num at *; nlinarith
    have h4 : 9 ≤ (r * 2 + 1) ^ 2 := by nlinarith
    generalize (r * 2 + 1) ^ 2 = q at *
    have := Real.log_le_sub_one_of_pos (show 0 < 2 * q / (1 / 5) by linarith)
    push_cast
    linarith

end Verif
