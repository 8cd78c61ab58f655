import Verif.Model.FirTest
import Verif.Props.EllRaise
import Verif.Props.Fir

/-! # C108: the fractional delay filter of `tests/test_firfilter.py` -/
namespace Verif
open Matrix Ell
variable {n m : ℕ}

theorem freqResponse_re (h : Fin n → ℝ) (w : ℝ) : (freqResponse h w).re = ∑ k, h k * Real.cos (w * k.val) := by
  simp only [freqResponse, Complex.re_sum, Complex.re_ofReal_mul]
  refine Finset.sum_congr rfl fun k _ => ?_
  have e : -Complex.I * w * (k.val : ℂ) = ((-(w * k.val) : ℝ) : ℂ) * Complex.I := by push_cast; ring
  rw [e, Complex.exp_ofReal_mul_I_re, Real.cos_neg]

theorem freqResponse_im (h : Fin n → ℝ) (w : ℝ) : (freqResponse h w).im = -∑ k, h k * Real.sin (w * k.val) := by
  simp only [freqResponse, Complex.im_sum, Complex.im_ofReal_mul, ← Finset.sum_neg_distrib]
  refine Finset.sum_congr rfl fun k _ => ?_
  have e : -Complex.I * w * (k.val : ℂ) = ((-(w * k.val) : ℝ) : ℂ) * Complex.I := by push_cast; ring
  rw [e, Complex.exp_ofReal_mul_I_im, Real.sin_neg, mul_neg]

theorem delay_re (D : ℝ) (i : Fin m) : (delayResponse D m i).re = Real.cos (D * freq m i) := by
  have e : -Complex.I * D * (freq m i : ℂ) = ((-(D * freq m i) : ℝ) : ℂ) * Complex.I := by push_cast; ring
  rw [delayResponse, e, Complex.exp_ofReal_mul_I_re, Real.cos_neg]

theorem delay_im (D : ℝ) (i : Fin m) : (delayResponse D m i).im = -Real.sin (D * freq m i) := by
  have e : -Complex.I * D * (freq m i : ℂ) = ((-(D * freq m i) : ℝ) : ℂ) * Complex.I := by push_cast; ring
  rw [delayResponse, e, Complex.exp_ofReal_mul_I_im, Real.sin_neg]

/-- The squared deviation at a frequency. -/
theorem delay_err (D : ℝ) (h : Fin n → ℝ) (i : Fin m) :
    ‖freqResponse h (freq m i) - delayResponse D m i‖ ^ 2 =
      (∑ k, h k * Real.cos (freq m i * k.val) - Real.cos (D * freq m i)) ^ 2 +
      (∑ k, h k * Real.sin (freq m i * k.val) - Real.sin (D * freq m i)) ^ 2 := by
  rw [← Complex.normSq_eq_norm_sq, Complex.normSq_apply, Complex.sub_re, Complex.sub_im, freqResponse_re, freqResponse_im, delay_re, delay_im]
  ring

theorem freq_last (hm : 2 ≤ m) : freq m (m - 1) = Real.pi := by
  have h1 : ((m - 1 : ℕ) : ℝ) = (m : ℝ) - 1 := by rw [Nat.cast_sub (by omega)]; simp
  have h2 : (m : ℝ) - 1 ≠ 0 := by
    have : (2 : ℝ) ≤ m := by exact_mod_cast hm
    linarith
  rw [freq, h1, mul_div_assoc, mul_div_left_comm, div_self h2, mul_one]

theorem freq_range (hm : 2 ≤ m) (i : Fin m) : 0 ≤ freq m i ∧ freq m i ≤ Real.pi ∧ (freq m i = Real.pi → i.val = m - 1) ∧
    (freq m i = 0 → i.val = 0) := by
  have h2 : (0 : ℝ) < (m : ℝ) - 1 := by
    have : (2 : ℝ) ≤ m := by exact_mod_cast hm
    linarith
  have hpi := Real.pi_pos
  have hi : (i.val : ℝ) ≤ (m : ℝ) - 1 := by
    have : (i.val : ℝ) + 1 ≤ m := by exact_mod_cast i.2
    linarith
  refine ⟨by unfold freq; positivity, ?_, fun h => ?_, fun h => ?_⟩
  · rw [freq, div_le_iff₀ h2]; nlinarith
  · rw [freq, div_eq_iff h2.ne', mul_comm] at h
    have := mul_left_cancel₀ hpi.ne' h
    have h3 : ((m - 1 : ℕ) : ℝ) = (m : ℝ) - 1 := by rw [Nat.cast_sub (by omega)]; simp
    rw [← h3] at this
    exact_mod_cast this
  · rw [freq, div_eq_zero_iff, or_iff_left h2.ne', mul_eq_zero, or_iff_left hpi.ne'] at h
    exact_mod_cast h

theorem sin_mul_nat (w : ℕ) : Real.sin (Real.pi * w) = 0 := by rw [mul_comm]; exact Real.sin_nat_mul_pi w

/-- **C108** (lower bound).  At the frequency `π` the response of a real filter is real, so no filter, of whatever length, comes closer to a
delay by `D` samples than `sin²(πD)`. -/
theorem C108_nyquist_bound [NeZero m] (hm : 2 ≤ m) (D : ℝ) (h : Fin n → ℝ) :
    Real.sin (Real.pi * D) ^ 2 ≤ chebErr (delayResponse D m) h := by
  refine le_trans ?_ (Finset.le_sup' (fun i : Fin m => ‖freqResponse h (freq m i) - delayResponse D m i‖ ^ 2)
    (Finset.mem_univ (⟨m - 1, by omega⟩ : Fin m)))
  rw [delay_err]
  simp only [freq_last hm, sin_mul_nat, mul_zero, Finset.sum_const_zero, zero_sub, neg_sq]
  rw [mul_comm D]
  exact le_add_of_nonneg_left (sq_nonneg _)

/-- The one-tap filter for the delay `D`: tap `k` is `cos(π(D - k))`. -/
noncomputable def oneTap (D : ℝ) (k : Fin n) : Fin n → ℝ := Pi.single k (Real.cos (Real.pi * (D - k.val)))

theorem oneTap_err (D : ℝ) (k : Fin n) (i : Fin m) :
    ‖freqResponse (oneTap D k) (freq m i) - delayResponse D m i‖ ^ 2 =
      Real.cos (Real.pi * (D - k.val)) ^ 2 + 1 - 2 * Real.cos (Real.pi * (D - k.val)) * Real.cos (freq m i * (D - k.val)) := by
  set c := Real.cos (Real.pi * (D - k.val)) with hc
  have s : ∀ f : Fin n → ℝ, ∑ j, oneTap D k j * f j = c * f k := fun f => by
    simp [oneTap, Pi.single_apply, ite_mul, ← hc]
  rw [delay_err, s, s, mul_sub, Real.cos_sub, mul_comm D]
  nlinarith [Real.sin_sq_add_cos_sq (freq m i * k.val), Real.sin_sq_add_cos_sq (freq m i * D)]

theorem oneTap_sq (D : ℝ) (k : Fin n) : ∑ i, oneTap D k i ^ 2 = Real.cos (Real.pi * (D - k.val)) ^ 2 := by
  simp [oneTap, Pi.single_apply, ite_pow]

theorem sin_sq_sub_nat (D : ℝ) (k : ℕ) : Real.sin (Real.pi * (D - k)) ^ 2 = Real.sin (Real.pi * D) ^ 2 := by
  rw [Real.sin_sq_eq_half_sub, Real.sin_sq_eq_half_sub]
  have : 2 * (Real.pi * (D - k)) = 2 * (Real.pi * D) - k * (2 * Real.pi) := by ring
  rw [this, Real.cos_sub_nat_mul_two_pi]

/-- **C108** (optimum).  For every delay `D`, any grid with at least two frequencies and any filter length containing the nearest tap `k`: the
best worst-case squared error is exactly `sin²(πD)`, and it is attained by a single tap.  So the other taps of the design problem
of the test are of no use. -/
theorem C108_optimum [NeZero m] (hm : 2 ≤ m) {D : ℝ} {k : Fin n} (hk : |D - k.val| ≤ 1 / 2) :
    IsLeast (Set.range (chebErr (n := n) (delayResponse D m))) (Real.sin (Real.pi * D) ^ 2) ∧
    chebErr (delayResponse D m) (oneTap D k) = Real.sin (Real.pi * D) ^ 2 := by
  have key : chebErr (delayResponse D m) (oneTap D k) = Real.sin (Real.pi * D) ^ 2 := by
    refine le_antisymm (Finset.sup'_le _ _ fun i _ => ?_) (C108_nyquist_bound hm D _)
    obtain ⟨h0, h1, -, -⟩ := freq_range hm i
    have hpi := Real.pi_pos
    rw [oneTap_err, ← sin_sq_sub_nat D k.val, Real.sin_sq]
    have e : ∀ w : ℝ, Real.cos (w * (D - k.val)) = Real.cos (w * |D - k.val|) := fun w => by
      rcases abs_cases (D - k.val) with ⟨h, -⟩ | ⟨h, -⟩ <;> rw [h]
      rw [mul_neg, Real.cos_neg]
    rw [e, e]
    have ha := abs_nonneg (D - k.val)
    have hc0 : 0 ≤ Real.cos (Real.pi * |D - k.val|) := Real.cos_nonneg_of_mem_Icc ⟨by nlinarith, by nlinarith⟩
    have hc1 : Real.cos (Real.pi * |D - k.val|) ≤ Real.cos (freq m i * |D - k.val|) :=
      Real.cos_le_cos_of_nonneg_of_le_pi (by positivity) (by nlinarith) (by gcongr)
    nlinarith
  exact ⟨⟨⟨_, key⟩, by rintro _ ⟨h, rfl⟩; exact C108_nyquist_bound hm D h⟩, key⟩

/-- The test: `D = 8.25`; the optimum is `1/2`. -/
theorem sin_825 : Real.sin (Real.pi * 8.25) ^ 2 = 1 / 2 := by
  have := sin_sq_sub_nat 8.25 8
  rw [← this]
  have e : Real.pi * (8.25 - (8 : ℕ)) = Real.pi / 4 := by push_cast; ring
  rw [e, Real.sin_pi_div_four, div_pow, Real.sq_sqrt (by norm_num)]; norm_num

theorem delay_zero [NeZero m] (D : ℝ) : chebErr (delayResponse D m) (0 : Fin n → ℝ) = 1 := by
  have e : ∀ i : Fin m, ‖freqResponse (0 : Fin n → ℝ) (freq m i) - delayResponse D m i‖ ^ 2 = 1 := fun i => by
    rw [delay_err]
    simp
  unfold chebErr
  simp only [e]
  exact Finset.sup'_const ..


/-- The final level of a run is at most the level after the first call, if the oracle never raises the level. -/
theorem dc_level_first {W X C α T : Type _} [LT α] [DecidableLT α] [Preorder T] [DecidableEq T] {Ω : X → T → W → Except PyErr (W × C × Option T)}
    {S : Space W X C α} {t0 t : T} {o : Options α} {w w' : W} {xb : Option X} {info : CInfo}
    (hmono : ∀ x t w w' c s, Ω x t w = .ok (w', c, some s) → s ≤ t)
    (h : cuttingPlaneDc Ω S t0 o w = .ok (w', xb, t, info)) :
    ∃ w1 c t1, Ω (S.xc w) t0 w = .ok (w1, c, t1) ∧ t ≤ t1.getD t0 := by
  obtain ⟨s, i, hf, -, -, rfl, -⟩ := dc_ok h
  have after : ∀ {u : DcSt W X T} {w1 c t1}, Ω (S.xc u.w) u.t u.w = .ok (w1, c, t1) → (dcAfter S u w1 t1).t = t1.getD u.t ∧
      (dcAfter S u w1 t1).t ≤ u.t := by
    intro u w1 c t1 hq
    cases t1 with
    | none => exact ⟨rfl, le_rfl⟩
    | some s => exact ⟨rfl, hmono _ _ _ _ _ _ hq⟩
  let P (j : ℕ) (u : DcSt W X T) : Prop := (j = 0 ∧ u = ⟨w, none, t0, .success⟩) ∨ ∃ w1 c t1, Ω (S.xc w) t0 w = .ok (w1, c, t1) ∧ u.t ≤ t1.getD t0
  have nxt : ∀ {j u w1 c t1}, P j u → Ω (S.xc u.w) u.t u.w = .ok (w1, c, t1) →
      ∃ w1 c t1', Ω (S.xc w) t0 w = .ok (w1, c, t1') ∧ (dcAfter S u w1 t1).t ≤ t1'.getD t0 := by
    rintro j u w1 c t1 (⟨-, rfl⟩ | ⟨w2, c2, t2, h1, h2⟩) hq
    · exact ⟨_, _, _, hq, (after hq).1.le⟩
    · refine ⟨_, _, _, h1, ?_⟩
      have := (after hq).2.trans h2
      cases t1 <;> exact this
  have key : ∀ {j u}, Rounds (dcBody Ω S o.tol) 0 ⟨w, none, t0, .success⟩ j u → P j u := by
    intro j u hr
    refine Rounds.inv P (.inl ⟨rfl, rfl⟩) ?_ hr
    intro j u u' hP hb
    obtain ⟨w1, c, t1, w2, tsq, hq, -, -, rfl⟩ := dcBody_cont hb
    obtain ⟨a, b, c', h1, h2⟩ := nxt hP hq
    right
    refine ⟨a, b, c', h1, ?_⟩
    cases t1 <;> exact h2
  rcases forRange_ok hf with ⟨s1, hi, hr, hb⟩ | ⟨hi, hr⟩
  · obtain ⟨w1, c, t1, w2, st, tsq, hq, -, h⟩ := dcBody_brk hb
    obtain ⟨a, b, c', h1, h2⟩ := nxt (key hr) hq
    refine ⟨a, b, c', h1, ?_⟩
    rcases h with ⟨-, rfl⟩ | ⟨-, -, rfl⟩ <;> cases t1 <;> exact h2
  · rcases key hr with ⟨h, -⟩ | h
    · omega
    · exact h

theorem fir_level_mono [NeZero m] (Hdes : Fin m → ℂ) (x : Fin n → ℝ) (t : ℝ) (w w' : Unit × Ell n) (c : (Fin n → ℝ) × Beta) (s : ℝ)
    (h : liftOracle ((firData n m Hdes).omega x t) w = .ok (w', c, some s)) : s ≤ t := by
  obtain ⟨g, β, t1, h1, -, h3, -⟩ := C93_fir_oracle Hdes x t
  simp only [liftOracle, FirData.omega, h1, Except.map, Except.ok.injEq, Prod.mk.injEq] at h
  obtain ⟨-, -, rfl⟩ := h
  split_ifs at h3 with hlt
  rw [Option.some.inj h3]; exact hlt.le

/-- **C108** (verdict).  `Problem(E, my_oracle()).solve(t0)`, `t0 > 1`, for any delay whose nearest tap is in range, any grid, any ellipsoid
centred at `0` and all options: if it returns, the status is `"optimal"` or `"feasible"`, `optim_value` is the error of `optim_var` and lies
between `sin²(πD)` and `1`; and if the status is `"optimal"` it is within `δ` of the optimum, `tol ≤ δ²`, provided the one-tap filter is in
the ellipsoid. -/
theorem C108_fir_verdict [NeZero m] (hm : 2 ≤ m) {D : ℝ} {k : Fin n} (hk : |D - k.val| ≤ 1 / 2) {E₀ : Ell n} (hE : E₀.WF)
    (hx : E₀.xc = 0) {o : Options ℝ} {t0 : ℝ} (ht0 : 1 < t0) {w' : Unit × Ell n} {p p' : PState (Fin n → ℝ) ℝ} {v : Option ℝ}
    (hs : solve (fun x t => liftOracle ((firData n m (delayResponse D m)).omega x t)) (Ell.space Unit n) o t0 p ((), E₀) = .ok (w', p', v)) :
    (p'.status = some .optimal ∨ p'.status = some .feasible) ∧
    ∃ h, p'.optimVar = some h ∧ p'.optimValue = some (chebErr (delayResponse D m) h) ∧ v = p'.optimValue ∧
      Real.sin (Real.pi * D) ^ 2 ≤ chebErr (delayResponse D m) h ∧ chebErr (delayResponse D m) h ≤ 1 ∧
      (p'.status = some .optimal → oneTap D k ∈ E₀.pts → ∀ δ, 0 ≤ δ → o.tol ≤ δ ^ 2 →
        chebErr (delayResponse D m) h < Real.sin (Real.pi * D) ^ 2 + δ) := by
  unfold solve at hs
  cases hd : cuttingPlaneDc (fun x t => liftOracle ((firData n m (delayResponse D m)).omega x t)) (Ell.space Unit n) t0 o ((), E₀) with
  | error e => rw [hd] at hs; cases hs
  | ok r =>
    obtain ⟨⟨w, E⟩, xb, t, info⟩ := r
    rw [hd] at hs
    simp only [Except.ok.injEq, Prod.mk.injEq] at hs
    obtain ⟨-, rfl, rfl⟩ := hs
    have ht1 : t ≤ 1 := by
      obtain ⟨w1, c, t1, h1, h2⟩ := dc_level_first (fir_level_mono (delayResponse D m)) hd
      obtain ⟨g, β, t1', a1, -, a3, -⟩ := C93_fir_oracle (delayResponse D m) (0 : Fin n → ℝ) t0
      have hsx : (Ell.space Unit n).xc ((), E₀) = 0 := hx
      rw [hsx] at h1
      simp only [liftOracle, FirData.omega, a1, Except.map, Except.ok.injEq, Prod.mk.injEq] at h1
      obtain ⟨-, -, rfl⟩ := h1
      rw [delay_zero, if_pos ht0] at a3
      rw [a3] at h2
      exact h2
    have hf : info.feasible = true := by
      obtain ⟨s, i, -, -, -, rfl, rfl⟩ := dc_ok hd
      exact decide_eq_true (lt_of_le_of_lt ht1 ht0).ne
    have hv := fun c (hc : 0 ≤ c) => C92_convex_verdict (fir_convexOracle (delayResponse D m) hc) hE (by trivial) hd
    simp only [hf, if_true]
    refine ⟨by by_cases h : info.status = .smallenough <;> simp [h], ?_⟩
    rcases (hv 0 le_rfl).1 with ⟨-, h⟩ | ⟨x, h1, -, h2, h3⟩
    · linarith
    refine ⟨x, h1, by rw [h2], trivial, C108_nyquist_bound hm D x, h2.le.trans ht1, fun ho hin δ h0 hδ => ?_⟩
    have hst : info.status ≠ .success := by
      intro h
      rw [h] at ho; simp at ho
    have := (hv δ h0).2 hst _ hin δ h0 hδ le_rfl
    rw [(C108_optimum hm hk).2] at this
    linarith

/-- **C108** (the test).  `run_firfilter`: `n = 32`, `m = 480`, `D = 8.25`, `ell(10.0, 0)`, with or without the deferral trick, `solve(100.0)`, any
`max_it`, `tol ≤ 1e-8` (the default).  The optimum is `1/2`.  If the call returns, the status is `"optimal"` or `"feasible"` and the value is in
`[1/2, 1]`; if the status is `"optimal"`, as the test demands, the value is in `[0.5, 0.5001)`. -/
theorem C108_test_firfilter (nd : Bool) {E₀ : Ell 32} (hinit : Ell.init (.scalar 10) 0 = .ok E₀) {o : Options ℝ} (htol : o.tol ≤ 1e-8)
    {w' : Unit × Ell 32} {p p' : PState (Fin 32 → ℝ) ℝ} {v : Option ℝ}
    (hs : solve (fun x t => liftOracle ((firData 32 480 (delayResponse 8.25 480)).omega x t)) (Ell.space Unit 32) o 100 p
      ((), { E₀ with noDefer := nd }) = .ok (w', p', v)) :
    IsLeast (Set.range (chebErr (n := 32) (delayResponse 8.25 480))) (1 / 2) ∧
    (p'.status = some .optimal ∨ p'.status = some .feasible) ∧
    ∃ h u, p'.optimVar = some h ∧ p'.optimValue = some u ∧ u = chebErr (delayResponse 8.25 480) h ∧ 1 / 2 ≤ u ∧ u ≤ 1 ∧
      (p'.status = some .optimal → u < 0.5001) := by
  have h10 : (10 : ℝ) = √10 ^ 2 := (Real.sq_sqrt (by norm_num)).symm
  rw [h10] at hinit
  obtain ⟨hwf, hpts, -⟩ := init_bound (r := 1) (by norm_num) hinit
  have hxc : E₀.xc = 0 := by
    unfold Ell.init at hinit
    split at hinit
    · simp at hinit
    simp only [Except.ok.injEq] at hinit
    rw [← hinit]
  have hk : |(8.25 : ℝ) - ((8 : Fin 32).val : ℝ)| ≤ 1 / 2 := by
    rw [show ((8 : Fin 32).val : ℝ) = 8 by norm_num, abs_le]; constructor <;> norm_num
  have hopt := (C108_optimum (m := 480) (by norm_num) hk).1
  obtain ⟨h1, h, h2, h3, -, h4, h5, h6⟩ := C108_fir_verdict (m := 480) (by norm_num) hk
    (E₀ := { E₀ with noDefer := nd }) ⟨hwf.dim, hwf.psd, hwf.kappa⟩ hxc (by norm_num) hs
  rw [sin_825] at h4 h6 hopt
  refine ⟨hopt, h1, h, _, h2, h3, rfl, h4, h5, fun ho => ?_⟩
  have hin : oneTap 8.25 (8 : Fin 32) ∈ ({ E₀ with noDefer := nd } : Ell 32).pts := by
    change _ ∈ E₀.pts
    rw [hpts]
    change ∑ i, (oneTap 8.25 (8 : Fin 32) i - (0 : Fin 32 → ℝ) i) ^ 2 ≤ _
    simp only [Pi.zero_apply, sub_zero, oneTap_sq]
    rw [← h10]
    linarith [Real.cos_sq_le_one (Real.pi * (8.25 - ((8 : Fin 32).val : ℝ)))]
  have := h6 ho hin 1e-4 (by norm_num) (htol.trans (by norm_num))
  norm_num at this ⊢
  linarith


/-- Where the gradient vanishes: only at a frequency matched exactly, or at `π` with the smallest possible error there. -/
theorem fir_grad_zero (hn : 2 ≤ n) (hm : 2 ≤ m) {D : ℝ} {h : Fin n → ℝ} {i : Fin m} (hg : (firData n m (delayResponse D m)).grad h i = 0) :
    (firData n m (delayResponse D m)).err h i = 0 ∨ (firData n m (delayResponse D m)).err h i = Real.sin (Real.pi * D) ^ 2 := by
  have eR : ∀ k : Fin n, (firData n m (delayResponse D m)).aR i k = Real.cos (freq m i * k.val) := fun k => by
    have e : -Complex.I * ((freq m i * (k.val : ℝ) : ℝ) : ℂ) = ((-(freq m i * k.val) : ℝ) : ℂ) * Complex.I := by push_cast; ring
    simp only [firData]
    rw [e, Complex.exp_ofReal_mul_I_re, Real.cos_neg]
  have eI : ∀ k : Fin n, (firData n m (delayResponse D m)).aI i k = -Real.sin (freq m i * k.val) := fun k => by
    have e : -Complex.I * ((freq m i * (k.val : ℝ) : ℝ) : ℂ) = ((-(freq m i * k.val) : ℝ) : ℂ) * Complex.I := by push_cast; ring
    simp only [firData]
    rw [e, Complex.exp_ofReal_mul_I_im, Real.sin_neg]
  have hI : (firData n m (delayResponse D m)).Hi i = -Real.sin (D * freq m i) := delay_im D i
  have g0 := congrFun hg ⟨0, by omega⟩
  have g1 := congrFun hg ⟨1, by omega⟩
  simp only [FirData.grad, Pi.smul_apply, Pi.add_apply, eR, eI, smul_eq_mul, Nat.cast_zero, mul_zero, Real.cos_zero, Real.sin_zero,
    neg_zero, add_zero, mul_one, Nat.cast_one, Pi.zero_apply] at g0 g1
  have hr : (firData n m (delayResponse D m)).aR i ⬝ᵥ h - (firData n m (delayResponse D m)).Hr i = 0 := by linarith
  rw [hr] at g1
  simp only [zero_mul, zero_add, mul_neg, neg_eq_zero, mul_eq_zero, OfNat.ofNat_ne_zero, false_or] at g1
  simp only [FirData.err, hr]
  rcases g1 with g1 | g1
  · left; rw [g1]; norm_num
  · obtain ⟨h0, h1, -, -⟩ := freq_range hm i
    have hw : freq m i = 0 ∨ freq m i = Real.pi := by
      by_contra hc
      push Not at hc
      exact (Real.sin_pos_of_pos_of_lt_pi (lt_of_le_of_ne h0 (Ne.symm hc.1)) (lt_of_le_of_ne h1 hc.2)).ne' g1
    have hz : (firData n m (delayResponse D m)).aI i ⬝ᵥ h = 0 := by
      simp only [dotProduct, eI]
      refine Finset.sum_eq_zero fun k _ => ?_
      rcases hw with hw | hw
      · rw [hw, zero_mul, Real.sin_zero]; ring
      · rw [hw, sin_mul_nat]; ring
    rw [hz, hI]
    rcases hw with hw | hw
    · left; rw [hw]; simp
    · right; rw [hw, mul_comm D]; ring

/-- **C108** (exceptions).  The same runs on an ellipsoid of full dimension, `n, m ≥ 2`, `max_it ≥ 1`, `t0 ≥ sin²(πD)`: they return, unless in some
round a cut is exactly tangent or an exactly optimal filter was found. -/
theorem C108_fir_returns [NeZero m] (hn : 2 ≤ n) (hm : 2 ≤ m) {D : ℝ} {E₀ : Ell n} (hE : E₀.Proper) {o : Options ℝ} (hmax : 1 ≤ o.maxIt) {t0 : ℝ}
    (ht0 : Real.sin (Real.pi * D) ^ 2 ≤ t0) :
    (∃ r, cuttingPlaneDc (fun x t => liftOracle ((firData n m (delayResponse D m)).omega x t)) (Ell.space Unit n) t0 o ((), E₀) = .ok r) ∨
    ∃ (k : ℕ) (s : DcSt (Unit × Ell n) (Fin n → ℝ) ℝ) (g : Fin n → ℝ) (b : ℝ) (t1 : Option ℝ), (k : ℤ) < o.maxIt ∧
      Rounds (dcBody (fun x t => liftOracle ((firData n m (delayResponse D m)).omega x t)) (Ell.space Unit n) o.tol) 0
        ⟨((), E₀), none, t0, .success⟩ k s ∧
      (firData n m (delayResponse D m)).call s.w.2.xc s.t = .ok ((g, .scalar b), t1) ∧
      (t1.getD s.t = Real.sin (Real.pi * D) ^ 2 ∨ b = √(s.w.2.kappa * (g ⬝ᵥ s.w.2.Q *ᵥ g))) := by
  have key := C106_dc (Ω := (firData n m (delayResponse D m)).omega) (Inv := fun _ t => Real.sin (Real.pi * D) ^ 2 ≤ t) (fun x t w hw => by
    obtain ⟨g, β, t1, h1, -, h3, -⟩ := C93_fir_oracle (delayResponse D m) x t
    refine ⟨(), (g, .scalar β), t1, by simp [FirData.omega, h1, Except.map], ?_⟩
    rw [h3]
    split_ifs
    · exact C108_nyquist_bound hm D x
    · exact hw) hE hmax (w₀ := ()) ht0
  refine key.imp_right ?_
  rintro ⟨k, s, w1, c, t1, hk, hr, hi, hp, hq, hc⟩
  have hne : List.finRange m ≠ [] := by
    intro h
    have := List.mem_finRange (0 : Fin m)
    rw [h] at this; simp at this
  have crit : ∀ {g : Fin n → ℝ} {b : ℝ}, 0 ≤ b → Critical s.w.2 (g, .scalar b) → g = 0 ∨ b = √(s.w.2.kappa * (g ⬝ᵥ s.w.2.Q *ᵥ g)) := by
    rintro g b hb (h | h | h)
    · exact .inl h
    · exact .inr h
    · by_cases hg : g = 0
      · exact .inl hg
      · exfalso
        have hpos : 0 < g ⬝ᵥ s.w.2.Q *ᵥ g := (pd_iff.1 hp.pd).2 g hg
        have := Real.sqrt_pos.2 (mul_pos hp.kappa hpos)
        have hn0 : (0 : ℝ) ≤ n := Nat.cast_nonneg n
        simp only at h
        nlinarith
  rcases FirData.loop_spec (firData n m (delayResponse D m)) s.w.2.xc s.t (List.finRange m) none [] (by simp) (by simp) (by simp)
      (by simpa using hne) with ⟨i, -, h1, h2⟩ | ⟨i, -, h1, h2⟩
  all_goals
    simp only [FirData.omega, FirData.call, h2, Except.map, Except.ok.injEq, Prod.mk.injEq] at hq
    obtain ⟨-, rfl, rfl⟩ := hq
    refine ⟨k, s, _, _, _, hk, hr, h2, ?_⟩
  · refine (crit (by linarith) hc).imp_left fun hg => ?_
    rcases fir_grad_zero hn hm hg with h | h
    · rw [h] at h1
      change s.t = _
      have := sq_nonneg (Real.sin (Real.pi * D))
      linarith
    · rw [h] at h1
      exact le_antisymm h1 hi
  · refine (crit le_rfl hc).imp_left fun hg => ?_
    have hb : Real.sin (Real.pi * D) ^ 2 ≤ (firData n m (delayResponse D m)).err s.w.2.xc i := by
      refine (C108_nyquist_bound hm D s.w.2.xc).trans (Finset.sup'_le _ _ fun j _ => ?_)
      rw [← FirData.err_eq]
      exact (h1 j (by simp)).1
    change (firData n m (delayResponse D m)).err s.w.2.xc i = _
    rcases fir_grad_zero hn hm hg with h | h
    · have := sq_nonneg (Real.sin (Real.pi * D))
      linarith
    · exact h

theorem Ell.update_zero (E : Ell n) : update (0, .scalar 0) E = .error .zeroDivision := by
  have hs : pySqrt (0 : ℝ) = .ok 0 := by rw [pySqrt_ok]; simp
  simp [update, calcLl, calcDc, hs, calcCc, pyDiv]

/-- **C108** (finding).  Finding the exact optimum is not harmless: started at the optimal one-tap filter, the gradient at the worst frequency is
zero and the first update divides zero by zero, for every fractional delay, grid, start level, shape of the ellipsoid and options. -/
theorem C108_optimal_start_raises [NeZero m] (hm : 2 ≤ m) {D : ℝ} {k : Fin n} (hk0 : 0 < |D - k.val|) (hk : |D - k.val| < 1 / 2)
    {E₀ : Ell n} (hx : E₀.xc = oneTap D k) {t0 : ℝ} (ht0 : Real.sin (Real.pi * D) ^ 2 < t0) {o : Options ℝ} (hmax : 1 ≤ o.maxIt) :
    cuttingPlaneDc (fun x t => liftOracle ((firData n m (delayResponse D m)).omega x t)) (Ell.space Unit n) t0 o ((), E₀) =
      .error .zeroDivision := by
  have hpi := Real.pi_pos
  have hopt := (C108_optimum (m := m) hm hk.le).2
  have hne : List.finRange m ≠ [] := by
    intro h
    have := List.mem_finRange (0 : Fin m)
    rw [h] at this; simp at this
  have hle : ∀ i, (firData n m (delayResponse D m)).err (oneTap D k) i ≤ Real.sin (Real.pi * D) ^ 2 := fun i => by
    rw [FirData.err_eq, ← hopt]
    exact Finset.le_sup' (fun i : Fin m => ‖freqResponse (oneTap D k) (freq m i) - delayResponse D m i‖ ^ 2) (Finset.mem_univ i)
  have hcall : ∃ t1, (firData n m (delayResponse D m)).call (oneTap D k) t0 = .ok ((0, .scalar 0), t1) := by
    rcases FirData.loop_spec (firData n m (delayResponse D m)) (oneTap D k) t0 (List.finRange m) none [] (by simp) (by simp) (by simp)
      (by simpa using hne) with ⟨i, -, h1, h2⟩ | ⟨i, -, h1, h2⟩
    · exact absurd (h1.trans (hle i)) (not_le.2 ht0)
    · refine ⟨some ((firData n m (delayResponse D m)).err (oneTap D k) i), h2.trans ?_⟩
      have hs : Real.sin (Real.pi * D) ^ 2 ≤ (firData n m (delayResponse D m)).err (oneTap D k) i := by
        rw [← hopt]
        refine Finset.sup'_le _ _ fun j _ => ?_
        rw [← FirData.err_eq]
        exact (h1 j (by simp)).1
      have hw : freq m i = Real.pi := by
        obtain ⟨h0, h1, -, -⟩ := freq_range hm i
        refine le_antisymm h1 (not_lt.1 fun hlt => ?_)
        rw [FirData.err_eq, oneTap_err, ← sin_sq_sub_nat D k.val, Real.sin_sq] at hs
        have e : ∀ w : ℝ, Real.cos (w * (D - k.val)) = Real.cos (w * |D - k.val|) := fun w => by
          rcases abs_cases (D - k.val) with ⟨h, -⟩ | ⟨h, -⟩ <;> rw [h]
          rw [mul_neg, Real.cos_neg]
        rw [e, e] at hs
        have hc0 : 0 < Real.cos (Real.pi * |D - k.val|) := Real.cos_pos_of_mem_Ioo ⟨by nlinarith, by nlinarith⟩
        have hc1 : Real.cos (Real.pi * |D - k.val|) < Real.cos (freq m i * |D - k.val|) :=
          Real.cos_lt_cos_of_nonneg_of_le_pi (by positivity) (by nlinarith) (by gcongr)
        nlinarith
      have eI : ∀ j : Fin n, (firData n m (delayResponse D m)).aI i j = 0 := fun j => by
        have e : -Complex.I * ((freq m i * (j.val : ℝ) : ℝ) : ℂ) = ((-(freq m i * j.val) : ℝ) : ℂ) * Complex.I := by push_cast; ring
        simp only [firData]
        rw [e, Complex.exp_ofReal_mul_I_im, Real.sin_neg, hw, sin_mul_nat, neg_zero]
      have hr : (firData n m (delayResponse D m)).aR i ⬝ᵥ oneTap D k - (firData n m (delayResponse D m)).Hr i = 0 := by
        have e1 : (firData n m (delayResponse D m)).aR i k = Real.cos (Real.pi * k.val) := by
          have e : -Complex.I * ((freq m i * (k.val : ℝ) : ℝ) : ℂ) = ((-(freq m i * k.val) : ℝ) : ℂ) * Complex.I := by push_cast; ring
          simp only [firData]
          rw [e, Complex.exp_ofReal_mul_I_re, Real.cos_neg, hw]
        have e2 : (firData n m (delayResponse D m)).Hr i = Real.cos (Real.pi * D) := by
          rw [show (firData n m (delayResponse D m)).Hr i = (delayResponse D m i).re from rfl, delay_re, hw, mul_comm]
        rw [oneTap, dotProduct_single, e1, e2, mul_sub, Real.cos_sub, sin_mul_nat]
        have := Real.sin_sq_add_cos_sq (Real.pi * (k.val : ℝ))
        rw [sin_mul_nat] at this
        linear_combination Real.cos (Real.pi * D) * this
      have hg : (firData n m (delayResponse D m)).grad (oneTap D k) i = 0 := by
        funext j
        simp only [FirData.grad, hr, Pi.smul_apply, Pi.add_apply, eI, smul_eq_mul, zero_mul, mul_zero, add_zero, Pi.zero_apply]
      rw [hg]
  obtain ⟨t1, hcall⟩ := hcall
  have hq : liftOracle ((firData n m (delayResponse D m)).omega (oneTap D k) t0) ((), E₀) = .ok (((), E₀), (0, .scalar 0), t1) := by
    simp only [liftOracle, FirData.omega, hcall, Except.map]
  obtain ⟨q, hm'⟩ : ∃ q, o.maxIt.toNat = q + 1 := ⟨o.maxIt.toNat - 1, by omega⟩
  have hsx : (Ell.space Unit n).xc ((), E₀) = oneTap D k := hx
  simp only [cuttingPlaneDc, forRange, hm', forLoop, dcBody]
  rw [hsx, hq]
  simp [Ell.space, Ell.update_zero]

/-! ### Concrete cases: the data of the test -/

theorem exDelay : 0 < |(8.25 : ℝ) - ((8 : Fin 32).val : ℝ)| ∧ |(8.25 : ℝ) - ((8 : Fin 32).val : ℝ)| < 1 / 2 := by
  rw [show ((8 : Fin 32).val : ℝ) = 8 by norm_num, abs_of_pos (by norm_num)]; constructor <;> norm_num

example {o : Options ℝ} (hmax : 1 ≤ o.maxIt) := C108_optimal_start_raises (m := 480) (by norm_num) exDelay.1 exDelay.2
  (E₀ := ⟨true, false, oneTap 8.25 8, 1, 10⟩) rfl (t0 := 100) (by rw [sin_825]; norm_num) hmax

example {o : Options ℝ} (hmax : 1 ≤ o.maxIt) := C108_fir_returns (n := 32) (m := 480) (D := 8.25) (by norm_num) (by norm_num)
  (E₀ := ⟨true, false, 0, 1, 10⟩) ⟨by norm_num, Matrix.PosDef.one, by norm_num⟩ hmax (t0 := 100) (by rw [sin_825]; norm_num)

example : ∃ E₀ : Ell 32, Ell.init (.scalar 10) 0 = .ok E₀ := by
  unfold Ell.init c1? pyDiv; norm_num

end Verif
