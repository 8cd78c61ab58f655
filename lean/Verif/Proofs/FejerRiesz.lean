import Mathlib.Analysis.Complex.Polynomial.Basic
import Mathlib.Algebra.Polynomial.Reverse
import Verif.Props.SpectralFact

/-! # Spectral factorisation of positive cosine polynomials (Fejér-Riesz, strictly positive case, real coefficients) -/
namespace Verif
open Polynomial Complex

/-- A self-reciprocal polynomial with real coefficients and no zero on the unit circle is, up to a monomial, `Q · Q*` with `Q`
real and all zeros of `Q` outside the disc. -/
theorem split_reciprocal {N : ℕ} {P : ℂ[X]} (hP : P ≠ 0) (hdeg : P.natDegree ≤ 2 * N)
    (hreal : P.map (starRingEnd ℂ) = P) (hrefl : P.reflect (2 * N) = P) (hcirc : ∀ z : ℂ, ‖z‖ = 1 → P.eval z ≠ 0) :
    ∃ (Q : ℂ[X]) (c : ℂ), Q.map (starRingEnd ℂ) = Q ∧ Q.natDegree ≤ N ∧ Q.Monic ∧ (∀ z : ℂ, Q.eval z = 0 → 1 < ‖z‖) ∧
      P = C c * X ^ (N - Q.natDegree) * (Q * Q.reflect Q.natDegree) := by
  classical
  set S := P.roots.filter fun z => 1 < ‖z‖ with hS
  set Q := (S.map fun a => X - C a).prod with hQ
  have hmonic : Q.Monic := monic_multisetProd_X_sub_C S
  have hroots : Q.roots = S := roots_multiset_prod_X_sub_C S
  have hout : ∀ z : ℂ, Q.eval z = 0 → 1 < ‖z‖ := fun z hz => by
    have : z ∈ Q.roots := (mem_roots hmonic.ne_zero).2 hz
    rw [hroots, hS, Multiset.mem_filter] at this
    exact this.2
  have hQreal : Q.map (starRingEnd ℂ) = Q := by
    have h1 : P.roots.map (starRingEnd ℂ) = P.roots := by
      have := roots_map_of_injective_of_card_eq_natDegree (p := P) (f := starRingEnd ℂ) (starRingEnd ℂ).injective
        (IsAlgClosed.card_roots_eq_natDegree (p := P))
      rw [hreal] at this
      exact this
    have h2 : S.map (starRingEnd ℂ) = S := by
      conv_rhs => rw [hS, ← h1, Multiset.filter_map]
      rw [hS]
      congr 1
      refine Multiset.filter_congr fun z _ => ?_
      simp
    rw [hQ, Polynomial.map_multiset_prod, Multiset.map_map]
    conv_rhs => rw [← h2, Multiset.map_map]
    congr 1
    refine Multiset.map_congr rfl fun z _ => ?_
    simp
  have hdvd : Q ∣ P := by
    refine dvd_trans ?_ (prod_multiset_X_sub_C_dvd P)
    exact Multiset.prod_dvd_prod_of_le (Multiset.map_le_map (Multiset.filter_le _ _))
  set d := Q.natDegree with hd
  have h0 : Q.coeff 0 ≠ 0 := fun h => by
    have := hout 0 (by rw [← coeff_zero_eq_eval_zero]; exact h)
    simp at this
    linarith
  set Qs := Q.reflect d with hQs
  have hQs_deg : Qs.natDegree = d := by
    refine le_antisymm (natDegree_reflect_le.trans (by simp [hd])) (le_natDegree_of_ne_zero ?_)
    rw [hQs, coeff_reflect, revAt_le le_rfl, Nat.sub_self]; exact h0
  have hQs_ne : Qs ≠ 0 := by rw [hQs, Ne, reflect_eq_zero_iff]; exact hmonic.ne_zero
  have hQs_dvd : Qs ∣ P := by
    obtain ⟨G, hG⟩ := hdvd
    have hG0 : G ≠ 0 := fun h => hP (by rw [hG, h, mul_zero])
    have hdG : P.natDegree = d + G.natDegree := by rw [hG, natDegree_mul hmonic.ne_zero hG0]
    refine ⟨G.reflect (2 * N - d), ?_⟩
    rw [hQs, ← reflect_mul Q G le_rfl (by omega), ← hG, show d + (2 * N - d) = 2 * N by omega, hrefl]
  have hQs_in : ∀ z : ℂ, Qs.eval z = 0 → ‖z‖ < 1 := fun z hz => by
    have hz0 : z ≠ 0 := by
      rintro rfl
      rw [← coeff_zero_eq_eval_zero, hQs, coeff_reflect, revAt_le (Nat.zero_le _), Nat.sub_zero] at hz
      exact one_ne_zero (hmonic.leadingCoeff.symm.trans hz)
    let _ := invertibleOfNonzero (inv_ne_zero hz0)
    have h1 := (eval₂_reflect_eq_zero_iff (RingHom.id ℂ) z⁻¹ d Q le_rfl).1 (by
      rw [invOf_eq_inv, inv_inv]; exact hz)
    have h2 := hout z⁻¹ h1
    rw [norm_inv] at h2
    exact (one_lt_inv₀ (norm_pos_iff.2 hz0)).1 h2
  have hcop : IsCoprime Q Qs := by
    rw [Polynomial.isCoprime_iff_aeval_ne_zero_of_isAlgClosed ℂ ℂ]
    intro z
    by_contra h
    rw [not_or, not_not, not_not] at h
    have h1 := hout z (by simpa using h.1)
    have h2 := hQs_in z (by simpa using h.2)
    linarith
  obtain ⟨K, hK⟩ := hcop.mul_dvd hdvd hQs_dvd
  have hK0 : K ≠ 0 := fun h => hP (by rw [hK, h, mul_zero])
  have hQQ : Q * Qs ≠ 0 := mul_ne_zero hmonic.ne_zero hQs_ne
  have hdegs : P.natDegree = d + d + K.natDegree := by
    rw [hK, natDegree_mul hQQ hK0, natDegree_mul hmonic.ne_zero hQs_ne, hQs_deg]
  have hKroot : ∀ z : ℂ, K.eval z = 0 → ‖z‖ < 1 := fun z hz => by
    have hPz : P.eval z = 0 := by rw [hK, eval_mul, hz, mul_zero]
    rcases lt_trichotomy ‖z‖ 1 with h | h | h
    · exact h
    · exact absurd hPz (hcirc z h)
    · exfalso
      have h1 : P.roots = Q.roots + Qs.roots + K.roots := by
        rw [hK, roots_mul (mul_ne_zero hQQ hK0), roots_mul hQQ]
      have h2 := congrArg (Multiset.count z) h1
      rw [Multiset.count_add, Multiset.count_add, hroots, hS, Multiset.count_filter_of_pos (p := fun z : ℂ => 1 < ‖z‖) h] at h2
      have h3 : 0 < Multiset.count z K.roots := Multiset.count_pos.2 ((mem_roots hK0).2 hz)
      omega
  have hKrefl : K.reflect (2 * N - 2 * d) = K := by
    have h1 : P.reflect (2 * N) = Q * Qs * K.reflect (2 * N - 2 * d) := by
      conv_lhs => rw [hK, show 2 * N = (d + d) + (2 * N - 2 * d) by omega]
      rw [reflect_mul _ _ ?_ (by omega), reflect_mul Q Qs le_rfl hQs_deg.le]
      · rw [hQs, reflect_reflect, mul_comm (reflect d Q) Q]
      · rw [natDegree_mul hmonic.ne_zero hQs_ne, hQs_deg]
    rw [hrefl, hK] at h1
    exact (mul_left_cancel₀ hQQ h1).symm
  have hKzero : ∀ z : ℂ, K.eval z = 0 → z = 0 := fun z hz => by
    by_contra hz0
    let _ := invertibleOfNonzero hz0
    have h1 := (eval₂_reflect_eq_zero_iff (RingHom.id ℂ) z (2 * N - 2 * d) K (by omega)).2 hz
    rw [hKrefl, invOf_eq_inv] at h1
    have h2 := hKroot z⁻¹ h1
    have h3 := hKroot z hz
    rw [norm_inv] at h2
    have := (inv_lt_one₀ (norm_pos_iff.2 hz0)).1 h2
    linarith
  have hKform : K = C K.leadingCoeff * X ^ K.natDegree := by
    have h1 := (IsAlgClosed.splits K).eq_prod_roots
    have h2 : K.roots = Multiset.replicate K.natDegree 0 := by
      rw [Multiset.eq_replicate]
      exact ⟨IsAlgClosed.card_roots_eq_natDegree, fun z hz => hKzero z ((mem_roots hK0).1 hz)⟩
    rw [h2] at h1
    simpa using h1
  have hexp : K.natDegree = N - d := by
    have h1 := hKrefl
    rw [hKform, reflect_C_mul_X_pow, revAt_le (by omega)] at h1
    have h2 := congrArg (fun p => p.coeff K.natDegree) h1
    simp only [coeff_C_mul, coeff_X_pow, if_true, mul_one] at h2
    by_contra hne
    rw [if_neg (by omega), mul_zero] at h2
    exact hK0 (leadingCoeff_eq_zero.1 h2.symm)
  refine ⟨Q, K.leadingCoeff, hQreal, by omega, hmonic, hout, ?_⟩
  conv_lhs => rw [hK, hKform, hexp]
  ring

theorem reflect_sum {ι : Type _} (s : Finset ι) (f : ι → ℂ[X]) (N : ℕ) :
    (∑ i ∈ s, f i).reflect N = ∑ i ∈ s, (f i).reflect N := by
  classical
  induction s using Finset.induction_on with
  | empty => simp
  | insert a s ha ih => rw [Finset.sum_insert ha, Finset.sum_insert ha, reflect_add, ih]

/-- `z^N R(w)` as a polynomial in `z = e^{iw}`. -/
noncomputable def specPoly {N : ℕ} (r : Fin (N + 1) → ℝ) : ℂ[X] :=
  ∑ t : Fin (N + 1), C ((r t : ℝ) : ℂ) * if t.val = 0 then X ^ N else X ^ (N + t.val) + X ^ (N - t.val)

theorem specPoly_eval {N : ℕ} (r : Fin (N + 1) → ℝ) (w : ℝ) :
    (specPoly r).eval (exp (w * I)) = exp (w * I) ^ N * powerSpectrum r w := by
  rw [specPoly, eval_finsetSum, powerSpectrum, Complex.ofReal_sum, Finset.mul_sum]
  refine Finset.sum_congr rfl fun t _ => ?_
  split_ifs with h
  · simp only [eval_mul, eval_C, eval_pow, eval_X]; push_cast; ring
  · simp only [eval_mul, eval_C, eval_pow, eval_X, eval_add]
    have h1 : exp (w * I) ^ (N + t.val) = exp (w * I) ^ N * exp (((t.val * w : ℝ) : ℂ) * I) := by
      rw [pow_add, ← Complex.exp_nat_mul (w * I) t.val]; congr 2; push_cast; ring
    have h2 : exp (w * I) ^ (N - t.val) = exp (w * I) ^ N * exp (-(((t.val * w : ℝ) : ℂ) * I)) := by
      have h3 : exp (w * I) ^ (N - t.val) * exp (w * I) ^ t.val = exp (w * I) ^ N := by
        rw [← pow_add]; congr 1; omega
      rw [← h3, mul_assoc, ← Complex.exp_nat_mul (w * I) t.val, ← Complex.exp_add]
      have : (t.val : ℂ) * (w * I) + -(((t.val * w : ℝ) : ℂ) * I) = 0 := by push_cast; ring
      rw [this, Complex.exp_zero, mul_one]
    rw [h1, h2]
    have h4 := Complex.two_cos (((t.val * w : ℝ) : ℂ))
    rw [neg_mul] at h4
    have h5 : ((2 * Real.cos (t.val * w) * r t : ℝ) : ℂ) = 2 * Complex.cos (((t.val * w : ℝ) : ℂ)) * r t := by
      push_cast; ring
    rw [h5, h4]
    ring

/-- Different coefficient vectors have different power spectra. -/
theorem powerSpectrum_inj {n : ℕ} (hn : 0 < n) {a b : Fin n → ℝ} (h : ∀ w, powerSpectrum a w = powerSpectrum b w) : a = b := by
  set d : Fin (2 * n) → ℝ := fun t => if h : t.val < n then a ⟨t.val, h⟩ - b ⟨t.val, h⟩ else 0 with hd
  have key := fold_eq_zero (n := 2 * n) (by omega) d fun k _ => by
    have e : ∀ w, powerSpectrum d w = powerSpectrum a w - powerSpectrum b w := by
      intro w
      have e1 : ∀ (m : ℕ) (c : Fin m → ℝ), powerSpectrum c w =
          ∑ t ∈ Finset.range m, (if t = 0 then 1 else 2 * Real.cos (t * w)) * zext c t := by
        intro m c
        rw [powerSpectrum, Finset.sum_range]
        exact Finset.sum_congr rfl fun t _ => by rw [zext, dif_pos t.2]
      rw [e1, e1, e1, ← Finset.sum_sub_distrib]
      symm
      refine Finset.sum_subset_zero_on_sdiff (Finset.range_mono (by omega)) ?_ ?_
      · intro t ht
        rw [Finset.mem_sdiff, Finset.mem_range, Finset.mem_range] at ht
        rw [zext, dif_pos ht.1, hd]
        simp only [dif_neg ht.2, mul_zero]
      · intro t ht
        rw [Finset.mem_range] at ht
        simp only [zext, hd, dif_pos ht, dif_pos (show t < 2 * n by omega), mul_sub]
    rw [e, h, sub_self]
  funext t
  by_cases h0 : t.val = 0
  · have := key.1
    simp only [hd, dif_pos hn] at this
    rw [show t = ⟨0, hn⟩ from Fin.ext h0]
    linarith
  · have := key.2 t.val (Nat.pos_of_ne_zero h0) (by omega)
    simp only [hd, dif_pos t.2, dif_neg (show ¬ 2 * n - t.val < n by omega), add_zero] at this
    linarith

theorem norm_transfer_sq {n : ℕ} (h : Fin n → ℝ) (w : ℝ) : ‖transfer h (exp (w * I))‖ ^ 2 =
    (∑ k : Fin n, h k * Real.cos (k * w)) ^ 2 + (∑ k : Fin n, h k * Real.sin (k * w)) ^ 2 := by
  have e : ∀ k : ℕ, exp (w * I) ^ k = exp (((k * w : ℝ) : ℂ) * I) := fun k => by
    rw [← Complex.exp_nat_mul]; congr 1; push_cast; ring
  rw [← Complex.normSq_eq_norm_sq, Complex.normSq_apply, transfer, Complex.re_sum, Complex.im_sum, ← sq, ← sq]
  congr 2 <;> refine Finset.sum_congr rfl fun k _ => ?_
  · rw [Complex.re_ofReal_mul, e, Complex.exp_ofReal_mul_I_re]
  · rw [Complex.im_ofReal_mul, e, Complex.exp_ofReal_mul_I_im]

/-- Every coefficient vector with positive power spectrum is the autocorrelation of a minimum-phase impulse response. -/
theorem fejer_riesz {n : ℕ} (hn : 0 < n) {r : Fin n → ℝ} (hR : ∀ w, 0 < powerSpectrum r w) :
    ∃ (h0 : Fin n → ℝ) (ρ : ℝ), 0 < h0 ⟨0, hn⟩ ∧ 0 ≤ ρ ∧ ρ < 1 ∧ (∀ z, transfer h0 z = 0 → 1 ≤ ρ * ‖z‖) ∧
      inverseSpectralFact h0 = r := by
  classical
  obtain ⟨N, rfl⟩ : ∃ N, n = N + 1 := ⟨n - 1, by omega⟩
  have hcircle : ∀ z : ℂ, ‖z‖ = 1 → ∃ w : ℝ, z = exp (w * I) := fun z hz => ⟨z.arg, by
    have := Complex.norm_mul_exp_arg_mul_I z
    rw [hz] at this; simpa using this.symm⟩
  have hP1 : ∀ z : ℂ, ‖z‖ = 1 → (specPoly r).eval z ≠ 0 := by
    intro z hz
    obtain ⟨w, rfl⟩ := hcircle z hz
    rw [specPoly_eval]
    exact mul_ne_zero (pow_ne_zero _ (Complex.exp_ne_zero _)) (Complex.ofReal_ne_zero.2 (hR w).ne')
  have hP0 : specPoly r ≠ 0 := fun h => hP1 1 (by simp) (by rw [h]; simp)
  have hdeg : (specPoly r).natDegree ≤ 2 * N := by
    refine natDegree_sum_le_of_forall_le _ _ fun t _ => ?_
    refine (natDegree_C_mul_le _ _).trans ?_
    split_ifs
    · rw [natDegree_X_pow]; omega
    · refine (natDegree_add_le _ _).trans (max_le ?_ ?_) <;> rw [natDegree_X_pow] <;> omega
  have hreal : (specPoly r).map (starRingEnd ℂ) = specPoly r := by
    rw [specPoly, Polynomial.map_sum]
    refine Finset.sum_congr rfl fun t _ => ?_
    split_ifs <;> simp
  have hrefl : (specPoly r).reflect (2 * N) = specPoly r := by
    rw [specPoly, reflect_sum]
    refine Finset.sum_congr rfl fun t _ => ?_
    rw [reflect_C_mul]
    split_ifs
    · rw [reflect_monomial, revAt_le (by omega)]; congr 2; omega
    · rw [reflect_add, reflect_monomial, reflect_monomial, revAt_le (by omega), revAt_le (by omega), add_comm]
      congr 3 <;> omega
  obtain ⟨Q, c, hQreal, hQdeg, hmonic, hout, hfac⟩ := split_reciprocal hP0 hdeg hreal hrefl hP1
  have hcoef : ∀ j, Q.coeff j = ((Q.coeff j).re : ℂ) := fun j => by
    have : (starRingEnd ℂ) (Q.coeff j) = Q.coeff j := by rw [← coeff_map, hQreal]
    exact (Complex.conj_eq_iff_re.1 this).symm
  -- on the circle
  have hcirc : ∀ w : ℝ, ((powerSpectrum r w : ℝ) : ℂ) = c * ((‖Q.eval (exp (w * I))‖ ^ 2 : ℝ) : ℂ) := by
    intro w
    set u := exp (w * I) with hu
    have hu0 : u ≠ 0 := Complex.exp_ne_zero _
    have hun : ‖u‖ = 1 := by rw [hu, Complex.norm_exp_ofReal_mul_I]
    have hconj : (starRingEnd ℂ) u = u⁻¹ := by rw [Complex.inv_def, Complex.normSq_eq_norm_sq, hun]; simp
    have h1 : (Q.reflect Q.natDegree).eval u = u ^ Q.natDegree * (starRingEnd ℂ) (Q.eval u) := by
      let _ := invertibleOfNonzero (inv_ne_zero hu0)
      have h2 := eval₂_reflect_mul_pow (RingHom.id ℂ) u⁻¹ Q.natDegree Q le_rfl
      rw [invOf_eq_inv, inv_inv] at h2
      change (Q.reflect Q.natDegree).eval u * u⁻¹ ^ Q.natDegree = Q.eval u⁻¹ at h2
      have h3 : Q.eval u⁻¹ = (starRingEnd ℂ) (Q.eval u) := by
        rw [← hconj]
        conv_lhs => rw [← hQreal]
        rw [eval_map, Polynomial.eval₂_at_apply]
      rw [← h3, ← h2, inv_pow, mul_comm, mul_assoc, inv_mul_cancel₀ (pow_ne_zero _ hu0), mul_one]
    have h4 := specPoly_eval r w
    rw [hfac, ← hu] at h4
    simp only [eval_mul, eval_C, eval_pow, eval_X, h1] at h4
    have h5 : u ^ N = u ^ (N - Q.natDegree) * u ^ Q.natDegree := by rw [← pow_add]; congr 1; omega
    have h6 : Q.eval u * (starRingEnd ℂ) (Q.eval u) = ((‖Q.eval u‖ ^ 2 : ℝ) : ℂ) := by
      rw [Complex.mul_conj, Complex.normSq_eq_norm_sq]
    have h7 : u ^ N ≠ 0 := pow_ne_zero _ hu0
    apply mul_left_cancel₀ h7
    rw [← h4, ← h6, h5]
    ring
  -- the constant
  have hQ1 : 0 < ‖Q.eval (exp ((0 : ℝ) * I))‖ ^ 2 := by
    refine pow_pos (norm_pos_iff.2 fun h => ?_) 2
    have := hout _ h
    rw [Complex.norm_exp_ofReal_mul_I] at this
    linarith
  set γ : ℝ := powerSpectrum r 0 / ‖Q.eval (exp ((0 : ℝ) * I))‖ ^ 2 with hγ
  have hγpos : 0 < γ := div_pos (hR 0) hQ1
  have hcγ : c = (γ : ℂ) := by
    have h1 := hcirc 0
    have h2 : ((‖Q.eval (exp ((0 : ℝ) * I))‖ ^ 2 : ℝ) : ℂ) ≠ 0 := Complex.ofReal_ne_zero.2 hQ1.ne'
    rw [hγ, Complex.ofReal_div, h1, mul_div_cancel_right₀ _ h2]
  have hmag : ∀ w : ℝ, powerSpectrum r w = γ * ‖Q.eval (exp (w * I))‖ ^ 2 := fun w => by
    have := hcirc w
    rw [hcγ] at this
    exact_mod_cast this
  -- sign of the leading tap
  have hq0 : (Q.coeff 0).re ≠ 0 := fun h => by
    have h1 : Q.eval 0 = 0 := by rw [← coeff_zero_eq_eval_zero, hcoef 0, h]; simp
    have := hout 0 h1
    simp at this
    linarith
  set σ : ℝ := ((SignType.sign (Q.coeff 0).re : SignType) : ℝ) with hσ
  have hσ2 : σ ^ 2 = 1 := by
    rcases lt_or_gt_of_ne hq0 with h | h
    · simp [hσ, sign_neg h]
    · simp [hσ, sign_pos h]
  have hσq : 0 < σ * (Q.coeff 0).re := by
    rcases lt_or_gt_of_ne hq0 with h | h
    · simp [hσ, sign_neg h]; exact h
    · simp [hσ, sign_pos h]; exact h
  have hsq := Real.sqrt_pos.2 hγpos
  have htr : ∀ z, transfer (fun j : Fin (N + 1) => σ * √γ * (Q.coeff j).re) z = ((σ * √γ : ℝ) : ℂ) * Q.eval z := by
    intro z
    rw [eval_eq_sum_range' (n := N + 1) (by omega), transfer, Finset.mul_sum, Finset.sum_range]
    refine Finset.sum_congr rfl fun j _ => ?_
    rw [hcoef j]; push_cast; simp only [Complex.ofReal_re]; ring
  have hk0 : ((σ * √γ : ℝ) : ℂ) ≠ 0 := by
    refine Complex.ofReal_ne_zero.2 (mul_ne_zero (fun h => ?_) hsq.ne')
    rw [h] at hσ2; norm_num at hσ2
  have hzero : ∀ z, transfer (fun j : Fin (N + 1) => σ * √γ * (Q.coeff j).re) z = 0 → Q.eval z = 0 := fun z hz => by
    rw [htr] at hz
    exact (mul_eq_zero.1 hz).resolve_left hk0
  obtain ⟨ρ, hρ0, hρ1, hρ⟩ : ∃ ρ : ℝ, 0 ≤ ρ ∧ ρ < 1 ∧ ∀ z, Q.eval z = 0 → 1 ≤ ρ * ‖z‖ := by
    by_cases hne : Q.roots.toFinset.Nonempty
    · obtain ⟨z0, hz0, hmin⟩ := Finset.exists_min_image Q.roots.toFinset (fun z => ‖z‖) hne
      rw [Multiset.mem_toFinset, mem_roots hmonic.ne_zero] at hz0
      have h1 := hout z0 hz0
      refine ⟨‖z0‖⁻¹, by positivity, inv_lt_one_of_one_lt₀ h1, fun z hz => ?_⟩
      have h2 := hmin z (by rw [Multiset.mem_toFinset, mem_roots hmonic.ne_zero]; exact hz)
      rw [inv_mul_eq_div, one_le_div (by linarith)]
      exact h2
    · refine ⟨0, le_rfl, one_pos, fun z hz => absurd ⟨z, ?_⟩ hne⟩
      rw [Multiset.mem_toFinset, mem_roots hmonic.ne_zero]; exact hz
  refine ⟨fun j => σ * √γ * (Q.coeff j).re, ρ, ?_, hρ0, hρ1, fun z hz => hρ z (hzero z hz), ?_⟩
  · change 0 < σ * √γ * (Q.coeff 0).re
    rw [mul_right_comm]
    exact mul_pos hσq hsq
  · refine powerSpectrum_inj hn fun w => ?_
    rw [C52_power_spectrum, ← norm_transfer_sq, htr, hmag w, norm_mul, mul_pow, Complex.norm_real, Real.norm_eq_abs, sq_abs,
      mul_pow, hσ2, Real.sq_sqrt hγpos.le, one_mul]

end Verif
