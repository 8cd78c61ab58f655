import Mathlib.Algebra.Order.Star.Real
import Verif.Model.Mle
import Verif.Spec.MleSpec
import Verif.Proofs.MleConvex
import Verif.Props.MatOracle

/-! # `mle_oracle` (C40) -/
namespace Verif

open Matrix Finset

variable {k m : ℕ}

theorem toMat_arr (A : Matrix (Fin m) (Fin m) ℝ) : toMat m (arr A) = A := by
  ext i j; simp [toMat, arr]

theorem combo_arr (Sig : Fin k → Matrix (Fin m) (Fin m) ℝ) (z : Fin k → ℝ) :
    combo (fun q => arr (Sig q)) z = arr (omegaOf Sig z) := by
  funext i j
  unfold combo arr omegaOf
  by_cases h : i < m ∧ j < m
  · simp only [dif_pos h, Matrix.sum_apply, Matrix.smul_apply, smul_eq_mul]
  · simp only [dif_neg h, mul_zero, Finset.sum_const_zero]

theorem pencil_arr (Sig : Fin k → Matrix (Fin m) (Fin m) ℝ) (Y : Matrix (Fin m) (Fin m) ℝ) (z : Fin k → ℝ) :
    pencil (fun q => arr (Sig q)) (fun i j => 2 * arr Y i j) z = arr ((2 : ℝ) • Y - omegaOf Sig z) := by
  funext i j
  have := congrFun (congrFun (combo_arr Sig z) i) j
  simp only [combo, pencil] at this ⊢
  rw [this]
  unfold arr
  by_cases h : i < m ∧ j < m
  · simp only [dif_pos h, Matrix.sub_apply, Matrix.smul_apply, smul_eq_mul]
  · simp only [dif_neg h, mul_zero, sub_zero]

theorem psdOn_arr {n : ℕ} {A : Matrix (Fin n) (Fin n) ℝ} (h : A.PosSemidef) : PSDon (arr A) 0 n := by
  intro x
  have := h.dotProduct_mulVec_nonneg (fun k : Fin n => x k)
  rw [quadOn_arr]
  simpa only [dotProduct, Matrix.mulVec, star_trivial, Finset.mul_sum, mul_assoc] using this

theorem atLeast_arr {n : ℕ} {A : Matrix (Fin n) (Fin n) ℝ} {lam : ℝ} (h : (A - lam • 1).PosSemidef) : AtLeast lam (arr A) n := by
  intro y
  have := h.dotProduct_mulVec_nonneg (fun k : Fin n => y k)
  rw [star_trivial, sub_mulVec, smul_mulVec, one_mulVec, dotProduct_sub, dotProduct_smul, smul_eq_mul] at this
  have e1 : ∑ i ∈ range n, y i ^ 2 = (fun k : Fin n => y k) ⬝ᵥ (fun k : Fin n => y k) := by
    rw [Finset.sum_range]; simp [dotProduct, sq]
  have e2 : quadOn (arr A) 0 n y = (fun k : Fin n => y k) ⬝ᵥ A *ᵥ (fun k : Fin n => y k) := by
    rw [quadOn_arr]
    simp only [dotProduct, Matrix.mulVec, Finset.mul_sum, mul_assoc]
  rw [e1, e2]
  linarith

theorem omegaOf_herm {Sig : Fin k → Matrix (Fin m) (Fin m) ℝ} (hS : ∀ q, (Sig q).IsHermitian) (z : Fin k → ℝ) :
    (omegaOf Sig z).IsHermitian := by
  unfold omegaOf IsHermitian
  rw [conjTranspose_sum]
  refine Finset.sum_congr rfl fun q _ => ?_
  rw [conjTranspose_smul, hS q, star_trivial]

/-- The value and gradient computed from an upper triangular factor. -/
theorem mleEval_spec (Sig : Fin k → Matrix (Fin m) (Fin m) ℝ) (Y : Matrix (Fin m) (Fin m) ℝ) (x : Fin k → ℝ)
    {R : ℕ → ℕ → ℝ} (hlow : ∀ i j, j < i → R i j = 0) (hpos : ∀ i, i < m → 0 < R i i)
    (hRR : ∀ i j, i < m → j < m → ∑ l ∈ range m, R l i * R l j = arr (omegaOf Sig x) i j) :
    ∃ g, mleEval (fun q => arr (Sig q)) (arr Y) m R = .ok (g, mleObj Sig Y x) ∧
      IsUnit (toMat m R).det ∧ omegaOf Sig x = (toMat m R)ᵀ * toMat m R ∧
      ∀ z, ∑ q, g q * (z q - x q) = ((omegaOf Sig x)⁻¹ * (omegaOf Sig z - omegaOf Sig x)).trace -
        ((omegaOf Sig x)⁻¹ * (omegaOf Sig z - omegaOf Sig x) * ((omegaOf Sig x)⁻¹ * Y)).trace := by
  set M := toMat m R with hM
  have hdet : M.det = ∏ i, M i i := det_of_isUpperTriangular fun i j hij => hlow i j hij
  have hMp : ∀ i, 0 < M i i := fun i => hpos i i.2
  have hdp : 0 < M.det := by rw [hdet]; exact Finset.prod_pos fun i _ => hMp i
  have hA : omegaOf Sig x = Mᵀ * M := by
    ext i j
    have := hRR i j i.2 j.2
    rw [Finset.sum_range] at this
    simp only [arr, Fin.is_lt, and_self, dif_pos] at this
    rw [← this]; rfl
  have hu : IsUnit M.det := hdp.ne'.isUnit
  have hS : M⁻¹ * M⁻¹ᵀ = (omegaOf Sig x)⁻¹ := by
    rw [hA, Matrix.mul_inv_rev, transpose_nonsing_inv]
  have hf : 2 * ∑ i, Real.log (M i i) + ((omegaOf Sig x)⁻¹ * Y).trace = mleObj Sig Y x := by
    unfold mleObj
    congr 1
    rw [hA, det_mul, det_transpose, Real.log_mul hdp.ne' hdp.ne', hdet, Real.log_prod fun i _ => (hMp i).ne']
    ring
  refine ⟨fun q => ((omegaOf Sig x)⁻¹ * toMat m (arr (Sig q))).trace -
    ∑ l, ∑ j, ((omegaOf Sig x)⁻¹ * toMat m (arr (Sig q))) l j * ((omegaOf Sig x)⁻¹ * Y) j l, ?_, hu, hA, ?_⟩
  · unfold mleEval
    simp only [← hM]
    rw [if_neg hdp.ne', if_neg (by push Not; exact hMp), hS, toMat_arr, hf]
  · intro z
    simp only [toMat_arr]
    have hd : omegaOf Sig z - omegaOf Sig x = ∑ q, (z q - x q) • Sig q := by
      unfold omegaOf; rw [← Finset.sum_sub_distrib]
      exact Finset.sum_congr rfl fun q _ => (sub_smul _ _ _).symm
    set S := (omegaOf Sig x)⁻¹ with hSd
    rw [hd, Matrix.mul_sum, Finset.sum_mul, trace_sum, trace_sum, ← Finset.sum_sub_distrib]
    refine Finset.sum_congr rfl fun q _ => ?_
    rw [Matrix.mul_smul, Matrix.smul_mul, trace_smul, trace_smul, smul_eq_mul, smul_eq_mul]
    have : ∑ l, ∑ j, (S * Sig q) l j * (S * Y) j l = (S * Sig q * (S * Y)).trace := by
      simp only [trace, Matrix.diag, Matrix.mul_apply (M := S * Sig q)]
    rw [this]; ring

/-- **C40**: `mle_oracle`, for symmetric data, any earlier state of the object, any `x`, any level `t`, also `inf`.
The value is reported exactly when `0 ≺ Ω(x) ≺ 2Y` and the objective at `x` is below `t`; every cut
keeps every point of `0 ≺ Ω ⪯ 2Y` at least as good as the new best-so-far value, is never shallow, and a point with room
`δ` in both matrix inequalities and in the value satisfies it with room `δ`. -/
theorem C40_mle (Sig : Fin k → Matrix (Fin m) (Fin m) ℝ) (Y : Matrix (Fin m) (Fin m) ℝ)
    (hSig : ∀ q, (Sig q).IsHermitian) (hY : Y.IsHermitian) (x : Fin k → ℝ) (t : WithTop ℝ) {o : MleOracle}
    (h0 : Ready m o.lmi0) (h1 : Ready m o.lmi) :
    ∃ o' g b t1, mleCall (fun q => arr (Sig q)) (arr Y) m x t o = .ok (o', (g, b), t1) ∧
      Ready m o'.lmi0 ∧ Ready m o'.lmi ∧
      (∀ v, t1 = some v ↔ (((2 : ℝ) • Y - omegaOf Sig x).PosDef ∧ (omegaOf Sig x).PosDef ∧
        v = ((mleObj Sig Y x : ℝ) : WithTop ℝ) ∧ v < t)) ∧
      (∀ z, (omegaOf Sig z).PosDef → ((2 : ℝ) • Y - omegaOf Sig z).PosSemidef →
        ((mleObj Sig Y z : ℝ) : WithTop ℝ) ≤ t1.getD t → ∑ q, g q * (z q - x q) + b ≤ 0) ∧ 0 ≤ b ∧
      ∀ z δ, 0 ≤ δ → MleRoom Sig Y z δ → ((mleObj Sig Y z + δ : ℝ) : WithTop ℝ) ≤ t1.getD t →
        ∑ q, g q * (z q - x q) + b ≤ -δ := by
  have hsS : ∀ q, SymOn (arr (Sig q)) m := fun q => symOn_arr (hSig q)
  have hsY : SymOn (fun i j => 2 * arr Y i j) m := fun i j hi hj => by
    simp only; rw [symOn_arr hY i j hi hj]
  have hHx := omegaOf_herm hSig x
  have hH2 : ∀ z, ((2 : ℝ) • Y - omegaOf Sig z).IsHermitian := fun z => by
    refine IsHermitian.sub ?_ (omegaOf_herm hSig z)
    unfold IsHermitian; rw [conjTranspose_smul, hY, star_trivial]
  obtain ⟨Q, r, e1, e2, e3, e4⟩ := C35_lmi hsS hsY x h1
  simp only [pencil_arr] at e3 e4
  rw [pdOn_arr (hH2 x)] at e3
  cases r with
  | some c =>
    obtain ⟨g, b⟩ := c
    refine ⟨⟨o.lmi0, Q⟩, g, b, none, by simp only [mleCall, e1], h0, e2,
      fun v => ⟨fun h => by simp at h, fun h => absurd (e3.2 h.1) (by simp)⟩, fun z _ hz _ => ?_, (e4 g b rfl).1,
      fun z δ h0 hz _ => (e4 g b rfl).2.2.2 z δ h0 (atLeast_arr hz.2.2)⟩
    exact (e4 g b rfl).2.1 z (psdOn_arr hz)
  | none =>
    have hp1 := e3.1 rfl
    obtain ⟨Q0, r0, f1, f2, f3, f4⟩ := C36_lmi0 hsS x h0
    simp only [combo_arr] at f3 f4
    rw [pdOn_arr hHx] at f3
    cases r0 with
    | some c =>
      obtain ⟨g, b⟩ := c
      refine ⟨⟨Q0, Q⟩, g, b, none, by simp only [mleCall, e1, f1], f2, e2,
        fun v => ⟨fun h => by simp at h, fun h => absurd (f3.2 h.2.1) (by simp)⟩, fun z hz _ _ => ?_,
        (f4 g b rfl).1, fun z δ h0 hz _ => (f4 g b rfl).2.2.2 z δ h0 (atLeast_arr hz.2.1)⟩
      exact (f4 g b rfl).2.1 z (psdOn_arr hz.posSemidef)
    | none =>
      have hp0 := f3.1 rfl
      -- the factor
      have hfac : ∃ w', o.lmi0.factor (W := Unit) (readAt m (linEntry (fun q => arr (Sig q)) x)) () = .ok (w', Q0, true) := by
        unfold lmi0Call at f1
        generalize o.lmi0.factor (W := Unit) (readAt m (linEntry (fun q => arr (Sig q)) x)) () = R at f1 ⊢
        rcases R with e | ⟨w, Q1, b⟩
        · simp at f1
        · cases b with
          | true => simp only [Except.ok.injEq, Prod.mk.injEq] at f1; exact ⟨w, by rw [f1.1]⟩
          | false =>
            simp only at f1
            generalize Q1.witness = R2 at f1
            rcases R2 with e | ⟨Q2, ep⟩ <;> simp at f1
      obtain ⟨w', hfac⟩ := hfac
      have hSv : Serves (W := Unit) (readAt m (linEntry (fun q => arr (Sig q)) x)) (arr (omegaOf Sig x)) m
          (fun _ _ => True) (fun _ _ => True) :=
        serves_readAt le_rfl _ _ fun i j _ _ => by rw [linEntry_eq, combo_arr]
      obtain ⟨hn, hal⟩ := h0
      subst hn
      obtain ⟨R, s1, s2, s3, s4⟩ := C31_sqrt o.lmi0 hSv (symOn_arr hHx) (w := ()) trivial hfac (.inl hal)
      obtain ⟨g, m1, m2, m3, m4⟩ := mleEval_spec Sig Y x s2 s3 s4
      have hcut : ∀ z, (omegaOf Sig z).PosDef → ((2 : ℝ) • Y - omegaOf Sig z).PosSemidef →
          ∑ q, g q * (z q - x q) ≤ mleObj Sig Y z - mleObj Sig Y x := fun z hz1 hz2 => by
        rw [m4]
        exact mle_subgrad m2 m3 hz1 hp1.posSemidef hz2
      have hroom : ∀ z δ, 0 ≤ δ → MleRoom Sig Y z δ → ((2 : ℝ) • Y - omegaOf Sig z).PosSemidef := fun z δ h0 hz => by
        have := hz.2.2.add ((PosSemidef.one (n := Fin _) (R := ℝ)).smul h0)
        rwa [sub_add_cancel] at this
      have hacc : ∀ z δ, 0 ≤ δ → (omegaOf Sig z).PosDef → ((2 : ℝ) • Y - omegaOf Sig z).PosSemidef →
          ((mleObj Sig Y z + δ : ℝ) : WithTop ℝ) ≤ (some ((mleObj Sig Y x : ℝ) : WithTop ℝ)).getD t →
          ∑ q, g q * (z q - x q) + 0 ≤ -δ := fun z δ _ hz1 hz2 hz3 => by
        have := hcut z hz1 hz2
        have h3 := WithTop.coe_le_coe.1 hz3
        linarith
      have hyes : (⊤ = t ∨ ∃ s : ℝ, t = s ∧ mleObj Sig Y x - s < 0) → mleCall (fun q => arr (Sig q)) (arr Y) o.lmi0.n x t o =
          .ok (⟨Q0, Q⟩, (g, 0), some ((mleObj Sig Y x : ℝ) : WithTop ℝ)) := by
        rintro (rfl | ⟨s, rfl, hs⟩)
        · simp only [mleCall, e1, f1, s1, m1]
        · simp only [mleCall, e1, f1, s1, m1, if_pos hs]
      by_cases hf : ⊤ = t ∨ ∃ s : ℝ, t = s ∧ mleObj Sig Y x - s < 0
      · have hlt : ((mleObj Sig Y x : ℝ) : WithTop ℝ) < t := by
          rcases hf with rfl | ⟨s, rfl, hs⟩
          · exact WithTop.coe_lt_top _
          · exact WithTop.coe_lt_coe.2 (by linarith)
        refine ⟨⟨Q0, Q⟩, g, 0, some ((mleObj Sig Y x : ℝ) : WithTop ℝ), hyes hf, f2, e2,
          fun v => ⟨fun h => ?_, fun h => by rw [h.2.2.1]⟩, fun z hz1 hz2 hz3 => ?_, le_rfl,
          fun z δ h0 hz hz3 => hacc z δ h0 hz.1 (hroom z δ h0 hz) hz3⟩
        · simp only [Option.some.injEq] at h
          exact ⟨hp1, hp0, h.symm, h ▸ hlt⟩
        · simpa using hacc z 0 le_rfl hz1 hz2 (by simpa using hz3)
      · cases t with
        | top => exact absurd (Or.inl rfl) hf
        | coe t =>
          have hf' : ¬ mleObj Sig Y x - t < 0 := fun h => hf (.inr ⟨t, rfl, h⟩)
          refine ⟨⟨Q0, Q⟩, g, mleObj Sig Y x - t, none, by simp only [mleCall, e1, f1, s1, m1, if_neg hf'], f2, e2,
            fun v => ⟨fun h => by simp at h, fun h => absurd ?_ hf'⟩,
            fun z hz1 hz2 hz3 => ?_, not_lt.1 hf', fun z δ h0 hz hz3 => ?_⟩
          · have := h.2.2.2
            rw [h.2.2.1, WithTop.coe_lt_coe] at this
            linarith
          · have := hcut z hz1 hz2
            have h3 := WithTop.coe_le_coe.1 hz3
            linarith
          · have := hcut z hz.1 (hroom z δ h0 hz)
            have h3 := WithTop.coe_le_coe.1 hz3
            linarith

/-! ### Non-vacuity: `Ω(x) = x·I`, `Y = I` (2 × 2) -/

theorem exOne : (1 : Matrix (Fin 2) (Fin 2) ℝ).PosDef := by
  refine PosDef.of_dotProduct_mulVec_pos isHermitian_one fun x hx => ?_
  rw [one_mulVec, star_trivial]
  exact lt_of_le_of_ne (Finset.sum_nonneg fun i _ => mul_self_nonneg (x i)) (Ne.symm (dotProduct_self_eq_zero.not.2 hx))

/-- At `x = 1`, `t = 3` the value `log 1 + tr I = 2` is reported from a fresh object. -/
example : ∃ o' g b, mleCall (fun q => arr ((fun _ : Fin 1 => (1 : Matrix (Fin 2) (Fin 2) ℝ)) q)) (arr (1 : Matrix (Fin 2) (Fin 2) ℝ)) 2
    (fun _ => 1) 3 ⟨CholExt.init 2, CholExt.init 2⟩ = .ok (o', (g, b), some 2) := by
  obtain ⟨o', g, b, t1, h1, -, -, h2, -, -, -⟩ := C40_mle (fun _ : Fin 1 => (1 : Matrix (Fin 2) (Fin 2) ℝ)) 1
    (fun _ => isHermitian_one) isHermitian_one (fun _ => 1) 3 (o := ⟨CholExt.init 2, CholExt.init 2⟩)
    (ready_init 2) (ready_init 2)
  have hO : omegaOf (fun _ : Fin 1 => (1 : Matrix (Fin 2) (Fin 2) ℝ)) (fun _ => 1) = 1 := by simp [omegaOf]
  have : t1 = some 2 := by
    rw [h2, mleObj, hO]
    refine ⟨?_, exOne, by simp, WithTop.coe_lt_coe.2 (by norm_num : (2 : ℝ) < 3)⟩
    rw [two_smul, add_sub_cancel_right]; exact exOne
  exact ⟨o', g, b, this ▸ h1⟩

/-- Outside `Ω ⪯ 2Y` (at `x = 3`) no value is reported. -/
example : ∃ o' g b, mleCall (fun q => arr ((fun _ : Fin 1 => (1 : Matrix (Fin 2) (Fin 2) ℝ)) q)) (arr (1 : Matrix (Fin 2) (Fin 2) ℝ)) 2
    (fun _ => 3) 100 ⟨CholExt.init 2, CholExt.init 2⟩ = .ok (o', (g, b), none) := by
  obtain ⟨o', g, b, t1, h1, -, -, h2, -, -, -⟩ := C40_mle (fun _ : Fin 1 => (1 : Matrix (Fin 2) (Fin 2) ℝ)) 1
    (fun _ => isHermitian_one) isHermitian_one (fun _ => 3) 100 (o := ⟨CholExt.init 2, CholExt.init 2⟩)
    (ready_init 2) (ready_init 2)
  have : t1 = none := by
    by_contra h
    obtain ⟨v, hv⟩ := Option.ne_none_iff_exists'.1 h
    have := ((h2 v).1 hv).1.diag_pos (i := 0)
    simp [omegaOf] at this
    linarith
  exact ⟨o', g, b, this ▸ h1⟩

end Verif
