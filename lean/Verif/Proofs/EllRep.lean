import Verif.Proofs.EllUpdate

/-! # The represented ellipsoid determines centre and `κ•Q` -/
namespace Verif.Ell
open Matrix
variable {n : ℕ}

/-- The support value in direction `g` is attained, on both sides. -/
theorem attain {E : Ell n} (hE : E.WF) (g : Fin n → ℝ) :
    ∃ z, (∀ s : ℝ, s ^ 2 = 1 → E.xc + s • z ∈ E.pts) ∧
      g ⬝ᵥ z = √(E.kappa * (g ⬝ᵥ E.Q *ᵥ g)) := by
  obtain ⟨hs, hp⟩ := psd_iff.1 hE.psd
  rcases eq_or_lt_of_le (hp g) with h0 | h0
  · refine ⟨0, fun s _ y => ?_, ?_⟩
    · simpa using mul_nonneg hE.kappa (hp y)
    · simp [← h0]
  · refine ⟨√(E.kappa / (g ⬝ᵥ E.Q *ᵥ g)) • E.Q *ᵥ g, fun s hs y => ?_, ?_⟩
    · rw [add_sub_cancel_left, dotProduct_smul, smul_eq_mul, mul_pow, hs, one_mul, dotProduct_smul,
        smul_eq_mul, mul_pow,
        Real.sq_sqrt (div_nonneg hE.kappa h0.le), div_mul_eq_mul_div, div_le_iff₀ h0]
      have := psd_cauchy hE.psd y g
      have := mul_le_mul_of_nonneg_left this hE.kappa
      linarith
    · rw [dotProduct_smul, smul_eq_mul]
      have e : E.kappa * (g ⬝ᵥ E.Q *ᵥ g) = E.kappa / (g ⬝ᵥ E.Q *ᵥ g) * (g ⬝ᵥ E.Q *ᵥ g) ^ 2 := by
        field_simp
      rw [e, Real.sqrt_mul (div_nonneg hE.kappa h0.le), Real.sqrt_sq h0.le]

theorem sym_ext {A B : Matrix (Fin n) (Fin n) ℝ} (hA : Aᵀ = A) (hB : Bᵀ = B)
    (h : ∀ y, y ⬝ᵥ A *ᵥ y = y ⬝ᵥ B *ᵥ y) : A = B := by
  have hb : ∀ x y, x ⬝ᵥ A *ᵥ y = x ⬝ᵥ B *ᵥ y := by
    intro x y
    have h1 := h ((1 : ℝ) • x + (1 : ℝ) • y)
    rw [quad_comb hA, quad_comb hB, h x, h y] at h1
    linarith
  ext i j
  have := hb (Pi.single i 1) (Pi.single j 1)
  simpa [single_one_dotProduct, mulVec_single_one] using this

theorem support_le {E1 E2 : Ell n} (h1 : E1.WF) (h : E1.pts ⊆ E2.pts) (y : Fin n → ℝ) (s : ℝ) (hs : s ^ 2 = 1) :
    s * (y ⬝ᵥ (E1.xc - E2.xc)) + √(E1.kappa * (y ⬝ᵥ E1.Q *ᵥ y)) ≤ √(E2.kappa * (y ⬝ᵥ E2.Q *ᵥ y)) := by
  obtain ⟨z, hz, hzg⟩ := attain h1 y
  have := h (hz s hs) y
  rw [← hzg]
  apply Real.le_sqrt_of_sq_le
  have e : y ⬝ᵥ (E1.xc + s • z - E2.xc) = y ⬝ᵥ (E1.xc - E2.xc) + s * (y ⬝ᵥ z) := by
    rw [show E1.xc + s • z - E2.xc = (E1.xc - E2.xc) + s • z by abel, dotProduct_add, dotProduct_smul,
      smul_eq_mul]
  rw [e] at this
  refine le_trans (le_of_eq ?_) this
  linear_combination (y ⬝ᵥ (E1.xc - E2.xc)) ^ 2 * hs - (y ⬝ᵥ z) ^ 2 * hs

/-- Two well-formed objects denote the same set iff they have the same centre and the same `κ•Q`. -/
theorem pts_inj {E1 E2 : Ell n} (h1 : E1.WF) (h2 : E2.WF) :
    E1.pts = E2.pts ↔ E1.xc = E2.xc ∧ E1.kappa • E1.Q = E2.kappa • E2.Q := by
  constructor
  · intro h
    have key : ∀ y : Fin n → ℝ, y ⬝ᵥ (E1.xc - E2.xc) = 0 ∧
        √(E1.kappa * (y ⬝ᵥ E1.Q *ᵥ y)) = √(E2.kappa * (y ⬝ᵥ E2.Q *ᵥ y)) := by
      intro y
      have a1 := support_le h1 h.le y 1 (by norm_num)
      have a2 := support_le h1 h.le y (-1) (by norm_num)
      have a3 := support_le h2 h.ge y 1 (by norm_num)
      have a4 := support_le h2 h.ge y (-1) (by norm_num)
      rw [← neg_sub E1.xc E2.xc, dotProduct_neg] at a3 a4
      constructor <;> linarith
    refine ⟨?_, sym_ext ?_ ?_ fun y => ?_⟩
    · have := (key (E1.xc - E2.xc)).1
      exact sub_eq_zero.1 (dotProduct_self_eq_zero.1 this)
    · rw [transpose_smul, (psd_iff.1 h1.psd).1]
    · rw [transpose_smul, (psd_iff.1 h2.psd).1]
    · rw [smul_mulVec, dotProduct_smul, smul_mulVec, dotProduct_smul, smul_eq_mul, smul_eq_mul]
      exact (Real.sqrt_inj (tsq_nonneg h1 y) (tsq_nonneg h2 y)).1 (key y).2
  · rintro ⟨hx, hq⟩
    ext x
    simp only [pts, Set.mem_ofPred_eq, hx]
    refine forall_congr' fun y => ?_
    have := congrArg (fun M => y ⬝ᵥ M *ᵥ y) hq
    simp only [smul_mulVec, dotProduct_smul, smul_eq_mul] at this
    rw [this]

theorem proper_iff {E : Ell n} (h : E.WF) : E.Proper ↔ (E.kappa • E.Q).PosDef := by
  obtain ⟨hs, hp⟩ := psd_iff.1 h.psd
  rw [pd_iff]
  constructor
  · intro hE
    refine ⟨by rw [transpose_smul, hs], fun x hx => ?_⟩
    rw [smul_mulVec, dotProduct_smul]
    exact mul_pos hE.kappa ((pd_iff.1 hE.pd).2 x hx)
  · rintro ⟨-, hq⟩
    have hk : E.kappa ≠ 0 := by
      intro h0
      have hn := h.dim
      have := hq (fun _ => 1) (fun h1 => by simpa using congrFun h1 ⟨0, by omega⟩)
      rw [h0] at this
      simp at this
    refine ⟨h.dim, pd_iff.2 ⟨hs, fun x hx => ?_⟩, lt_of_le_of_ne h.kappa (Ne.symm hk)⟩
    have := hq x hx
    rw [smul_mulVec, dotProduct_smul, smul_eq_mul] at this
    exact pos_of_mul_pos_right this h.kappa

/-- `update` as a total function of the calculation. -/
theorem update_eq (E : Ell n) (g : Fin n → ℝ) (b : Beta) :
    update (g, b) E = match calcLl n E.usePar (E.kappa * (g ⬝ᵥ E.Q *ᵥ g)) b with
      | .error e => .error e
      | .ok (.reject st, t) => .ok (E, st, t)
      | .ok (.accept ρ σ δ, t) => if g ⬝ᵥ E.Q *ᵥ g = 0 then .error .zeroDivision
          else .ok (after E g ρ σ δ, .success, t) := by
  simp only [update]
  rcases calcLl n E.usePar (E.kappa * (g ⬝ᵥ E.Q *ᵥ g)) b with e | ⟨⟨st⟩ | ⟨ρ, σ, δ⟩, t⟩
  · rfl
  · rfl
  · simp only [pyDiv]
    by_cases h0 : g ⬝ᵥ E.Q *ᵥ g = 0
    · simp [h0]
    · simp only [h0, if_false, after, shape]
      by_cases hd : E.noDefer <;> simp [hd]

theorem after_usePar (E : Ell n) (g : Fin n → ℝ) (ρ σ δ : ℝ) :
    (after E g ρ σ δ).usePar = E.usePar ∧ (after E g ρ σ δ).noDefer = E.noDefer := by
  unfold after; by_cases hd : E.noDefer <;> simp [hd]

theorem after_xc (E : Ell n) (g : Fin n → ℝ) (ρ σ δ : ℝ) :
    (after E g ρ σ δ).xc = E.xc - (ρ / (g ⬝ᵥ E.Q *ᵥ g)) • E.Q *ᵥ g := by
  unfold after; by_cases hd : E.noDefer <;> simp [hd]

theorem after_scaled (E : Ell n) (g : Fin n → ℝ) (ρ σ δ : ℝ) :
    (after E g ρ σ δ).kappa • (after E g ρ σ δ).Q = (δ * E.kappa) • shape E.Q g σ := by
  unfold after; by_cases hd : E.noDefer <;> simp [hd, smul_smul, mul_comm]

theorem shape_smul {Q : Matrix (Fin n) (Fin n) ℝ} {c : ℝ} (hc : c ≠ 0) (g : Fin n → ℝ) (σ : ℝ) :
    shape (c • Q) g σ = c • shape Q g σ := by
  unfold shape
  rw [smul_mulVec, dotProduct_smul, smul_eq_mul, smul_sub, vecMulVec_smul, smul_vecMulVec, smul_smul, smul_smul,
    smul_smul]
  congr 2
  by_cases h : g ⬝ᵥ Q *ᵥ g = 0
  · simp [h]
  · field_simp

end Verif.Ell
