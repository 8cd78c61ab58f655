import Verif.Proofs.EllGeom

/-! # Inversion of `ell.update` -/
namespace Verif.Ell
open Matrix
variable {n : ℕ}

/-- The scalar condition a cut puts on `u = g·(x - xc)`. -/
def betaSat (b : Beta) (u : ℝ) : Prop :=
  match b with
  | .scalar b => u + b ≤ 0
  | .seq [] => True
  | .seq [b] => u + b ≤ 0
  | .seq (b0 :: b1 :: _) => u + b0 ≤ 0 ∧ 0 ≤ u + b1

theorem mem_cutSet {c g x : Fin n → ℝ} {b : Beta} :
    x ∈ cutSet c (g, b) ↔ betaSat b (g ⬝ᵥ (x - c)) := by
  unfold cutSet betaSat
  rcases b with b | (_ | ⟨b0, _ | ⟨b1, l⟩⟩) <;> rfl

theorem DcCase.reject {tsq b : ℝ} {st} (h : DcCase n tsq b (.reject st)) :
    (st = .nosoln ∧ √tsq < b) ∨ (st = .noeffect ∧ b ≤ √tsq ∧ b ≠ 0 ∧ √tsq + n * b < 0) := by
  generalize hr : Calc.reject st = r at h
  cases h with
  | nosoln h => cases hr; exact .inl ⟨rfl, h⟩
  | central => simp [calcCc] at hr
  | noeffect h1 h2 h3 => cases hr; exact .inr ⟨rfl, h1, h2, h3⟩
  | deep => simp at hr

theorem LlCase.reject {up} {tsq b0 b1 : ℝ} {st} (h : LlCase n up tsq b0 b1 (.reject st)) :
    st = .nosoln ∨ st = .noeffect := by
  generalize hr : Calc.reject st = r at h
  cases h with
  | fallback _ hd =>
    subst hr
    rcases hd.reject with h | h
    · exact .inl h.1
    · exact .inr h.1
  | nosoln => cases hr; exact .inl rfl
  | noeffect => cases hr; exact .inr rfl
  | parallel => simp at hr

/-- `calcLl` in terms of the case relations. -/
inductive CalcCase (n : ℕ) (up : Bool) (tsq : ℝ) : Beta → Calc → Prop where
  | scalar {b r} : DcCase n tsq b r → CalcCase n up tsq (.scalar b) r
  | single {b r} : DcCase n tsq b r → CalcCase n up tsq (.seq [b]) r
  | par {b0 b1 l r} : tsq ≠ 0 → LlCase n up tsq b0 b1 r → CalcCase n up tsq (.seq (b0 :: b1 :: l)) r

theorem calcLl_ok {up : Bool} {tsq tsq' : ℝ} {b : Beta} {r : Calc} (ht : 0 ≤ tsq)
    (h : calcLl n up tsq b = .ok (r, tsq')) : tsq' = tsq ∧ CalcCase n up tsq b r := by
  rcases b with b | (_ | ⟨b0, _ | ⟨b1, l⟩⟩)
  · obtain ⟨h1, h2⟩ := calcDc_ok ht h; exact ⟨h1, .scalar h2⟩
  · simp [calcLl] at h
  · obtain ⟨h1, h2⟩ := calcDc_ok ht h; exact ⟨h1, .single h2⟩
  · obtain ⟨h1, h2, h3⟩ := calcLlCore_ok ht h; exact ⟨h1, .par h2 h3⟩

theorem CalcCase.reject {up tsq b st} (h : CalcCase n up tsq b (.reject st)) :
    st = .nosoln ∨ st = .noeffect := by
  cases h with
  | scalar h | single h =>
    rcases h.reject with h | h
    · exact .inl h.1
    · exact .inr h.1
  | par _ h => exact h.reject

theorem DcCase.keeps (hn : 2 ≤ n) {tsq b ρ σ δ : ℝ} (ht : 0 ≤ tsq)
    (h : DcCase n tsq b (.accept ρ σ δ)) :
    Range σ δ ∧ ∀ u, u ^ 2 ≤ tsq → u + b ≤ 0 → KeepsAt tsq ρ σ δ u := by
  generalize hr : Calc.accept ρ σ δ = r at h
  cases h with
  | nosoln => simp at hr
  | noeffect => simp at hr
  | central hb =>
    simp only [calcCc, Calc.accept.injEq] at hr
    obtain ⟨rfl, rfl, rfl⟩ := hr
    exact ⟨range_cc hn, fun u h1 h2 => keeps_cc hn ht h1 (by linarith)⟩
  | deep h1 h2 h3 h4 h5 =>
    simp only [Calc.accept.injEq] at hr
    obtain ⟨rfl, rfl, rfl⟩ := hr
    have hpos : 0 < √tsq := Real.sqrt_pos.2 (lt_of_le_of_ne ht (Ne.symm h5))
    have hsq : √tsq ^ 2 = tsq := Real.sq_sqrt ht
    have r1 := (range_deep hn hpos h1 h3).2
    rw [hsq] at r1
    refine ⟨r1, fun u hu1 hu2 => ?_⟩
    have := keeps_deep hn hpos h1 h3 (u := u) (by rw [hsq]; exact hu1) hu2
    rwa [hsq] at this

theorem LlCase.keeps (hn : 2 ≤ n) {up} {tsq b0 b1 ρ σ δ : ℝ} (ht : 0 < tsq)
    (h : LlCase n up tsq b0 b1 (.accept ρ σ δ)) :
    Range σ δ ∧ ∀ u, u ^ 2 ≤ tsq → u + b0 ≤ 0 → 0 ≤ u + b1 → KeepsAt tsq ρ σ δ u := by
  generalize hr : Calc.accept ρ σ δ = r at h
  cases h with
  | fallback _ hd =>
    subst hr
    obtain ⟨h1, h2⟩ := hd.keeps hn ht.le
    exact ⟨h1, fun u a b _ => h2 u a b⟩
  | nosoln => simp at hr
  | noeffect => simp at hr
  | parallel h1 h2 h3 h4 h5 =>
    simp only [Calc.accept.injEq] at hr
    obtain ⟨rfl, rfl, rfl⟩ := hr
    have hpos : 0 < √tsq := Real.sqrt_pos.2 ht
    have hsq : √tsq ^ 2 = tsq := Real.sq_sqrt ht.le
    have := par_facts (n := n) (τ := √tsq) (b0 := b0) (b1 := b1) hn hpos
    rw [hsq] at this
    obtain ⟨r1, -, r2⟩ := this h2 h3 h4 h5
    exact ⟨r1, fun u _ a b => r2 u a b⟩

theorem CalcCase.keeps (hn : 2 ≤ n) {up tsq b ρ σ δ} (ht : 0 ≤ tsq)
    (h : CalcCase n up tsq b (.accept ρ σ δ)) :
    Range σ δ ∧ ∀ u, u ^ 2 ≤ tsq → betaSat b u → KeepsAt tsq ρ σ δ u := by
  cases h with
  | scalar h => exact h.keeps hn ht
  | single h => exact h.keeps hn ht
  | par h0 h =>
    obtain ⟨h1, h2⟩ := h.keeps hn (lt_of_le_of_ne ht (Ne.symm h0))
    exact ⟨h1, fun u a b => h2 u a b.1 b.2⟩

theorem CalcCase.nosoln {up tsq b}
    (h : CalcCase n up tsq b (.reject .nosoln)) {u : ℝ} (hu : u ^ 2 ≤ tsq) : ¬ betaSat b u := by
  have hul : -√tsq ≤ u := by
    have := (Real.abs_le_sqrt hu); exact (abs_le.1 this).1
  have dc : ∀ {b}, DcCase n tsq b (.reject .nosoln) → ¬ u + b ≤ 0 := by
    intro b hd
    rcases hd.reject with h | h
    · have := h.2; intro h'; linarith
    · simp at h
  cases h with
  | scalar h => exact dc h
  | single h => exact dc h
  | par h0 h =>
    generalize hr : Calc.reject CUTStatus.nosoln = r at h
    cases h with
    | fallback _ hd => subst hr; exact fun h => dc hd h.1
    | nosoln _ _ h => rintro ⟨h1, h2⟩; linarith
    | noeffect => simp at hr
    | parallel => simp at hr

/-- The state after an accepted update. -/
noncomputable def after (E : Ell n) (g : Fin n → ℝ) (ρ σ δ : ℝ) : Ell n :=
  let xc := E.xc - (ρ / (g ⬝ᵥ E.Q *ᵥ g)) • E.Q *ᵥ g
  if E.noDefer then { E with xc := xc, Q := δ • shape E.Q g σ }
  else { E with xc := xc, Q := shape E.Q g σ, kappa := E.kappa * δ }

/-- Inversion of `update`, without any assumption. -/
theorem update_ok_raw {E E' : Ell n} {g : Fin n → ℝ} {b : Beta} {st : CUTStatus} {tsq : ℝ}
    (h : update (g, b) E = .ok (E', st, tsq)) :
    (calcLl n E.usePar (E.kappa * (g ⬝ᵥ E.Q *ᵥ g)) b = .ok (.reject st, tsq) ∧ E' = E) ∨
    (st = .success ∧ g ⬝ᵥ E.Q *ᵥ g ≠ 0 ∧ ∃ ρ σ δ,
      calcLl n E.usePar (E.kappa * (g ⬝ᵥ E.Q *ᵥ g)) b = .ok (.accept ρ σ δ, tsq) ∧
      E' = after E g ρ σ δ) := by
  simp only [update] at h
  split at h
  · simp at h
  · rename_i hc
    simp only [Except.ok.injEq, Prod.mk.injEq] at h
    obtain ⟨rfl, rfl, rfl⟩ := h
    exact .inl ⟨hc, rfl⟩
  · rename_i ρ σ δ tsq0 hc
    split at h
    · rename_i ro so h1 h2
      obtain ⟨h0, rfl⟩ := pyDiv_ok.1 h1
      obtain ⟨-, rfl⟩ := pyDiv_ok.1 h2
      right
      by_cases hd : E.noDefer
      · rw [if_pos hd] at h
        simp only [Except.ok.injEq, Prod.mk.injEq] at h
        obtain ⟨rfl, rfl, rfl⟩ := h
        exact ⟨rfl, h0, _, _, _, hc, by simp [after, hd, shape]⟩
      · rw [if_neg hd] at h
        simp only [Except.ok.injEq, Prod.mk.injEq] at h
        obtain ⟨rfl, rfl, rfl⟩ := h
        exact ⟨rfl, h0, _, _, _, hc, by simp [after, hd, shape]⟩
    · simp at h

theorem tsq_nonneg {E : Ell n} (hE : E.WF) (g : Fin n → ℝ) : 0 ≤ E.kappa * (g ⬝ᵥ E.Q *ᵥ g) :=
  mul_nonneg hE.kappa ((psd_iff.1 hE.psd).2 g)

/-- Inversion of `update` on a well-formed ellipsoid. -/
theorem update_ok {E E' : Ell n} (hE : E.WF) {g : Fin n → ℝ} {b : Beta} {st : CUTStatus} {tsq : ℝ}
    (h : update (g, b) E = .ok (E', st, tsq)) :
    tsq = E.kappa * (g ⬝ᵥ E.Q *ᵥ g) ∧
    ((CalcCase n E.usePar tsq b (.reject st) ∧ E' = E) ∨
    (st = .success ∧ g ⬝ᵥ E.Q *ᵥ g ≠ 0 ∧ ∃ ρ σ δ, CalcCase n E.usePar tsq b (.accept ρ σ δ) ∧
      E' = after E g ρ σ δ)) := by
  rcases update_ok_raw h with ⟨hc, rfl⟩ | ⟨rfl, h0, ρ, σ, δ, hc, rfl⟩
  · obtain ⟨rfl, hc'⟩ := calcLl_ok (tsq_nonneg hE g) hc
    exact ⟨rfl, .inl ⟨hc', rfl⟩⟩
  · obtain ⟨rfl, hc'⟩ := calcLl_ok (tsq_nonneg hE g) hc
    exact ⟨rfl, .inr ⟨rfl, h0, _, _, _, hc', rfl⟩⟩

theorem after_wf {E : Ell n} (hE : E.WF) {g : Fin n → ℝ} (h0 : g ⬝ᵥ E.Q *ᵥ g ≠ 0) {ρ σ δ : ℝ}
    (hr : Range σ δ) : (after E g ρ σ δ).WF := by
  have hs := shape_psd hE.psd h0 hr.s1
  unfold after
  by_cases hd : E.noDefer
  · simp only [hd, if_true]
    refine ⟨hE.dim, ?_, hE.kappa⟩
    rw [psd_iff] at hs ⊢
    refine ⟨by rw [transpose_smul, hs.1], fun x => ?_⟩
    rw [smul_mulVec, dotProduct_smul]
    exact mul_nonneg hr.d0 (hs.2 x)
  · simp only [hd]
    exact ⟨hE.dim, hs, mul_nonneg hE.kappa hr.d0⟩

theorem after_proper {E : Ell n} (hE : E.Proper) {g : Fin n → ℝ} (h0 : g ⬝ᵥ E.Q *ᵥ g ≠ 0)
    {ρ σ δ : ℝ} (hσ : σ < 1) (hδ : 0 < δ) : (after E g ρ σ δ).Proper := by
  have hs := shape_pd hE.pd h0 hσ
  unfold after
  by_cases hd : E.noDefer
  · simp only [hd, if_true]
    refine ⟨hE.dim, ?_, hE.kappa⟩
    rw [pd_iff] at hs ⊢
    refine ⟨by rw [transpose_smul, hs.1], fun x hx => ?_⟩
    rw [smul_mulVec, dotProduct_smul]
    exact mul_pos hδ (hs.2 x hx)
  · simp only [hd]
    exact ⟨hE.dim, hs, mul_pos hE.kappa hδ⟩

theorem mem_after {E : Ell n} {g : Fin n → ℝ} {ρ σ δ : ℝ} {x : Fin n → ℝ} :
    x ∈ (after E g ρ σ δ).pts ↔ ∀ y, (y ⬝ᵥ ((x - E.xc) + (ρ / (g ⬝ᵥ E.Q *ᵥ g)) • E.Q *ᵥ g)) ^ 2 ≤
      E.kappa * δ * (y ⬝ᵥ (shape E.Q g σ) *ᵥ y) := by
  have e : ∀ v : Fin n → ℝ, x - (E.xc - v) = x - E.xc + v := fun v => by abel
  unfold after pts
  by_cases hd : E.noDefer
  · simp only [hd, if_true, Set.mem_ofPred_eq, e, smul_mulVec, dotProduct_smul, smul_eq_mul,
      mul_assoc]
  · simp only [hd, Set.mem_ofPred_eq, e, Bool.false_eq_true, if_false]

theorem Proper.wf {E : Ell n} (h : E.Proper) : E.WF := ⟨h.dim, h.pd.posSemidef, h.kappa.le⟩

theorem sq_le_of_mem {E : Ell n} {x : Fin n → ℝ} (hx : x ∈ E.pts) (g : Fin n → ℝ) :
    (g ⬝ᵥ (x - E.xc)) ^ 2 ≤ E.kappa * (g ⬝ᵥ E.Q *ᵥ g) := hx g

theorem update_keep {E E' : Ell n} (hE : E.WF) {g : Fin n → ℝ} {b : Beta} {st : CUTStatus} {tsq : ℝ}
    (h : update (g, b) E = .ok (E', st, tsq)) {x : Fin n → ℝ} (hx : x ∈ E.pts)
    (hs : betaSat b (g ⬝ᵥ (x - E.xc))) : x ∈ E'.pts := by
  obtain ⟨rfl, ⟨-, rfl⟩ | ⟨rfl, h0, ρ, σ, δ, hc, rfl⟩⟩ := update_ok hE h
  · exact hx
  · obtain ⟨hr, hk⟩ := hc.keeps hE.dim (tsq_nonneg hE g)
    rw [mem_after]
    exact mem_step hE.psd hE.kappa h0 hx hr (hk _ (sq_le_of_mem hx g) hs)

theorem update_wf {E E' : Ell n} (hE : E.WF) {c : (Fin n → ℝ) × Beta} {st : CUTStatus} {tsq : ℝ}
    (h : update c E = .ok (E', st, tsq)) : E'.WF := by
  obtain ⟨g, b⟩ := c
  obtain ⟨rfl, ⟨-, rfl⟩ | ⟨rfl, h0, ρ, σ, δ, hc, rfl⟩⟩ := update_ok hE h
  · exact hE
  · exact after_wf hE h0 (hc.keeps hE.dim (tsq_nonneg hE g)).1

end Verif.Ell
