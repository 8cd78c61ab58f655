import Verif.Proofs.EllRep

/-! # C22: `no_defer_trick` -/
namespace Verif
open Matrix Ell
variable {n : ℕ}

/-- Same ellipsoid (as a set of points) and the same `use_parallel_cut`; nothing is said about
`no_defer_trick`, `κ` and `Q` individually. -/
structure SameEll (E1 E2 : Ell n) : Prop where
  par : E1.usePar = E2.usePar
  pts : E1.pts = E2.pts

/-- Run a list of cuts, recording status, `tsq` and the centre after each update. -/
noncomputable def Ell.run : List ((Fin n → ℝ) × Beta) → Ell n →
    Except PyErr (Ell n × List (CUTStatus × ℝ × (Fin n → ℝ)))
  | [], E => .ok (E, [])
  | c :: cs, E =>
    match update c E with
    | .error e => .error e
    | .ok (E', st, t) =>
      match run cs E' with
      | .error e => .error e
      | .ok (E'', l) => .ok (E'', (st, t, E'.xc) :: l)

/-- Equal observations and, at the end, the same ellipsoid. -/
def SameRes {A : Type _} (r1 r2 : Except PyErr (Ell n × A)) : Prop :=
  match r1, r2 with
  | .error e1, .error e2 => e1 = e2
  | .ok (E1, a1), .ok (E2, a2) => a1 = a2 ∧ SameEll E1 E2 ∧ E1.xc = E2.xc
  | _, _ => False

/-- **C22 (one step).** The same cut applied to two proper representations of the same ellipsoid gives
the same error, or the same status, `tsq`, centre and ellipsoid. -/
theorem C22_ell_defer_step {E1 E2 : Ell n} (h1 : E1.Proper) (h2 : E2.Proper) (h : SameEll E1 E2)
    (c : (Fin n → ℝ) × Beta) : SameRes (update c E1) (update c E2) := by
  obtain ⟨g, b⟩ := c
  obtain ⟨hx, hq⟩ := (pts_inj h1.wf h2.wf).1 h.pts
  have hk1 := h1.kappa.ne'
  have hk2 := h2.kappa.ne'
  obtain ⟨c, hc, hQ⟩ : ∃ c : ℝ, c ≠ 0 ∧ E1.Q = c • E2.Q := by
    refine ⟨E1.kappa⁻¹ * E2.kappa, mul_ne_zero (inv_ne_zero hk1) hk2, ?_⟩
    rw [← smul_smul, ← hq, smul_smul, inv_mul_cancel₀ hk1, one_smul]
  have hk : E1.kappa * c = E2.kappa ∨ E2.Q = 0 := by
    rw [hQ, smul_smul] at hq
    rcases eq_or_ne E2.Q 0 with h0 | h0
    · exact .inr h0
    · exact .inl (smul_left_injective ℝ h0 hq)
  have hω : g ⬝ᵥ E1.Q *ᵥ g = c * (g ⬝ᵥ E2.Q *ᵥ g) := by
    rw [hQ, smul_mulVec, dotProduct_smul, smul_eq_mul]
  have ht : E1.kappa * (g ⬝ᵥ E1.Q *ᵥ g) = E2.kappa * (g ⬝ᵥ E2.Q *ᵥ g) := by
    rcases hk with hk | hk
    · rw [hω, ← mul_assoc, hk]
    · rw [hω, hk]; simp
  cases hr1 : update (g, b) E1 with
  | error e1 =>
    rw [update_eq, ht, h.par] at hr1
    rw [update_eq]
    revert hr1
    rcases calcLl n E2.usePar (E2.kappa * (g ⬝ᵥ E2.Q *ᵥ g)) b with e | ⟨⟨st⟩ | ⟨ρ, σ, δ⟩, t⟩
    · rintro ⟨⟩; exact rfl
    · simp
    · by_cases h0 : g ⬝ᵥ E2.Q *ᵥ g = 0
      · simp [h0, hω, SameRes, eq_comm]
      · simp [h0, hω, hc]
  | ok r =>
    obtain ⟨E1', st1, t1⟩ := r
    have hwf1 := update_wf h1.wf hr1
    have hr1' := hr1
    rw [update_eq, ht, h.par] at hr1
    cases hr2 : update (g, b) E2 with
    | error e2 =>
      rw [update_eq] at hr2
      exfalso
      revert hr1 hr2
      rcases calcLl n E2.usePar (E2.kappa * (g ⬝ᵥ E2.Q *ᵥ g)) b with e | ⟨⟨st⟩ | ⟨ρ, σ, δ⟩, t⟩
      · simp
      · simp
      · by_cases h0 : g ⬝ᵥ E2.Q *ᵥ g = 0
        · simp [h0, hω]
        · simp [h0]
    | ok r2 =>
      obtain ⟨E2', st2, t2⟩ := r2
      have hwf2 := update_wf h2.wf hr2
      rw [update_eq] at hr2
      revert hr1 hr2
      rcases calcLl n E2.usePar (E2.kappa * (g ⬝ᵥ E2.Q *ᵥ g)) b with e | ⟨⟨st⟩ | ⟨ρ, σ, δ⟩, t⟩
      · simp
      · simp only [Except.ok.injEq, Prod.mk.injEq]
        rintro ⟨rfl, rfl, rfl⟩ ⟨rfl, rfl, rfl⟩
        exact ⟨rfl, h, hx⟩
      · by_cases h0 : g ⬝ᵥ E2.Q *ᵥ g = 0
        · simp [h0]
        · have h0' : g ⬝ᵥ E1.Q *ᵥ g ≠ 0 := by rw [hω]; exact mul_ne_zero hc h0
          simp only [h0, h0', if_false, Except.ok.injEq, Prod.mk.injEq]
          rintro ⟨rfl, rfl, rfl⟩ ⟨rfl, rfl, rfl⟩
          have hxc : (after E1 g ρ σ δ).xc = (after E2 g ρ σ δ).xc := by
            rw [after_xc, after_xc, hx, hω, hQ, smul_mulVec, smul_smul]
            congr 2; field_simp
          have hk : E1.kappa * c = E2.kappa := by
            rcases hk with hk | hk
            · exact hk
            · rw [hk] at h0; simp at h0
          refine ⟨rfl, ⟨?_, (pts_inj hwf1 hwf2).2 ⟨hxc, ?_⟩⟩, hxc⟩
          · rw [(after_usePar _ _ _ _ _).1, (after_usePar _ _ _ _ _).1, h.par]
          · rw [after_scaled, after_scaled, hQ, shape_smul hc, smul_smul, mul_assoc, hk]

/-- Properness is a property of the denoted set. -/
theorem SameEll.proper {E1 E2 : Ell n} (h1 : E1.WF) (h2 : E2.WF) (h : SameEll E1 E2) :
    E1.Proper ↔ E2.Proper := by
  rw [proper_iff h1, proper_iff h2, ((pts_inj h1 h2).1 h.pts).2]

/-- **C22.** Along every list of cuts that never flattens the ellipsoid before its last cut, two
representations of the same ellipsoid behave identically.  (The cuts may be chosen adaptively: as all
observations agree, the same strategy issues the same list.) -/
theorem C22_ell_defer_run (cs : List ((Fin n → ℝ) × Beta)) {E1 E2 : Ell n} (h1 : E1.WF) (h2 : E2.WF)
    (h : SameEll E1 E2)
    (hp : ∀ p c s, cs = p ++ c :: s → ∀ E' l, Ell.run p E1 = .ok (E', l) → E'.Proper) :
    SameRes (Ell.run cs E1) (Ell.run cs E2) := by
  induction cs generalizing E1 E2 with
  | nil => exact ⟨rfl, h, ((pts_inj h1 h2).1 h.pts).1⟩
  | cons c cs ih =>
    have hp1 : E1.Proper := hp [] c cs rfl E1 [] rfl
    have hp2 : E2.Proper := (h.proper h1 h2).1 hp1
    have hstep := C22_ell_defer_step hp1 hp2 h c
    simp only [Ell.run]
    cases hr1 : update c E1 with
    | error e1 =>
      cases hr2 : update c E2 with
      | error e2 => rw [hr1, hr2] at hstep; exact hstep
      | ok r2 => rw [hr1, hr2] at hstep; exact hstep.elim
    | ok r1 =>
      cases hr2 : update c E2 with
      | error e2 => rw [hr1, hr2] at hstep; exact hstep.elim
      | ok r2 =>
        obtain ⟨E1', st1, t1⟩ := r1
        obtain ⟨E2', st2, t2⟩ := r2
        rw [hr1, hr2] at hstep
        obtain ⟨ha, hs, hx⟩ := hstep
        simp only [Prod.mk.injEq] at ha
        obtain ⟨rfl, rfl⟩ := ha
        have := ih (update_wf h1 hr1) (update_wf h2 hr2) hs (by
          rintro p c' s rfl E' l hrun
          refine hp (c :: p) c' s rfl E' ((st1, t1, E1'.xc) :: l) ?_
          simp [Ell.run, hr1, hrun])
        simp only
        revert this
        rcases Ell.run cs E1' with e1 | ⟨F1, l1⟩ <;> rcases Ell.run cs E2' with e2 | ⟨F2, l2⟩ <;>
          simp only [SameRes, imp_self]
        rintro ⟨rfl, h3, h4⟩
        exact ⟨by rw [hx], h3, h4⟩

/-- The flag is never changed, so the two objects really follow different code paths. -/
theorem C22_ell_flag_kept {E E' : Ell n} {c : (Fin n → ℝ) × Beta} {st : CUTStatus} {t : ℝ}
    (h : update c E = .ok (E', st, t)) : E'.noDefer = E.noDefer ∧ E'.usePar = E.usePar := by
  obtain ⟨g, b⟩ := c
  rcases update_ok_raw h with ⟨-, rfl⟩ | ⟨-, -, ρ, σ, δ, -, rfl⟩
  · exact ⟨rfl, rfl⟩
  · exact ⟨(after_usePar _ _ _ _ _).2, (after_usePar _ _ _ _ _).1⟩

/-- Hypotheses are met: the disc of squared radius 4 as `κ = 4, Q = 1` (deferred) and as `κ = 1, Q = 4`
(not deferred). -/
example (c : (Fin 2 → ℝ) × Beta) : SameRes (update c (⟨true, false, 0, 1, 4⟩ : Ell 2))
    (update c (⟨true, true, 0, (4 : ℝ) • 1, 1⟩ : Ell 2)) := by
  have h1 : (⟨true, false, 0, 1, 4⟩ : Ell 2).Proper := ⟨le_rfl, Matrix.PosDef.one, by norm_num⟩
  have h2 : (⟨true, true, 0, (4 : ℝ) • 1, 1⟩ : Ell 2).Proper :=
    ⟨le_rfl, Matrix.PosDef.one.smul (by norm_num), by norm_num⟩
  refine C22_ell_defer_step h1 h2 ⟨rfl, (pts_inj h1.wf h2.wf).2 ⟨rfl, ?_⟩⟩ c
  simp

end Verif
