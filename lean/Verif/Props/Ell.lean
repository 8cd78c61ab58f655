import Verif.Proofs.EllUpdate
import Verif.Spec.Sound
import Verif.Props.Ell1d

/-! # C16-C20, C23, C24: class `ell` -/
namespace Verif
open Matrix Ell
variable {n : ℕ} {E E' : Ell n} {g : Fin n → ℝ} {st : CUTStatus} {tsq : ℝ}

/-- The set `Ell.pts` is the ellipsoid of the class docstring. -/
theorem Ell.pts_eq_region (hQ : E.Q.PosDef) (hκ : 0 ≤ E.kappa) : E.pts = E.region := by
  obtain ⟨hs, hp⟩ := pd_iff.1 hQ
  have hu : IsUnit E.Q.det := (Matrix.isUnit_iff_isUnit_det _).1 hQ.isUnit
  have hinv : ∀ z, E.Q *ᵥ (E.Q⁻¹ *ᵥ z) = z := fun z => by
    rw [mulVec_mulVec, Matrix.mul_nonsing_inv _ hu, one_mulVec]
  ext x
  set z := x - E.xc with hz
  set w := E.Q⁻¹ *ᵥ z with hw
  have hq : w ⬝ᵥ E.Q *ᵥ w = z ⬝ᵥ w := by rw [hw, hinv, dotProduct_comm]
  constructor
  · intro h
    have h1 := h w
    rw [hq, ← hz, dotProduct_comm w z] at h1
    change z ⬝ᵥ w ≤ E.kappa
    by_contra hc
    have hc := not_le.1 hc
    nlinarith
  · intro h y
    change z ⬝ᵥ w ≤ E.kappa at h
    have h1 := psd_cauchy hQ.posSemidef y w
    rw [hq, hw, hinv, ← hw] at h1
    have h2 := (psd_iff.1 hQ.posSemidef).2 y
    nlinarith

/-- C16.  A single-sided cut (deep, central or shallow) never removes a point of the ellipsoid that
satisfies `g·(x - xc) + β ≤ 0`, whatever status is returned. -/
theorem C16_ell_deep_sound (hE : E.WF) {β : ℝ} (h : update (g, .scalar β) E = .ok (E', st, tsq)) :
    ∀ x ∈ E.pts, g ⬝ᵥ (x - E.xc) + β ≤ 0 → x ∈ E'.pts :=
  fun _ hx hb => update_keep hE h hx hb

/-- C16, in the docstring form `(x-xc)'Q⁻¹(x-xc) ≤ κ`, for proper ellipsoids and a cut strictly inside. -/
theorem C16_ell_region_sound (hE : E.Proper) (hE' : E'.Proper) {β : ℝ}
    (h : update (g, .scalar β) E = .ok (E', st, tsq)) :
    ∀ x ∈ E.region, g ⬝ᵥ (x - E.xc) + β ≤ 0 → x ∈ E'.region := by
  rw [← Ell.pts_eq_region hE.pd hE.kappa.le, ← Ell.pts_eq_region hE'.pd hE'.kappa.le]
  exact C16_ell_deep_sound hE.wf h

/-- C17.  A parallel cut never removes a point of the slab
`g·(x-xc) + b0 ≤ 0 ≤ g·(x-xc) + b1`, whether or not `use_parallel_cut` is set. -/
theorem C17_ell_parallel_sound (hE : E.WF) {b0 b1 : ℝ} {l : List ℝ}
    (h : update (g, .seq (b0 :: b1 :: l)) E = .ok (E', st, tsq)) :
    ∀ x ∈ E.pts, g ⬝ᵥ (x - E.xc) + b0 ≤ 0 → 0 ≤ g ⬝ᵥ (x - E.xc) + b1 → x ∈ E'.pts :=
  fun _ hx h0 h1 => update_keep hE h hx ⟨h0, h1⟩

/-- C18.  `nosoln` is only returned when no point of the ellipsoid satisfies the cut. -/
theorem C18_ell_nosoln (hE : E.WF) {b : Beta} (h : update (g, b) E = .ok (E', .nosoln, tsq)) :
    ∀ x ∈ E.pts, x ∉ cutSet E.xc (g, b) := by
  intro x hx hc
  rw [mem_cutSet] at hc
  obtain ⟨rfl, ⟨hc', -⟩ | ⟨h', -⟩⟩ := update_ok hE h
  · exact hc'.nosoln (sq_le_of_mem hx g) hc
  · cases h'

/-- C19.  A status other than `success` leaves the object untouched (centre, shape, scale, flags), and
`success` is the only status that changes it.  The only other statuses are `nosoln` and `noeffect`. -/
theorem C19_ell_reject_unchanged {b : Beta} (h : update (g, b) E = .ok (E', st, tsq))
    (hst : st ≠ .success) : E' = E := by
  rcases update_ok_raw h with ⟨-, rfl⟩ | ⟨rfl, -⟩
  · rfl
  · exact absurd rfl hst

theorem C19_ell_statuses (hE : E.WF) {b : Beta} (h : update (g, b) E = .ok (E', st, tsq)) :
    st = .success ∨ st = .nosoln ∨ st = .noeffect := by
  obtain ⟨rfl, ⟨hc, -⟩ | ⟨rfl, -⟩⟩ := update_ok hE h
  · exact .inr hc.reject
  · exact .inl rfl

/-- C19.  Which status a single-sided cut gets, in terms of `τ = √tsq`: `nosoln` exactly beyond the
ellipsoid, `noeffect` exactly below `-τ/n`. -/
theorem C19_ell_deep_status (hE : E.WF) {β : ℝ} (h : update (g, .scalar β) E = .ok (E', st, tsq)) :
    (st = .nosoln ↔ √tsq < β) ∧ (st = .noeffect ↔ n * β < -√tsq) ∧
    (st = .success ↔ -√tsq ≤ n * β ∧ β ≤ √tsq) := by
  have hn' : (2 : ℝ) ≤ n := by exact_mod_cast hE.dim
  have hτ := Real.sqrt_nonneg tsq
  obtain ⟨rfl, ⟨hc, -⟩ | ⟨rfl, h0, ρ, σ, δ, hc, -⟩⟩ := update_ok hE h
  · generalize hb : Beta.scalar β = b at hc
    cases hc with
    | single => simp at hb
    | par => simp at hb
    | scalar hd =>
      cases hb
      rcases hd.reject with ⟨rfl, h1⟩ | ⟨rfl, h1, h2, h3⟩
      · refine ⟨by simpa using h1, ?_, ?_⟩
        · simp; nlinarith
        · simp; intro _; exact h1
      · refine ⟨by simpa using h1, ?_, ?_⟩
        · simp; linarith
        · simp; intro h; linarith
  · generalize hb : Beta.scalar β = b at hc
    cases hc with
    | single => simp at hb
    | par => simp at hb
    | scalar hd =>
      cases hb
      generalize hr : Calc.accept ρ σ δ = r at hd
      cases hd with
      | nosoln => simp at hr
      | noeffect => simp at hr
      | central hb => subst hb; simp [Real.sqrt_nonneg]
      | deep h1 h2 h3 =>
        refine ⟨by simpa using h1, ?_, ?_⟩
        · simp; linarith
        · simp; constructor <;> linarith

/-- C20.  Well-formedness (`Q` symmetric positive semidefinite, `κ ≥ 0`) is kept by every update that
returns. -/
theorem C20_ell_wf {c : (Fin n → ℝ) × Beta} (hE : E.WF) (h : update c E = .ok (E', st, tsq)) :
    E'.WF := update_wf hE h

/-- Cuts whose intersection with the open ellipsoid is not empty and not flat. -/
def nondegenerate (tau : ℝ) : Beta → Prop
  | .scalar b => b < tau
  | .seq [] => False
  | .seq [b] => b < tau
  | .seq (b0 :: b1 :: _) => b0 < tau ∧ b0 < b1 ∧ -tau < b1

private theorem DcCase.strict (hn : 2 ≤ n) {tsq b ρ σ δ : ℝ} (ht : 0 < tsq) (hb : b < √tsq)
    (h : DcCase n tsq b (.accept ρ σ δ)) : σ < 1 ∧ 0 < δ := by
  have hn' : (2 : ℝ) ≤ n := by exact_mod_cast hn
  have hc1 : 0 < c1 n := by unfold c1; apply div_pos (by positivity); nlinarith
  generalize hr : Calc.accept ρ σ δ = r at h
  cases h with
  | nosoln => simp at hr
  | noeffect => simp at hr
  | central =>
    simp only [calcCc, Calc.accept.injEq] at hr
    obtain ⟨rfl, rfl, rfl⟩ := hr
    exact ⟨by unfold c2; rw [div_lt_one (by linarith)]; linarith, hc1⟩
  | deep h1 h2 h3 h4 h5 =>
    simp only [Calc.accept.injEq] at hr
    obtain ⟨rfl, rfl, rfl⟩ := hr
    have hpos : 0 < √tsq := Real.sqrt_pos.2 ht
    have hsq : √tsq ^ 2 = tsq := Real.sq_sqrt ht.le
    have hp := (range_deep hn hpos h1 h3).1
    constructor
    · have e := deep_one_sub_sigma (n := n) hn hp.ne'
      have : 0 < ((n : ℝ) - 1) * (√tsq - b) / ((n + 1) * (√tsq + b)) := by
        apply div_pos
        · apply mul_pos <;> linarith
        · positivity
      linarith
    · apply mul_pos hc1
      have : b * (b / tsq) < 1 := by
        rw [← mul_div_assoc, div_lt_one ht]; nlinarith
      linarith

private theorem LlCase.strict (hn : 2 ≤ n) {up} {tsq b0 b1 ρ σ δ : ℝ} (ht : 0 < tsq)
    (hb : b0 < √tsq) (hb01 : b0 < b1) (hb1 : -√tsq < b1)
    (h : LlCase n up tsq b0 b1 (.accept ρ σ δ)) : σ < 1 ∧ 0 < δ := by
  have hn' : (2 : ℝ) ≤ n := by exact_mod_cast hn
  have hc1 : 0 < c1 n := by unfold c1; apply div_pos (by positivity); nlinarith
  generalize hr : Calc.accept ρ σ δ = r at h
  cases h with
  | fallback _ hd => subst hr; exact DcCase.strict hn ht hb hd
  | nosoln => simp at hr
  | noeffect => simp at hr
  | parallel h1 h2 h3 h4 h5 =>
    simp only [Calc.accept.injEq] at hr
    obtain ⟨rfl, rfl, rfl⟩ := hr
    obtain ⟨τ, hτ, hsq⟩ : ∃ τ : ℝ, 0 < τ ∧ tsq = τ ^ 2 :=
      ⟨√tsq, Real.sqrt_pos.2 ht, (Real.sq_sqrt ht.le).symm⟩
    subst hsq
    rw [Real.sqrt_sq hτ.le] at hb hb1
    obtain ⟨r1, r2, -⟩ := par_facts (n := n) (τ := τ) (b0 := b0) (b1 := b1) hn hτ h2 h3 h4 h5
    refine ⟨r2.2 hb01.ne, ?_⟩
    obtain ⟨x, rfl⟩ : ∃ x, b0 = τ * x := ⟨b0 / τ, by field_simp⟩
    obtain ⟨y, rfl⟩ : ∃ y, b1 = τ * y := ⟨b1 / τ, by field_simp⟩
    have e1 : τ * y * (τ * y / τ ^ 2) = y ^ 2 := by field_simp
    have e2 : τ * x * (τ * y / τ ^ 2) = x * y := by field_simp
    have e3 : τ * x * (τ * x / τ ^ 2) = x ^ 2 := by field_simp
    have hx1 : x < 1 := by nlinarith
    have hxy : x < y := lt_of_mul_lt_mul_left hb01 hτ.le
    have hy1 : -1 < y := by nlinarith
    rw [e1] at h2
    rw [e2] at h4
    unfold parDelta
    rw [e1, e3]
    have hξ := parXi_sq n hτ x y
    set ξ := parXi n (τ ^ 2) (τ * x) (τ * y)
    have hξ0 : 0 ≤ ξ := by rw [hξ]; positivity
    have hξ2 : ξ ^ 2 = (1 - x ^ 2) * (1 - y ^ 2) + (n / 2 * (x + y) * (y - x)) ^ 2 := by
      rw [hξ, Real.sq_sqrt (par_arg_nonneg hn x y)]
    apply mul_pos hc1
    have f3 := (xi_facts hn (by linarith) h4 hξ0 hξ2).2.2
    refine lt_of_le_of_ne f3 fun h0 => ?_
    have hm : n * (((1 - x ^ 2) + (1 - y ^ 2)) / 2) = -ξ := by
      field_simp at h0 ⊢; linarith
    have h7 : ((n : ℝ) ^ 2 - 1) * ((1 - x ^ 2) * (1 - y ^ 2)) = 0 := by
      have : ξ ^ 2 = (n * (((1 - x ^ 2) + (1 - y ^ 2)) / 2)) ^ 2 := by rw [hm]; ring
      rw [hξ2] at this
      linear_combination -this
    have h8 : (n : ℝ) ^ 2 - 1 ≠ 0 := by nlinarith
    have hxge : -1 / n ≤ x * y := by rw [div_le_iff₀ (by linarith)]; linarith
    have hm0 : ((1 - x ^ 2) + (1 - y ^ 2)) / 2 ≤ 0 := by
      by_contra hc
      have : 0 < n * (((1 - x ^ 2) + (1 - y ^ 2)) / 2) := mul_pos (by linarith) (not_le.1 hc)
      linarith
    have hxy2 : -1 < x * y := by
      have : (-1 : ℝ) < -1 / n := by rw [lt_div_iff₀ (by linarith)]; linarith
      linarith
    rcases mul_eq_zero.1 ((mul_eq_zero.1 h7).resolve_left h8) with hz | hz
    · have hx : x = -1 := by
        have : (1 - x) * (1 + x) = 0 := by linarith
        rcases mul_eq_zero.1 this with h | h <;> linarith
      subst hx
      nlinarith
    · have hy : y = 1 := by
        have : (1 - y) * (1 + y) = 0 := by linarith
        rcases mul_eq_zero.1 this with h | h <;> linarith
      subst hy
      have : 1 ≤ x ^ 2 := by linarith
      nlinarith

private theorem CalcCase.strict (hn : 2 ≤ n) {up tsq b ρ σ δ} (ht : 0 < tsq)
    (hb : nondegenerate (√tsq) b) (h : CalcCase n up tsq b (.accept ρ σ δ)) : σ < 1 ∧ 0 < δ := by
  cases h with
  | scalar h => exact DcCase.strict hn ht hb h
  | single h => exact DcCase.strict hn ht hb h
  | par _ h => exact LlCase.strict hn ht hb.1 hb.2.1 hb.2.2 h

/-- C20.  A proper ellipsoid (positive definite, `κ > 0`) stays proper under every cut that is not
tangent, empty or flat. -/
theorem C20_ell_proper (hE : E.Proper) (hg : g ≠ 0) {b : Beta}
    (hb : nondegenerate (√(E.kappa * (g ⬝ᵥ E.Q *ᵥ g))) b)
    (h : update (g, b) E = .ok (E', st, tsq)) : E'.Proper := by
  have hpos : 0 < g ⬝ᵥ E.Q *ᵥ g := (pd_iff.1 hE.pd).2 g hg
  obtain ⟨rfl, ⟨-, rfl⟩ | ⟨rfl, h0, ρ, σ, δ, hc, rfl⟩⟩ := update_ok hE.wf h
  · exact hE
  · obtain ⟨h1, h2⟩ := CalcCase.strict hE.dim (mul_pos hE.kappa hpos) hb hc
    exact after_proper hE h0 h1 h2

/-- C20 (ranges).  Whenever the cut is not tangent, empty or flat and `update` accepts it, the two numbers `σ` and `δ` it has computed lie
in `[0, 1)` and in `(0, ∞)`. -/
theorem C20_ell_sigma_delta (hE : E.Proper) (hg : g ≠ 0) {b : Beta} {ρ σ δ : ℝ}
    (hb : nondegenerate (√(E.kappa * (g ⬝ᵥ E.Q *ᵥ g))) b)
    (h : calcLl n E.usePar (E.kappa * (g ⬝ᵥ E.Q *ᵥ g)) b = .ok (.accept ρ σ δ, tsq)) : 0 ≤ σ ∧ σ < 1 ∧ 0 < δ := by
  have hpos : 0 < g ⬝ᵥ E.Q *ᵥ g := (pd_iff.1 hE.pd).2 g hg
  have ht := mul_pos hE.kappa hpos
  obtain ⟨-, hc⟩ := calcLl_ok ht.le h
  exact ⟨(hc.keeps hE.dim ht.le).1.s0, CalcCase.strict hE.dim ht hb hc⟩

private theorem calcDc_err (hn : 2 ≤ n) {tsq b : ℝ} {e : PyErr} (ht : 0 < tsq) :
    calcDc n tsq b = .error e ↔ √tsq + n * b = 0 ∧ e = .zeroDivision := by
  have hn' : (2 : ℝ) ≤ n := by exact_mod_cast hn
  have hτ : 0 < √tsq := Real.sqrt_pos.2 ht
  have hs : pySqrt tsq = .ok (√tsq) := pySqrt_ok.2 ⟨ht.le, rfl⟩
  simp only [calcDc, hs]
  by_cases h1 : √tsq - b < 0
  · rw [if_pos h1]
    refine ⟨fun h => by simp at h, fun h => ?_⟩
    have := h.1; nlinarith
  rw [if_neg h1]
  by_cases h2 : b = 0
  · rw [if_pos h2]
    refine ⟨fun h => by simp at h, fun h => ?_⟩
    have := h.1; rw [h2] at this; linarith
  rw [if_neg h2]
  by_cases h3 : √tsq + n * b < 0
  · rw [if_pos h3]
    refine ⟨fun h => by simp at h, fun h => ?_⟩
    linarith [h.1]
  rw [if_neg h3]
  by_cases h4 : √tsq + n * b = 0
  · simp [h4, pyDiv, bind, Except.bind, eq_comm]
  · have h5 : √tsq + b ≠ 0 := by
      intro h5; apply h3; nlinarith
    simp [pyDiv, h4, h5, ht.ne', bind, Except.bind, pure, Except.pure]

private theorem update_err (hE : E.Proper) (hg : g ≠ 0) {b : Beta} {e : PyErr} :
    update (g, b) E = .error e ↔ calcLl n E.usePar (E.kappa * (g ⬝ᵥ E.Q *ᵥ g)) b = .error e := by
  have hpos : g ⬝ᵥ E.Q *ᵥ g ≠ 0 := ((pd_iff.1 hE.pd).2 g hg).ne'
  simp only [update]
  split
  · rename_i h; simp [h]
  · rename_i h; simp [h]
  · rename_i h
    simp only [pyDiv, hpos, if_false]
    rw [h]
    split <;> simp

/-- C20 (no hidden failure, single cut).  On a proper ellipsoid and for a nonzero gradient, the only
single-sided cut on which `update` fails is the one with `β = -τ/n`: there the *unused* quantity `_mu`
divides by zero. -/
theorem C20_ell_deep_fails_iff (hE : E.Proper) (hg : g ≠ 0) {β : ℝ} {e : PyErr} :
    update (g, .scalar β) E = .error e ↔
      √(E.kappa * (g ⬝ᵥ E.Q *ᵥ g)) + n * β = 0 ∧ e = .zeroDivision := by
  have hpos : 0 < g ⬝ᵥ E.Q *ᵥ g := (pd_iff.1 hE.pd).2 g hg
  rw [update_err hE hg]
  exact calcDc_err hE.dim (mul_pos hE.kappa hpos)

/-- C20 (no hidden failure, parallel cut).  With `t = κ g'Qg`: if the second plane misses the ellipsoid
or parallel cuts are off, the single-sided rule applies to `b0`; otherwise the only failure is a slab
symmetric about the centre (`b0 = -b1`) which is thin enough (`n b1² ≤ t`). -/
theorem C20_ell_parallel_fails_iff (hE : E.Proper) (hg : g ≠ 0) {b0 b1 : ℝ} {l : List ℝ} {e : PyErr} :
    update (g, .seq (b0 :: b1 :: l)) E = .error e ↔ e = .zeroDivision ∧
      let t := E.kappa * (g ⬝ᵥ E.Q *ᵥ g)
      if t < b1 ^ 2 ∨ E.usePar = false then √t + n * b0 = 0
      else b0 = -b1 ∧ 0 ≤ b1 ∧ n * b1 ^ 2 ≤ t := by
  have hn' : (2 : ℝ) ≤ n := by exact_mod_cast hE.dim
  have hpos : 0 < g ⬝ᵥ E.Q *ᵥ g := (pd_iff.1 hE.pd).2 g hg
  rw [update_err hE hg]
  have ht := mul_pos hE.kappa hpos
  set t := E.kappa * (g ⬝ᵥ E.Q *ᵥ g)
  have ht' := ht.ne'
  have e1 : 1 - b1 * (b1 / t) < 0 ↔ t < b1 ^ 2 := by
    rw [sub_neg, ← mul_div_assoc, one_lt_div ht, sq]
  simp only [calcLl, calcLlCore]
  have hd : pyDiv b1 t = .ok (b1 / t) := by simp [pyDiv, ht']
  simp only [hd, bind, Except.bind]
  by_cases h1 : t < b1 ^ 2 ∨ E.usePar = false
  · rw [if_pos (by rwa [e1]), if_pos h1, calcDc_err hE.dim ht, and_comm]
  rw [if_neg (by rwa [e1]), if_neg h1]
  have h1' : b1 ^ 2 ≤ t := by by_contra h; exact h1 (.inl (not_le.1 h))
  by_cases h2 : b1 - b0 < 0
  · rw [if_pos h2]
    simp only [pure, Except.pure, reduceCtorEq, false_iff, not_and]
    rintro - rfl h; linarith
  rw [if_neg h2]
  have hdn : ∀ x : ℝ, pyDiv x (n : ℝ) = .ok (x / n) := fun x => by
    simp [pyDiv, show (n : ℝ) ≠ 0 by linarith]
  have hdt : ∀ x : ℝ, pyDiv x t = .ok (x / t) := fun x => by simp [pyDiv, ht']
  obtain ⟨τ, hτ, hsq⟩ : ∃ τ : ℝ, 0 < τ ∧ t = τ ^ 2 :=
      ⟨√t, Real.sqrt_pos.2 ht, (Real.sq_sqrt ht.le).symm⟩
  have harg : 0 ≤ (1 - b0 * (b0 / t)) * (1 - b1 * (b1 / t)) +
      (halfN n * ((b0 + b1) / t) * (b1 - b0)) * (halfN n * ((b0 + b1) / t) * (b1 - b0)) := by
    have := par_arg_nonneg hE.dim (b0 / τ) (b1 / τ)
    convert this using 1
    rw [hsq]; unfold halfN; field_simp
  by_cases h3 : b0 = 0
  · rw [if_pos h3]
    subst h3
    have ha : 0 ≤ 1 - b1 * (b1 / t) + (halfN n * (b1 * (b1 / t))) ^ 2 := by
      convert harg using 1; unfold halfN; ring
    simp only [calcLlCc, pySqrt, not_lt.2 ha, if_false, bind, Except.bind]
    by_cases h4 : b1 = 0
    · subst h4; simp [pyDiv, eq_comm, ht.le]
    · have h5 : b1 * (b1 / t) ≠ 0 := by positivity
      have hd5 : ∀ x : ℝ, pyDiv x (b1 * (b1 / t)) = .ok (x / (b1 * (b1 / t))) := fun x => by
        rw [pyDiv, if_neg h5]
      simp only [hd5, hdn, pure, Except.pure, reduceCtorEq, false_iff, not_and]
      intro _ h; exfalso; apply h4; linarith
  rw [if_neg h3]
  have e4 : (n : ℝ) * (b0 * (b1 / t)) = n * b0 * b1 / t := by ring
  by_cases h4 : (n : ℝ) * (b0 * (b1 / t)) < -1
  · rw [if_pos h4]
    simp only [pure, Except.pure, reduceCtorEq, false_iff, not_and]
    rintro - rfl h h'
    rw [e4, div_lt_iff₀ ht] at h4
    nlinarith
  rw [if_neg h4]
  simp only [hdt, pySqrt, not_lt.2 harg, if_false]
  by_cases h5 : b0 + b1 = 0
  · have hb0 : b0 = -b1 := by linarith
    simp only [h5, zero_div, zero_mul, pyDiv, if_true, Except.error.injEq]
    rw [e4, not_lt, le_div_iff₀ ht] at h4
    constructor
    · rintro rfl
      refine ⟨rfl, hb0, by linarith, ?_⟩
      subst hb0; nlinarith
    · rintro ⟨rfl, -⟩; rfl
  · have h6 : (b0 + b1) / t * ((b0 + b1) / 2) * ((n : ℝ) + 1) ≠ 0 := by positivity
    simp only [hdn]
    rw [pyDiv, if_neg h6]
    simp only [pure, Except.pure, reduceCtorEq, false_iff, not_and]
    rintro - rfl; exact absurd (by ring) h5

/-- C20.  The `ValueError` handler of `_calc_dc` (negative `tsq`) is dead code on well-formed
ellipsoids: `tsq = κ g'Qg ≥ 0` for every `g`, and the returned value is that number. -/
theorem C20_ell_tsq_nonneg (hE : E.WF) {b : Beta} (h : update (g, b) E = .ok (E', st, tsq)) :
    tsq = E.kappa * (g ⬝ᵥ E.Q *ᵥ g) ∧ 0 ≤ tsq := by
  obtain ⟨rfl, -⟩ := update_ok hE h
  exact ⟨rfl, tsq_nonneg hE g⟩

/-- C23.  The returned `tsq` is the square of half the width of the ellipsoid in direction `g`: the
maximum of `(g·(x - xc))²` over the ellipsoid, and it is attained. -/
theorem C23_ell_tsq (hE : E.WF) {b : Beta} (h : update (g, b) E = .ok (E', st, tsq)) :
    IsGreatest ((fun x => (g ⬝ᵥ (x - E.xc)) ^ 2) '' E.pts) tsq := by
  obtain ⟨rfl, -⟩ := update_ok hE h
  obtain ⟨hs, hp⟩ := psd_iff.1 hE.psd
  refine ⟨?_, ?_⟩
  · rcases eq_or_lt_of_le (hp g) with h0 | h0
    · refine ⟨E.xc, fun y => ?_, ?_⟩
      · simpa using mul_nonneg hE.kappa (hp y)
      · simp [← h0]
    · refine ⟨E.xc + √(E.kappa / (g ⬝ᵥ E.Q *ᵥ g)) • E.Q *ᵥ g, fun y => ?_, ?_⟩
      · rw [add_sub_cancel_left, dotProduct_smul, smul_eq_mul, mul_pow,
          Real.sq_sqrt (div_nonneg hE.kappa h0.le), div_mul_eq_mul_div, div_le_iff₀ h0]
        have := psd_cauchy hE.psd y g
        have := mul_le_mul_of_nonneg_left this hE.kappa
        linarith
      · simp only [add_sub_cancel_left, dotProduct_smul, smul_eq_mul]
        rw [mul_pow, Real.sq_sqrt (div_nonneg hE.kappa h0.le)]
        field_simp
  · rintro _ ⟨x, hx, rfl⟩
    exact hx g

/-- C18, single cut: `nosoln` is returned exactly when no point of the ellipsoid satisfies the cut. -/
theorem C18_ell_deep_nosoln_iff (hE : E.WF) {β : ℝ} (h : update (g, .scalar β) E = .ok (E', st, tsq)) :
    st = .nosoln ↔ ∀ x ∈ E.pts, ¬ g ⬝ᵥ (x - E.xc) + β ≤ 0 := by
  obtain ⟨⟨x, hx, hxt⟩, -⟩ := C23_ell_tsq hE h
  constructor
  · rintro rfl x hx hc
    exact C18_ell_nosoln hE h x hx hc
  · intro hall
    rw [(C19_ell_deep_status hE h).1]
    by_contra hle
    have habs : |g ⬝ᵥ (x - E.xc)| = √tsq := by rw [← hxt, Real.sqrt_sq_eq_abs]
    have hrefl : (2 : ℝ) • E.xc - x ∈ E.pts := by
      intro y
      have := hx y
      rwa [show (2 : ℝ) • E.xc - x - E.xc = -(x - E.xc) by rw [two_smul]; abel, dotProduct_neg, neg_sq]
    have h1 := hall x hx
    have h2 := hall _ hrefl
    rw [show (2 : ℝ) • E.xc - x - E.xc = -(x - E.xc) by rw [two_smul]; abel, dotProduct_neg] at h2
    rcases abs_cases (g ⬝ᵥ (x - E.xc)) with ⟨h3, -⟩ | ⟨h3, -⟩ <;> linarith

/-- C24.  The constructor: it fails exactly for `n = 1`; a scalar `v` gives the ball of squared radius
`v`, an array gives the axis-parallel ellipsoid `Σ (x_i - c_i)² / v_i ≤ 1`. -/
theorem C24_ell_init_fails (val : EllVal n) (x : Fin n → ℝ) :
    (∃ e, Ell.init val x = .error e) ↔ n = 1 := by
  have hk : (n : ℝ) * n - 1 = 0 ↔ n = 1 := by
    constructor
    · intro h
      have h' : ((n * n : ℕ) : ℝ) = (1 : ℕ) := by push_cast; linarith
      have : n * n = 1 := by exact_mod_cast h'
      exact Nat.eq_one_of_mul_eq_one_left this
    · rintro rfl; simp
  unfold Ell.init c1? pyDiv
  by_cases h : n = 1
  · rw [if_pos (hk.2 h)]; simp [h]
  · rw [if_neg (fun h' => h (hk.1 h'))]
    cases val <;> simp [h]

/-- C24.  For `n = 1` the constructor fails with `ZeroDivisionError`; otherwise the constant it stores in `_c1` is `n² / (n² - 1)`, the value used by the
`_calc_*` methods. -/
theorem C24_ell_init_const : (n = 1 → c1? n = .error .zeroDivision) ∧ (n ≠ 1 → c1? n = .ok (c1 n) ∧ c1 n * ((n : ℝ) ^ 2 - 1) = n ^ 2) := by
  constructor
  · rintro rfl; simp [c1?, pyDiv]
  · intro h
    have hk : (n : ℝ) * n - 1 ≠ 0 := by
      intro h0
      have h' : ((n * n : ℕ) : ℝ) = (1 : ℕ) := by push_cast; linarith
      have : n * n = 1 := by exact_mod_cast h'
      exact h (Nat.eq_one_of_mul_eq_one_left this)
    refine ⟨by unfold c1? pyDiv; rw [if_neg hk]; rfl, ?_⟩
    unfold c1
    rw [sq, div_mul_cancel₀ _ hk]

theorem C24_ell_init_ball (hn : 2 ≤ n) {v : ℝ} (hv : 0 ≤ v) {x : Fin n → ℝ}
    (h : Ell.init (.scalar v) x = .ok E) :
    E.WF ∧ E.xc = x ∧ E.usePar = true ∧ E.noDefer = false ∧
    E.pts = {z | ∑ i, (z i - x i) ^ 2 ≤ v} := by
  unfold Ell.init at h
  split at h
  · simp at h
  simp only [Except.ok.injEq] at h
  subst h
  have hpd : (1 : Matrix (Fin n) (Fin n) ℝ).PosDef := Matrix.PosDef.one
  refine ⟨⟨hn, hpd.posSemidef, hv⟩, rfl, rfl, rfl, ?_⟩
  rw [Ell.pts_eq_region hpd hv]
  ext z
  simp [Ell.region, dotProduct, sq]

theorem C24_ell_init_diag (hn : 2 ≤ n) {v : Fin n → ℝ} (hv : ∀ i, 0 < v i) {x : Fin n → ℝ}
    (h : Ell.init (.diag v) x = .ok E) :
    E.Proper ∧ E.xc = x ∧ E.pts = {z | ∑ i, (z i - x i) ^ 2 / v i ≤ 1} := by
  unfold Ell.init at h
  split at h
  · simp at h
  simp only [Except.ok.injEq] at h
  subst h
  have hpd : (Matrix.diagonal v).PosDef := Matrix.PosDef.diagonal hv
  refine ⟨⟨hn, hpd, one_pos⟩, rfl, ?_⟩
  rw [Ell.pts_eq_region hpd zero_le_one]
  have hinv : (Matrix.diagonal v)⁻¹ = Matrix.diagonal (fun i => (v i)⁻¹) := by
    apply Matrix.inv_eq_right_inv
    rw [Matrix.diagonal_mul_diagonal]
    have : (fun i => v i * (v i)⁻¹) = fun _ => 1 := by
      funext i; exact mul_inv_cancel₀ (hv i).ne'
    rw [this, Matrix.diagonal_one]
  ext z
  simp only [Ell.region, hinv, Set.mem_ofPred_eq, mulVec_diagonal, dotProduct, Pi.sub_apply]
  have : ∀ i, (z i - x i) * ((v i)⁻¹ * (z i - x i)) = (z i - x i) ^ 2 / v i := fun i => by
    field_simp
  simp only [this]

/-- C24.  At value level a copy is equal to the original. -/
theorem C24_ell_copy (hn : n ≠ 1) (E : Ell n) : Ell.copy E = .ok E := by
  have := (C24_ell_init_fails (.scalar E.kappa) E.xc).not.2 hn
  unfold Ell.copy
  cases h : Ell.init (.scalar E.kappa) E.xc with
  | error e => exact absurd ⟨e, h⟩ this
  | ok E' =>
    unfold Ell.init at h
    split at h
    · simp at h
    simp only [Except.ok.injEq] at h
    subst h; rfl

/-- C16-C18 assembled: `ell` is a sound search space in the sense of the driver theorems. -/
theorem C16_C17_C18_ell_soundSpace (W : Type _) :
    SoundSpace (Ell.space W n) (fun w => w.2.WF) (fun w => w.2.pts) cutSet where
  inv c w w' st tsq hw h := by
    simp only [Ell.space] at h
    split at h
    · simp at h
    rename_i h'
    simp only [Except.ok.injEq, Prod.mk.injEq] at h
    obtain ⟨rfl, rfl, rfl⟩ := h
    exact update_wf hw h'
  keep c w w' st tsq hw h p hp hs := by
    simp only [Ell.space] at h
    split at h
    · simp at h
    rename_i h'
    simp only [Except.ok.injEq, Prod.mk.injEq] at h
    obtain ⟨rfl, rfl, rfl⟩ := h
    obtain ⟨g, b⟩ := c
    exact update_keep hw h' hp (mem_cutSet.1 hs)
  nosoln c w w' tsq hw h := by
    simp only [Ell.space] at h
    split at h
    · simp at h
    rename_i h'
    simp only [Except.ok.injEq, Prod.mk.injEq] at h
    obtain ⟨rfl, rfl, rfl⟩ := h
    obtain ⟨g, b⟩ := c
    exact C18_ell_nosoln hw h'

end Verif
