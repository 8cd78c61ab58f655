import Verif.Props.EllSolve
import Verif.Props.Lowpass

/-!
# C89: the low-pass design run

`cutting_plane_dc(lowpass_oracle(...), ell(...), Spsq)`: driver, ellipsoid with parallel cuts, and oracle together.
The point is the value of `S.xc` when it was recorded (the reference returned by the code is overwritten later, C08).
-/
namespace Verif
open Matrix Ell
variable {n : ℕ} [NeZero n]

/-- `lowpass_oracle` as the `Omega` of `cutting_plane_dc`. -/
noncomputable def lowpassOmega (x : Fin n → ℝ) (S : ℝ) (o : Lowpass n) :
    Except PyErr (Lowpass n × ((Fin n → ℝ) × Beta) × Option ℝ) := Lowpass.call x S o

/-- What stays true of the oracle object during a run. -/
def LpInv (o₀ o : Lowpass n) (t : ℝ) : Prop := o.Inv ∧ o₀.SameData o ∧ 0 ≤ t

omit [NeZero n] in
theorem Lowpass.SameData.refl (o : Lowpass n) : o.SameData o := ⟨rfl, rfl, rfl, rfl, rfl⟩

theorem lowpassOmega_answer {o₀ : Lowpass n} (hLU : o₀.Lpsq ≤ o₀.Upsq) (hN : 0 < o₀.As.N) (x : Fin n → ℝ) {t : ℝ}
    {o : Lowpass n} (ho : LpInv o₀ o t) :
    ∃ o' c t1, lowpassOmega x t o = .ok (o', c, t1) ∧ LpInv o₀ o' (t1.getD t) ∧ t1.getD t ≤ t ∧
      (∀ s, t1 = some s → o₀.Meets s x ∧ (∃ k, o₀.As.row k ⬝ᵥ x = s)) ∧ deepBeta c.2 ∧
      ∀ z δ, 0 ≤ δ → MeetsSpecBy o₀.Ap.row o₀.As.row o₀.Anr.row o₀.Lpsq o₀.Upsq (t1.getD t) δ z →
        z ∈ cutSet x c ∧ c.1 ⬝ᵥ (z - x) ≤ -δ := by
  obtain ⟨hI, ⟨e1, e2, e3, e4, e5⟩, ht⟩ := ho
  obtain ⟨o', c, t1, h1, h2, ⟨d1, d2, d3, d4, d5⟩, -, h5, h6, -, -, -, h7, h8⟩ :=
    lowpass_call hI (by rw [e4, e5]; exact hLU) (by rw [e2]; exact hN) x ht
  obtain ⟨mA, i1, i2, i3, Ap, As, Anr, L, U⟩ := o
  obtain rfl := e1; obtain rfl := e2; obtain rfl := e3; obtain rfl := e4; obtain rfl := e5
  have hs : ∀ s, t1 = some s → o₀.Meets s x ∧ (∃ k, o₀.As.row k ⬝ᵥ x = s) ∧ 0 ≤ s ∧ s ≤ t := by
    intro s hs
    obtain ⟨m, hle, k, hk⟩ := (h5 s).1 hs
    refine ⟨⟨m.pass, fun j => ⟨(m.stop j).1, hle j⟩, m.nonneg, m.first⟩, ⟨k, hk⟩, ?_, ?_⟩
    · rw [← hk]; exact (m.stop k).1
    · rw [← hk]; exact (m.stop k).2
  refine ⟨o', c, t1, h1, ⟨h2, ⟨d1, d2, d3, d4, d5⟩, ?_⟩, ?_, fun s h => ⟨(hs s h).1, (hs s h).2.1⟩, h7, fun z δ hδ hz => ⟨h6 z ?_, h8 z δ hz⟩⟩
  · cases t1 with
    | none => exact ht
    | some s => exact (hs s rfl).2.2.1
  · cases t1 with
    | none => exact le_rfl
    | some s => exact (hs s rfl).2.2.2
  · refine ⟨fun k => ?_, fun k => ?_, fun k => hδ.trans (hz.nonneg k), hδ.trans hz.first⟩
    · have := hz.pass k; constructor <;> linarith [this.1, this.2]
    · have := hz.stop k; constructor <;> linarith [this.1, this.2]

/-- **C89** (verdict).  `cutting_plane_dc(lowpass_oracle(...), ell, t0)` with `t0 ≥ 0`, from any state of the round-robin
counters: the returned level is the initial one, or the returned point meets the whole specification at that level
and attains it on some stopband row; and if the run stopped by itself (any status but `success`, notably
`smallenough`), then no design in the initial ellipsoid meets the specification at the returned level with room
`δ` where `tol ≤ δ²`. -/
theorem C89_lowpass_verdict {o₀ : Lowpass n} (hI : o₀.Inv) (hLU : o₀.Lpsq ≤ o₀.Upsq) (hN : 0 < o₀.As.N) {E₀ E : Ell n}
    (hE : E₀.WF) {opt : Options ℝ} {t0 t : ℝ} (ht0 : 0 ≤ t0) {xb : Option (Fin n → ℝ)} {info : CInfo} {o : Lowpass n}
    (h : cuttingPlaneDc (fun x t => liftOracle (lowpassOmega x t)) (Ell.space (Lowpass n) n) t0 opt (o₀, E₀) =
      .ok ((o, E), xb, t, info)) :
    ((xb = none ∧ t = t0) ∨ ∃ x, xb = some x ∧ o₀.Meets t x ∧ (∃ k, o₀.As.row k ⬝ᵥ x = t) ∧ t ≤ t0) ∧
    (info.status ≠ .success → ∀ z ∈ E₀.pts, ∀ δ, 0 ≤ δ → opt.tol ≤ δ ^ 2 →
      ¬ MeetsSpecBy o₀.Ap.row o₀.As.row o₀.Anr.row o₀.Lpsq o₀.Upsq t δ z) := by
  have mono : ∀ {s t δ z}, s ≤ t → MeetsSpecBy o₀.Ap.row o₀.As.row o₀.Anr.row o₀.Lpsq o₀.Upsq s δ z →
      MeetsSpecBy o₀.Ap.row o₀.As.row o₀.Anr.row o₀.Lpsq o₀.Upsq t δ z := fun hst hz =>
    ⟨hz.pass, fun k => ⟨(hz.stop k).1, (hz.stop k).2.trans (by linarith)⟩, hz.nonneg, hz.first⟩
  -- the level never rises: carried by the invariant
  have key := C71_dc_ell_verdict (Ω := lowpassOmega (n := n)) (fun o t => LpInv o₀ o t ∧ t ≤ t0)
    (fun t => {z | ∃ δ, 0 ≤ δ ∧ opt.tol ≤ δ ^ 2 ∧
      MeetsSpecBy o₀.Ap.row o₀.As.row o₀.Anr.row o₀.Lpsq o₀.Upsq t δ z}) hE (o := opt) ?_
    (w₀ := o₀) ⟨⟨hI, .refl o₀, ht0⟩, le_rfl⟩ h
  · obtain ⟨h1, -, -, h4⟩ := key
    refine ⟨?_, fun hs z hz δ h0 hd hm => h1 hs z ⟨δ, h0, hd, hm⟩ hz⟩
    rcases h4 with h4 | ⟨x, s, u, u', c, hx, ⟨hs, hs0⟩, hq⟩
    · exact .inl h4
    · obtain ⟨o', c', t1, e1, -, e3, e4, -⟩ := lowpassOmega_answer hLU hN x hs
      rw [hq] at e1
      simp only [Except.ok.injEq, Prod.mk.injEq] at e1
      obtain ⟨-, -, rfl⟩ := e1
      obtain ⟨m1, m2⟩ := e4 t rfl
      exact .inr ⟨x, hx, m1, m2, le_trans e3 hs0⟩
  · rintro x t w w' c t1 ⟨hi, hs0⟩ hq
    obtain ⟨o', c', t1', e1, e2, e3, -, e5, e6⟩ := lowpassOmega_answer hLU hN x hi
    rw [hq] at e1
    simp only [Except.ok.injEq, Prod.mk.injEq] at e1
    obtain ⟨rfl, rfl, rfl⟩ := e1
    refine ⟨⟨e2, e3.trans hs0⟩, ?_, e5, ?_⟩
    · rintro z ⟨δ, h0, hd, hm⟩
      exact ⟨δ, h0, hd, mono e3 hm⟩
    · rintro z ⟨δ, h0, hd, hm⟩
      obtain ⟨h3, h4⟩ := e6 z δ h0 hm
      exact ⟨h3, by nlinarith⟩

/-- **C89** (convergence).  If all designs in a ball of radius `r` inside the initial ball of radius `R` meet the
specification at level `τ` with room `δ > 0`, `tol ≤ δ²`, and `max_it > 2n(n+1)·ln(R/r)`, then every run that returns
has a level below `τ`; and such a level is reported within the first `2n(n+1)·ln(R/r) + 1` oracle calls. -/
theorem C89_lowpass_converges {o₀ : Lowpass n} (hI : o₀.Inv) (hLU : o₀.Lpsq ≤ o₀.Upsq) (hN : 0 < o₀.As.N) {E₀ : Ell n}
    {x₀ a : Fin n → ℝ} {R r δ τ : ℝ} (hr : 0 < r) (hn : 2 ≤ n) (hinit : Ell.init (.scalar (R ^ 2)) x₀ = .ok E₀)
    (hball : euclBall a r ⊆ euclBall x₀ R) (hδ : 0 < δ)
    (hm : ∀ z ∈ euclBall a r, MeetsSpecBy o₀.Ap.row o₀.As.row o₀.Anr.row o₀.Lpsq o₀.Upsq τ δ z)
    {opt : Options ℝ} (htol : opt.tol ≤ δ ^ 2) (hmax : 2 * (n : ℝ) * ((n : ℝ) + 1) * Real.log (R / r) < opt.maxIt)
    {t0 : ℝ} (ht0 : 0 ≤ t0) :
    (∀ o E xb t info, cuttingPlaneDc (fun x t => liftOracle (lowpassOmega x t)) (Ell.space (Lowpass n) n) t0 opt (o₀, E₀) =
      .ok ((o, E), xb, t, info) → t < τ) ∧
    ∃ (j : ℕ) (l : _) (u : _) (u' : _) (cut : _) (t1 : _), (j : ℝ) ≤ 2 * (n : ℝ) * ((n : ℝ) + 1) * Real.log (R / r) ∧
      DcRounds (fun x t => liftOracle (lowpassOmega x t)) (Ell.space (Lowpass n) n) opt.tol t0 (o₀, E₀) j l u ∧
      lowpassOmega u.2.xc (bestT t0 l) u.1 = .ok (u', cut, t1) ∧ t1.getD (bestT t0 l) < τ := by
  obtain ⟨hwf, hpts, hB⟩ := init_bound (r := r) hn hinit
  have hc : a ∈ euclBall a r := by
    change ∑ i, (a i - a i) ^ 2 ≤ r ^ 2; simp; positivity
  have key := C72_dc_ell_converges (Ω := lowpassOmega (n := n)) (LpInv o₀) (fun t => τ ≤ t) hwf hr
    (by rw [hpts]; exact hball) (o := opt) (fun x t w hi => by
      obtain ⟨o', c', t1, e1, e2, e3, -, e5, e6⟩ := lowpassOmega_answer hLU hN x hi
      refine ⟨o', c', t1, e1, e2, fun h => le_trans h e3, fun h => ?_⟩
      have hz : ∀ z ∈ euclBall a r, z ∈ cutSet x c' ∧ c'.1 ⬝ᵥ (z - x) ≤ -δ := by
        intro z hz
        have hm := hm z hz
        exact e6 z δ hδ.le ⟨hm.pass, fun k => ⟨(hm.stop k).1, (hm.stop k).2.trans (by linarith)⟩, hm.nonneg, hm.first⟩
      refine ⟨fun z h => (hz z h).1, e5, ?_, a, hc, ?_⟩
      · intro h0
        have := (hz a hc).2
        rw [h0, zero_dotProduct] at this
        linarith
      · have := (hz a hc).2
        nlinarith) (by rw [hB]; exact hmax) (w₀ := o₀) (t0 := t0) ⟨hI, .refl o₀, ht0⟩
  obtain ⟨h1, j, l, u, u', cut, t1, h2, h3, h4, h5⟩ := key
  rw [hB] at h2
  exact ⟨fun o E xb t info h => not_le.1 (h1 o E xb t info h), j, l, u, u', cut, t1, h2, h3, h4, not_le.1 h5⟩

/-- C89 applies to `exLp` (C48) with `ell(100, 0)` and default options: every run that returns has level below `7/4`. -/
example (o : Lowpass 2) (E : Ell 2) (xb : Option (Fin 2 → ℝ)) (t : ℝ) (info : CInfo)
    (h : cuttingPlaneDc (fun x t => liftOracle (lowpassOmega x t)) (Ell.space (Lowpass 2) 2) 10 ⟨2000, 1 / 10 ^ 8⟩
      (exLp, ⟨true, false, 0, 1, 10 ^ 2⟩) = .ok ((o, E), xb, t, info)) : t < 7 / 4 := by
  have hbd : ∀ z ∈ euclBall (n := 2) ![3 / 2, 1 / 2] (1 / 10), |z 0 - 3 / 2| ≤ 1 / 10 ∧ |z 1 - 1 / 2| ≤ 1 / 10 := by
    intro z hz
    simp only [euclBall, Set.mem_ofPred_eq, Fin.sum_univ_two, cons_val_zero, cons_val_one] at hz
    constructor <;> refine abs_le_of_sq_le_sq ?_ (by norm_num) <;>
      nlinarith [sq_nonneg (z 0 - 3 / 2), sq_nonneg (z 1 - 1 / 2)]
  refine (C89_lowpass_converges (a := ![3 / 2, 1 / 2]) (x₀ := 0) (R := 10) (r := 1 / 10) (δ := 1 / 10) (τ := 7 / 4) exLp_inv
    (by norm_num [exLp]) (by simp [exLp]) (by norm_num) le_rfl ?_ ?_ (by norm_num) ?_ (by norm_num) ?_ (by norm_num)).1 o E xb t info h
  · unfold Ell.init c1? pyDiv; norm_num
  · intro z hz
    obtain ⟨h1, h2⟩ := hbd z hz
    rw [abs_le] at h1 h2
    simp only [euclBall, Set.mem_ofPred_eq, Fin.sum_univ_two, Pi.zero_apply]
    nlinarith
  · intro z hz
    obtain ⟨h1, h2⟩ := hbd z hz
    rw [abs_le] at h1 h2
    refine ⟨fun k => ?_, fun k => ?_, fun k => ?_, by linarith⟩
    · revert k; simp only [exLp]; intro k; fin_cases k; simp [vecHead, vecTail]; constructor <;> linarith
    · revert k; simp only [exLp]; intro k; fin_cases k <;> simp [vecHead, vecTail] <;> constructor <;> linarith
    · revert k; simp only [exLp]; intro k; fin_cases k; simp [vecHead, vecTail]; linarith
  · have : Real.log (10 / (1 / 10)) ≤ 10 / (1 / 10) - 1 := Real.log_le_sub_one_of_pos (by norm_num)
    norm_num at this ⊢
    linarith
end Verif
