import Mathlib.Analysis.Convex.Jensen
import Verif.Spec.ConvexSpec
import Verif.Props.EllSolve

/-!
# C92: convex programs

`cutting_plane_dc` with `ell` on any convex program given by a subgradient oracle: accuracy of the returned value and the
number of oracle calls.  The hypotheses are met by the Chebyshev FIR design of `tests/test_firfilter.py`: `fir_convexOracle` and the
concrete case at the end of `Verif/Props/Fir.lean`.
-/
namespace Verif
open Matrix Ell
variable {n : ℕ} {W T : Type _} [DecidableEq T] {h f : (Fin n → ℝ) → ℝ} {Inv : W → Prop}
  {Ω : (Fin n → ℝ) → ℝ → W → Except PyErr (W × ((Fin n → ℝ) × Beta) × Option ℝ)}

/-- **C92** (verdict, constraints with room).  However many rounds were made: the returned level is the initial one or the
objective at the returned point, which is feasible; and if the run stopped by itself, every point `z` of the
initial ellipsoid that is feasible with room `δ`, `tol ≤ δ²`, has `f(z) > t - δ`. -/
theorem C92_room_verdict {ι : T → WithTop ℝ} {Room : (Fin n → ℝ) → ℝ → Prop}
    {Ω : (Fin n → ℝ) → T → W → Except PyErr (W × ((Fin n → ℝ) × Beta) × Option T)} (hΩ : RoomOracle ι Room f Inv Ω)
    {E₀ E : Ell n} (hE : E₀.WF) {o : Options ℝ} {t0 t : T} {xb : Option (Fin n → ℝ)} {info : CInfo} {w₀ w : W} (hw₀ : Inv w₀)
    (hr : cuttingPlaneDc (fun x t => liftOracle (Ω x t)) (Ell.space W n) t0 o (w₀, E₀) = .ok ((w, E), xb, t, info)) :
    ((xb = none ∧ t = t0) ∨ ∃ x, xb = some x ∧ Room x 0 ∧ ι t = f x ∧ ι t ≤ ι t0) ∧
    (info.status ≠ .success → ∀ z ∈ E₀.pts, ∀ δ, 0 ≤ δ → o.tol ≤ δ ^ 2 → Room z δ → ι t < ((f z + δ : ℝ) : WithTop ℝ)) := by
  have key := C71_dc_ell_verdict (Ω := Ω) (fun w t => Inv w ∧ ι t ≤ ι t0)
    (fun t => {z | ∃ δ, 0 ≤ δ ∧ o.tol ≤ δ ^ 2 ∧ Room z δ ∧ ((f z + δ : ℝ) : WithTop ℝ) ≤ ι t}) hE (o := o) ?_ (w₀ := w₀)
    ⟨hw₀, le_rfl⟩ hr
  · obtain ⟨h1, -, -, h4⟩ := key
    refine ⟨?_, fun hs z hz δ h0 hd hh => ?_⟩
    · rcases h4 with h4 | ⟨x, s, u, u', c, hx, ⟨hs, hs0⟩, hq⟩
      · exact .inl h4
      · obtain ⟨w', g, β, t1, e1, -, -, e4, -⟩ := hΩ x s u hs
        rw [hq] at e1
        simp only [Except.ok.injEq, Prod.mk.injEq] at e1
        obtain ⟨a1, a2, a3⟩ := e4 t e1.2.2.symm
        exact .inr ⟨x, hx, a1, a2, a3.trans hs0⟩
    · by_contra hcon
      exact h1 hs z ⟨δ, h0, hd, hh, not_lt.1 hcon⟩ hz
  · rintro x t w w' c t1 ⟨hi, hs0⟩ hq
    obtain ⟨w'', g, β, t1', e1, e2, e3, e4, e5⟩ := hΩ x t w hi
    rw [hq] at e1
    simp only [Except.ok.injEq, Prod.mk.injEq] at e1
    obtain ⟨rfl, rfl, rfl⟩ := e1
    have hle : ι (t1.getD t) ≤ ι t := by
      cases t1 with
      | none => exact le_rfl
      | some s => exact (e4 s rfl).2.2
    refine ⟨⟨e2, hle.trans hs0⟩, ?_, e3, ?_⟩
    · rintro z ⟨δ, h0, hd, h1, h2⟩
      exact ⟨δ, h0, hd, h1, h2.trans hle⟩
    · rintro z ⟨δ, h0, hd, h1, h2⟩
      have h3 := e5 z δ h0 h1 h2
      have h5 : g ⬝ᵥ (z - x) ≤ -δ := by linarith
      refine ⟨?_, by nlinarith⟩
      change g ⬝ᵥ (z - x) + β ≤ 0
      linarith

theorem ConvexOracle.room (hΩ : ConvexOracle h f Inv Ω) :
    RoomOracle (fun t : ℝ => (t : WithTop ℝ)) (fun z δ => h z ≤ -δ) f Inv Ω := by
  intro x t w hw
  obtain ⟨w', g, β, t1, e1, e2, e3, e4, e5⟩ := hΩ x t w hw
  refine ⟨w', g, β, t1, e1, e2, e3, fun s hs => ?_, fun z δ _ h1 h2 => (e5 z).trans (max_le h1 ?_)⟩
  · obtain ⟨a1, a2, a3⟩ := e4 s hs
    exact ⟨by simpa using a1, by rw [a2], WithTop.coe_le_coe.2 a3⟩
  · have := WithTop.coe_le_coe.1 h2
    linarith

theorem roomConvex_of (hf : ConvexOn ℝ Set.univ f) (hh : ConvexOn ℝ Set.univ h) : RoomConvex (fun z δ => h z ≤ -δ) f := by
  intro u v δ θ _ h0 h1 hu hv
  have c1 := hh.2 (Set.mem_univ u) (Set.mem_univ v) (sub_nonneg.2 h1) h0 (by ring)
  have c2 := hf.2 (Set.mem_univ u) (Set.mem_univ v) (sub_nonneg.2 h1) h0 (by ring)
  simp only [smul_eq_mul] at c1 c2
  have k1 := mul_le_mul_of_nonneg_left hv h0
  have k2 := mul_nonpos_of_nonneg_of_nonpos (sub_nonneg.2 h1) (by simpa using hu : h u ≤ 0)
  exact ⟨by linarith, c2⟩

/-- **C92** (verdict).  For an oracle of the program `min f s.t. h ≤ 0`, however many rounds were made: the returned level is
the initial one or the objective at the returned point, which is feasible; and if the run stopped by itself, every
point `z` of the initial ellipsoid with `h(z) ≤ -δ`, `tol ≤ δ²`, has `f(z) > t - δ`. -/
theorem C92_convex_verdict (hΩ : ConvexOracle h f Inv Ω) {E₀ E : Ell n} (hE : E₀.WF) {o : Options ℝ} {t0 t : ℝ}
    {xb : Option (Fin n → ℝ)} {info : CInfo} {w₀ w : W} (hw₀ : Inv w₀)
    (hr : cuttingPlaneDc (fun x t => liftOracle (Ω x t)) (Ell.space W n) t0 o (w₀, E₀) = .ok ((w, E), xb, t, info)) :
    ((xb = none ∧ t = t0) ∨ ∃ x, xb = some x ∧ h x ≤ 0 ∧ f x = t ∧ t ≤ t0) ∧
    (info.status ≠ .success → ∀ z ∈ E₀.pts, ∀ δ, 0 ≤ δ → o.tol ≤ δ ^ 2 → h z ≤ -δ → t - δ < f z) := by
  obtain ⟨k1, k2⟩ := C92_room_verdict hΩ.room hE hw₀ hr
  refine ⟨k1.imp_right ?_, fun hs z hz δ h0 hd hh => ?_⟩
  · rintro ⟨x, a1, a2, a3, a4⟩
    exact ⟨x, a1, by simpa using a2, (WithTop.coe_inj.1 a3).symm, WithTop.coe_le_coe.1 a4⟩
  · have := WithTop.coe_lt_coe.1 (k2 hs z hz δ h0 hd hh)
    linarith

theorem euclBall_convex {c : Fin n → ℝ} {R θ : ℝ} {u v : Fin n → ℝ} (hu : u ∈ euclBall c R) (hv : v ∈ euclBall c R)
    (h0 : 0 ≤ θ) (h1 : θ ≤ 1) : (1 - θ) • u + θ • v ∈ euclBall c R := by
  change ∑ i, ((1 - θ) * u i + θ * v i - c i) ^ 2 ≤ R ^ 2
  change ∑ i, (u i - c i) ^ 2 ≤ R ^ 2 at hu
  change ∑ i, (v i - c i) ^ 2 ≤ R ^ 2 at hv
  have : ∀ i, ((1 - θ) * u i + θ * v i - c i) ^ 2 ≤ (1 - θ) * (u i - c i) ^ 2 + θ * (v i - c i) ^ 2 := fun i => by
    nlinarith [mul_nonneg (mul_nonneg h0 (sub_nonneg.2 h1)) (sq_nonneg (u i - v i))]
  refine (Finset.sum_le_sum fun i _ => this i).trans ?_
  rw [Finset.sum_add_distrib, ← Finset.mul_sum, ← Finset.mul_sum]
  nlinarith [mul_le_mul_of_nonneg_left hu (sub_nonneg.2 h1), mul_le_mul_of_nonneg_left hv h0]

/-- The ball around `a` shrunk by `θ` towards `p`. -/
theorem shrink_ball {a p z : Fin n → ℝ} {ρ θ : ℝ} (hθ : 0 < θ) (hz : z ∈ euclBall ((1 - θ) • p + θ • a) (θ * ρ)) :
    ∃ v ∈ euclBall a ρ, z = (1 - θ) • p + θ • v := by
  refine ⟨fun i => a i + (z i - ((1 - θ) * p i + θ * a i)) / θ, ?_, ?_⟩
  · change ∑ i, (a i + (z i - ((1 - θ) * p i + θ * a i)) / θ - a i) ^ 2 ≤ ρ ^ 2
    change ∑ i, (z i - ((1 - θ) * p i + θ * a i)) ^ 2 ≤ (θ * ρ) ^ 2 at hz
    simp only [add_sub_cancel_left, div_pow]
    rw [← Finset.sum_div, div_le_iff₀ (by positivity)]
    linarith [mul_pow θ ρ 2]
  · funext i
    simp only [Pi.add_apply, Pi.smul_apply, smul_eq_mul]
    field_simp
    ring

/-- **C92** (complexity, constraints with room).  As `C92_convex_complexity`, for programs whose constraints and objective
are convex in the sense of `RoomConvex`. -/
theorem C92_room_complexity (hn : 2 ≤ n) {ι : T → WithTop ℝ} {Room : (Fin n → ℝ) → ℝ → Prop}
    {Ω : (Fin n → ℝ) → T → W → Except PyErr (W × ((Fin n → ℝ) × Beta) × Option T)} (hconv : RoomConvex Room f)
    (hΩ : RoomOracle ι Room f Inv Ω) (hmono : ∀ z δ δ', δ ≤ δ' → Room z δ' → Room z δ) {E₀ : Ell n} {x₀ a p : Fin n → ℝ}
    {R ρ η M ε θ : ℝ} (hρ : 0 < ρ) (hη : 0 < η)
    (hinit : Ell.init (.scalar (R ^ 2)) x₀ = .ok E₀) (hball : euclBall a ρ ⊆ euclBall x₀ R)
    (hslater : ∀ z ∈ euclBall a ρ, Room z η ∧ f z ≤ M) (hpR : p ∈ euclBall x₀ R) (hp : Room p 0) (hε : 0 < ε) (hθ : 0 < θ)
    (hθ1 : θ ≤ 1) (hθM : θ * (M - f p) ≤ ε / 2) {o : Options ℝ} (htol : o.tol ≤ (ε / 2) ^ 2) (htol' : o.tol ≤ (θ * η) ^ 2)
    (hmax : 2 * (n : ℝ) * ((n : ℝ) + 1) * Real.log (R / (θ * ρ)) < o.maxIt) {w₀ : W} (hw₀ : Inv w₀) (t0 : T) :
    (∀ w E xb t info, cuttingPlaneDc (fun x t => liftOracle (Ω x t)) (Ell.space W n) t0 o (w₀, E₀) =
      .ok ((w, E), xb, t, info) → ι t < ((f p + ε : ℝ) : WithTop ℝ)) ∧
    ∃ (j : ℕ) (l : _) (u : _) (u' : _) (cut : _) (t1 : _), (j : ℝ) ≤ 2 * (n : ℝ) * ((n : ℝ) + 1) * Real.log (R / (θ * ρ)) ∧
      DcRounds (fun x t => liftOracle (Ω x t)) (Ell.space W n) o.tol t0 (w₀, E₀) j l u ∧
      Ω u.2.xc (bestT t0 l) u.1 = .ok (u', cut, t1) ∧
      ι (t1.getD (bestT t0 l)) < ((f p + ε : ℝ) : WithTop ℝ) := by
  obtain ⟨hwf, hpts, hB⟩ := init_bound (r := θ * ρ) hn hinit
  have hr : 0 < θ * ρ := by positivity
  set c := (1 - θ) • p + θ • a with hcdef
  have hc : c ∈ euclBall c (θ * ρ) := by
    change ∑ i, (c i - c i) ^ 2 ≤ (θ * ρ) ^ 2; simp; positivity
  set δ := min (ε / 2) (θ * η) with hδ
  have hδ0 : 0 < δ := lt_min (by positivity) (by positivity)
  have hδt : o.tol ≤ δ ^ 2 := by
    rcases min_choice (ε / 2) (θ * η) with h | h <;> rw [hδ, h]
    · exact htol
    · exact htol'
  have hin : euclBall c (θ * ρ) ⊆ euclBall x₀ R := by
    intro z hz
    obtain ⟨v, hv, rfl⟩ := shrink_ball hθ hz
    exact euclBall_convex hpR (hball hv) hθ.le hθ1
  have hgood : ∀ z ∈ euclBall c (θ * ρ), Room z δ ∧ f z ≤ f p + ε - δ := by
    intro z hz
    obtain ⟨v, hv, rfl⟩ := shrink_ball hθ hz
    obtain ⟨hv1, hv2⟩ := hslater v hv
    obtain ⟨c1, c2⟩ := hconv p v η θ hη.le hθ.le hθ1 hp hv1
    have d1 : δ ≤ θ * η := min_le_right _ _
    have d2 : δ ≤ ε / 2 := min_le_left _ _
    refine ⟨hmono _ _ _ d1 c1, ?_⟩
    have k1 := mul_le_mul_of_nonneg_left hv2 hθ.le
    nlinarith
  have key := C72_dc_ell_converges (Ω := Ω) (fun w _ => Inv w) (fun t => ((f p + ε : ℝ) : WithTop ℝ) ≤ ι t) hwf hr
    (by rw [hpts]; exact hin) (o := o) (fun x t w hi => by
      obtain ⟨w', g, β, t1, e1, e2, e3, e4, e5⟩ := hΩ x t w hi
      have hle : ι (t1.getD t) ≤ ι t := by
        cases t1 with
        | none => exact le_rfl
        | some s => exact (e4 s rfl).2.2
      refine ⟨w', _, t1, e1, e2, fun hg => le_trans hg hle, fun hg => ?_⟩
      have hz : ∀ z ∈ euclBall c (θ * ρ), g ⬝ᵥ (z - x) + β ≤ -δ := by
        intro z hz
        obtain ⟨q1, q2⟩ := hgood z hz
        exact e5 z δ hδ0.le q1 ((WithTop.coe_le_coe.2 (by linarith)).trans hg)
      refine ⟨fun z hz' => ?_, e3, ?_, c, hc, ?_⟩
      · change g ⬝ᵥ (z - x) + β ≤ 0
        linarith [hz z hz']
      · intro h0
        have h0' : g = 0 := h0
        have := hz c hc
        rw [h0', zero_dotProduct] at this
        linarith
      · have := hz c hc
        change o.tol ≤ (g ⬝ᵥ (c - x)) ^ 2
        nlinarith) (by rw [hB]; exact hmax) (w₀ := w₀) (t0 := t0) hw₀
  obtain ⟨h1, j, l, u, u', cut, t1, h2, h3, h4, h5⟩ := key
  rw [hB] at h2
  exact ⟨fun w E xb t info hr => not_le.1 (h1 w E xb t info hr), j, l, u, u', cut, t1, h2, h3, h4, not_le.1 h5⟩

/-- **C92** (complexity).  Convex `f`, `h`; a ball of radius `ρ` around `a` inside the initial ball `B(x₀, R)` on which
`h ≤ -η` and `f ≤ M` (Slater); `p` any feasible point of the initial ball.  For accuracy `ε > 0` and `θ ∈ (0,1]` with
`θ·(M - f(p)) ≤ ε/2`, if `tol ≤ (ε/2)²`, `tol ≤ (θη)²` and `max_it > 2n(n+1)·ln(R/(θρ))`, then every run that
returns has a level below `f(p) + ε`, and such a level is reported within `2n(n+1)·ln(R/(θρ)) + 1` oracle calls. -/
theorem C92_convex_complexity (hn : 2 ≤ n) (hf : ConvexOn ℝ Set.univ f) (hh : ConvexOn ℝ Set.univ h)
    (hΩ : ConvexOracle h f Inv Ω) {E₀ : Ell n} {x₀ a p : Fin n → ℝ} {R ρ η M ε θ : ℝ} (hρ : 0 < ρ) (hη : 0 < η)
    (hinit : Ell.init (.scalar (R ^ 2)) x₀ = .ok E₀) (hball : euclBall a ρ ⊆ euclBall x₀ R)
    (hslater : ∀ z ∈ euclBall a ρ, h z ≤ -η ∧ f z ≤ M) (hpR : p ∈ euclBall x₀ R) (hp : h p ≤ 0) (hε : 0 < ε) (hθ : 0 < θ)
    (hθ1 : θ ≤ 1) (hθM : θ * (M - f p) ≤ ε / 2) {o : Options ℝ} (htol : o.tol ≤ (ε / 2) ^ 2) (htol' : o.tol ≤ (θ * η) ^ 2)
    (hmax : 2 * (n : ℝ) * ((n : ℝ) + 1) * Real.log (R / (θ * ρ)) < o.maxIt) {w₀ : W} (hw₀ : Inv w₀) (t0 : ℝ) :
    (∀ w E xb t info, cuttingPlaneDc (fun x t => liftOracle (Ω x t)) (Ell.space W n) t0 o (w₀, E₀) =
      .ok ((w, E), xb, t, info) → t < f p + ε) ∧
    ∃ (j : ℕ) (l : _) (u : _) (u' : _) (cut : _) (t1 : _), (j : ℝ) ≤ 2 * (n : ℝ) * ((n : ℝ) + 1) * Real.log (R / (θ * ρ)) ∧
      DcRounds (fun x t => liftOracle (Ω x t)) (Ell.space W n) o.tol t0 (w₀, E₀) j l u ∧
      Ω u.2.xc (bestT t0 l) u.1 = .ok (u', cut, t1) ∧ t1.getD (bestT t0 l) < f p + ε := by
  simpa only [WithTop.coe_lt_coe] using C92_room_complexity hn (roomConvex_of hf hh) hΩ.room (fun _ _ _ h1 h2 => h2.trans (neg_le_neg h1)) hρ hη hinit hball hslater hpR
    (by simpa using hp) hε hθ hθ1 hθM htol htol' hmax hw₀ t0

end Verif
