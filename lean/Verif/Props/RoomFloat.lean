import Verif.Props.EllFloatNear
import Verif.Props.EllFloatSure

/-!
# C141: convex programs with rounded oracles, where the level is found

As `C133_room`, and the point at which the level is found is in the box.
-/
namespace Verif
open Matrix MeasureTheory Ell FloatSpec
variable {n : ℕ} {W T : Type _} [DecidableEq T] {E₀ : Ell n}

/-- What a rounded oracle of a convex program does at the points of a box: it raises nothing, levels never rise, and a cut keeps every point of the box with room `δ ≥ ν` whose objective
is `δ` below the level, up to `ν`. -/
structure BoxRoomOracle (ι : T → WithTop ℝ) (Room : (Fin n → ℝ) → ℝ → Prop) (f : (Fin n → ℝ) → ℝ) (R ν : ℝ) (Inv : W → Prop)
    (Ω : (Fin n → ℝ) → T → W → Except PyErr (W × ((Fin n → ℝ) × Beta) × Option T)) : Prop where
  back : ∀ x t w w' c t1, Ω x t w = .ok (w', c, t1) → ι (t1.getD t) ≤ ι t
  cuts : ∀ x, (∀ i, |x i| ≤ R) → ∀ t w, Inv w → ∃ w' g β t1, Ω x t w = .ok (w', (g, .scalar β), t1) ∧ Inv w' ∧ 0 ≤ β ∧
    ∀ z, (∀ i, |z i| ≤ R) → ∀ δ, ν ≤ δ → Room z δ → ((f z + δ : ℝ) : WithTop ℝ) ≤ ι (t1.getD t) → g ⬝ᵥ (z - x) + β ≤ ν - δ

omit [DecidableEq T] in
theorem BoxRoomOracle.mono {ι : T → WithTop ℝ} {Room : (Fin n → ℝ) → ℝ → Prop} {f : (Fin n → ℝ) → ℝ} {R ν ν' : ℝ} {Inv : W → Prop}
    {Ω : (Fin n → ℝ) → T → W → Except PyErr (W × ((Fin n → ℝ) × Beta) × Option T)} (h : BoxRoomOracle ι Room f R ν Inv Ω) (hν : ν ≤ ν') :
    BoxRoomOracle ι Room f R ν' Inv Ω := by
  refine ⟨h.back, fun x hx t w hw => ?_⟩
  obtain ⟨w', g, β, t1, e1, e2, e3, e4⟩ := h.cuts x hx t w hw
  exact ⟨w', g, β, t1, e1, e2, e3, fun z hz δ hδ h1 h2 => (e4 z hz δ (hν.trans hδ) h1 h2).trans (by linarith)⟩

/-- **C141** (convex programs).  A ball inside the first ellipsoid where there is room `η₀ > 0` and `f ≤ M`, a feasible point `p` of the first ellipsoid, which may be optimal, and
`acc > 0`.  There are an `N`, a box of size `R`, a precision, a tolerance and an admissible error of the oracle, none of them zero, such that: a run with `max_it ≥ N` that returns has a
level below `f(p) + acc`; and if the start level is not, such a level is reported within `N` oracle calls, before which nothing is raised, at a point of the box. -/
theorem C141_room (hE : E₀.Proper) {ι : T → WithTop ℝ} {Room : (Fin n → ℝ) → ℝ → Prop} {f : (Fin n → ℝ) → ℝ} (hconv : RoomConvex Room f)
    (hmono : ∀ z δ δ', δ ≤ δ' → Room z δ' → Room z δ) {a p : Fin n → ℝ} {ρ η₀ M acc : ℝ}
    (hρ : 0 < ρ) (hη₀ : 0 < η₀) (hball : euclBall a ρ ⊆ E₀.pts) (hslater : ∀ z ∈ euclBall a ρ, Room z η₀ ∧ f z ≤ M) (hpE : p ∈ E₀.pts) (hp : Room p 0)
    (hacc : 0 < acc) :
    ∃ (N : ℕ) (R ε₀ tol₀ ν₀ : ℝ), 0 ≤ R ∧ 0 < ε₀ ∧ 0 < tol₀ ∧ 0 < ν₀ ∧ ∀ u, 0 ≤ u → u ≤ ε₀ → ∀ fl dot, RelErr u fl → VecDotErr u dot →
      ∀ tol, tol ≤ tol₀ → ∀ ν, 0 ≤ ν → ν ≤ ν₀ → ∀ Inv (Ω : (Fin n → ℝ) → T → W → Except PyErr (W × ((Fin n → ℝ) × Beta) × Option T)),
      BoxRoomOracle ι Room f R ν Inv Ω → ∀ w₀, Inv w₀ → ∀ t0,
    (∀ m : Int, (N : Int) ≤ m → ∀ w' xb t info, cuttingPlaneDc (fun x t => liftOracle (Ω x t)) ((Ell.spaceF fl dot).beside W) t0 ⟨m, tol⟩ (w₀, E₀) =
      .ok (w', xb, t, info) → ι t < ((f p + acc : ℝ) : WithTop ℝ)) ∧
    (((f p + acc : ℝ) : WithTop ℝ) ≤ ι t0 → ∃ (k : ℕ) (log : _) (v : W × Ell n) (w' : W) (c : _) (s : T), k < N ∧
      DcRounds (fun x t => liftOracle (Ω x t)) ((Ell.spaceF fl dot).beside W) tol t0 (w₀, E₀) k log v ∧ Inv v.1 ∧ (∀ i, |v.2.xc i| ≤ R) ∧
      Ω v.2.xc (bestT t0 log) v.1 = .ok (w', c, some s) ∧ ι s < ((f p + acc : ℝ) : WithTop ℝ)) := by
  obtain ⟨θ, hθ, hθ1, hθM⟩ : ∃ θ : ℝ, 0 < θ ∧ θ ≤ 1 ∧ θ * (M - f p) ≤ acc / 2 := by
    refine ⟨min 1 (acc / 2 / max 1 (M - f p)), by positivity, min_le_left _ _, ?_⟩
    have h1 : (0 : ℝ) < max 1 (M - f p) := by positivity
    have h2 : min 1 (acc / 2 / max 1 (M - f p)) * max 1 (M - f p) ≤ acc / 2 := by
      refine (mul_le_mul_of_nonneg_right (min_le_right _ _) h1.le).trans ?_
      rw [div_mul_cancel₀ _ h1.ne']
    exact (mul_le_mul_of_nonneg_left (le_max_right _ _) (by positivity)).trans h2
  set δ := min (acc / 2) (θ * η₀) with hδ
  have hδ0 : 0 < δ := by positivity
  set c := (1 - θ) • p + θ • a with hc
  have hr : 0 < θ * ρ := by positivity
  have hin : euclBall c (θ * ρ) ⊆ E₀.pts := fun z hz => by
    obtain ⟨v, hv, rfl⟩ := shrink_ball hθ hz
    exact pts_segment hpE (hball hv) hθ.le hθ1
  have hKA : ∀ z ∈ euclBall c (θ * ρ), ∀ i, |z i| ≤ ∑ i, |c i| + θ * ρ := fun z hz i => (ball_coord hr.le hz i).trans
    (by have := Finset.single_le_sum (f := fun i => |c i|) (fun i _ => abs_nonneg _) (Finset.mem_univ i); linarith)
  have hpos : 0 < volume.real (euclBall c (θ * ρ) ∩ E₀.pts) := by
    rw [Set.inter_eq_left.2 hin, vol_ball hE.dim hr]
    have := euclBall_real_pos (n := n)
    positivity
  have hgood : ∀ z ∈ euclBall c (θ * ρ), Room z δ ∧ f z ≤ f p + acc - δ := fun z hz => by
    obtain ⟨v, hv, rfl⟩ := shrink_ball hθ hz
    obtain ⟨hv1, hv2⟩ := hslater v hv
    obtain ⟨c1, c2⟩ := hconv p v η₀ θ hη₀.le hθ.le hθ1 hp hv1
    refine ⟨hmono _ _ _ (min_le_right _ _) c1, ?_⟩
    have k1 := mul_le_mul_of_nonneg_left hv2 hθ.le
    have k2 : δ ≤ acc / 2 := min_le_left _ _
    linarith
  have hcm : c ∈ euclBall c (θ * ρ) := by
    change ∑ i, (c i - c i) ^ 2 ≤ (θ * ρ) ^ 2; simp; positivity
  obtain ⟨N, L, ε₀, hε₀, C, η', θ', l, q, L₀, v', hS⟩ := C134_precise hE hKA hpos
  set R := ∑ i, |c i| + θ * ρ + √L with hR
  have hA0 : 0 ≤ ∑ i, |c i| := Finset.sum_nonneg fun i _ => abs_nonneg _
  refine ⟨N, R, ε₀, 199 / 200 * (δ / 2) ^ 2, δ / 2, by positivity, hε₀, by positivity, by positivity, ?_⟩
  intro u hu0 hu fl dot hfl hdot tol htol ν hν0 hν Inv Ω hΩ w₀ hw₀ t0
  have hdot' : VecDotErr ε₀ dot := fun x y => (hdot x y).trans (mul_le_mul_of_nonneg_right hu (Finset.sum_nonneg fun i _ => abs_nonneg _))
  have hkeep : DcKeepsNear N (euclBall c (θ * ρ)) {x | ∀ i, |x i| ≤ R} (fun _ => Inv) (fun t => ((f p + acc : ℝ) : WithTop ℝ) ≤ ι t) (fun _ => False) tol ε₀ Ω := by
    constructor
    · exact fun x t w w' cut t1 hq h => h.trans (hΩ.back x t w w' cut t1 hq)
    · intro k _ x hx t w hw _
      obtain ⟨w', g, β, t1, e1, e0, e2, e3⟩ := hΩ.cuts x hx t w hw
      refine .inr ⟨w', g, β, t1, e1, fun hbad => ⟨e0, ?_⟩⟩
      have key : ∀ z ∈ euclBall c (θ * ρ), g ⬝ᵥ (z - x) + β ≤ -(δ / 2) := fun z hz => by
        obtain ⟨q1, q2⟩ := hgood z hz
        have := e3 z (fun i => (hKA z hz i).trans (by rw [hR]; linarith [Real.sqrt_nonneg L])) δ (by linarith) q1 ((WithTop.coe_le_coe.2 (by linarith)).trans hbad)
        linarith
      refine ⟨fun h0 => ?_, fun z hz => ?_⟩
      · dsimp only at h0
        have := key c hcm
        rw [h0, zero_dotProduct] at this
        linarith
      · dsimp only
        have h5 := key z hz
        rw [max_eq_left e2]
        refine ⟨by linarith, htol.trans ?_, ?_⟩
        · have : (δ / 2) ^ 2 ≤ (g ⬝ᵥ (z - x)) ^ 2 := by
            rw [← neg_sq (g ⬝ᵥ (z - x))]
            exact pow_le_pow_left₀ (by linarith) (by linarith) 2
          linarith
        · have h8 := mul_nonneg hε₀.le (abs_nonneg (g ⬝ᵥ (z - x)))
          have h9 := mul_nonneg (Nat.cast_nonneg (α := ℝ) n) e2
          linarith
  obtain ⟨r1, r2⟩ := C138_dc (t0 := t0) (w₀ := w₀) (hS ε₀ u hu0 hu le_rfl {x | ∀ i, |x i| ≤ R} fun x hx i => hx i) hE hfl hu0 hu hdot' hkeep hw₀
  refine ⟨fun m hm w' xb t info h => not_le.1 (r1 m hm w' xb t info h), fun hbad => ?_⟩
  obtain ⟨k, log, v, q1, q2, q3, q4, q5, q6⟩ := r2 hbad
  rcases q6 with ⟨w', cut, t1, q6, q7⟩ | ⟨e, q6, -⟩
  · cases t1 with
    | none => exact absurd q4 q7
    | some s => exact ⟨k, log, v, w', cut, s, q1, q5, q3, q2, q6, not_le.1 q7⟩
  · exact q6.elim

end Verif
