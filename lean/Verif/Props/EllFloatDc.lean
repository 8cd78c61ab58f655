import Verif.Props.EllFloatRun
import Verif.Props.Convex

/-!
# C131: whole runs of `cutting_plane_dc` with rounded ellipsoids

As for C130: as long as the level is not good enough, the cuts keep the set of all points that are clearly better, so this set cannot have more volume
than a run loses.
-/
namespace Verif
open Matrix MeasureTheory Ell FloatSpec
variable {n : ℕ} {b C ε u η l q tol V : ℝ} {fl : ℝ → ℝ} {dot : (Fin n → ℝ) → (Fin n → ℝ) → ℝ} {W T : Type _}
  {Ω : (Fin n → ℝ) → T → W → Except PyErr (W × ((Fin n → ℝ) × Beta) × Option T)} {K X : Set (Fin n → ℝ)} {Inv : W → Prop} {Bad : T → Prop} {N : ℕ}
  {E₀ : Ell n} {w₀ : W} {t0 : T}

/-- What the oracle has to deliver.  Levels do not get bad again.  At the points of `X` it answers, and while the level is bad, the cut is
central or deep, keeps `K`, and no point of `K` is within the tolerance of the cutting plane. -/
structure DcKeeps (K X : Set (Fin n → ℝ)) (Inv : W → Prop) (Bad : T → Prop) (tol : ℝ)
    (Ω : (Fin n → ℝ) → T → W → Except PyErr (W × ((Fin n → ℝ) × Beta) × Option T)) : Prop where
  mono : ∀ x t w w' c t1, Inv w → Ω x t w = .ok (w', c, t1) → Inv w' ∧ (Bad (t1.getD t) → Bad t)
  cuts : ∀ x ∈ X, ∀ t w, Inv w → Bad t → ∃ w' g β t1, Ω x t w = .ok (w', (g, .scalar β), t1) ∧ (Bad (t1.getD t) → 0 ≤ β ∧ g ≠ 0 ∧
    ∀ z ∈ K, g ⬝ᵥ (z - x) + β ≤ 0 ∧ tol ≤ 199 / 200 * (g ⬝ᵥ (z - x)) ^ 2)

/-- As long as the level is bad, for at most `N` rounds, the centres stay in `X` and the ellipsoids are resolved by the arithmetic. -/
def DcResolved (N : ℕ) (X : Set (Fin n → ℝ)) (Bad : T → Prop) (C η u : ℝ) (fl : ℝ → ℝ) (dot : (Fin n → ℝ) → (Fin n → ℝ) → ℝ)
    (Ω : (Fin n → ℝ) → T → W → Except PyErr (W × ((Fin n → ℝ) × Beta) × Option T)) (tol : ℝ) (t0 : T) (w₀ : W × Ell n) : Prop :=
  ∀ k log v, k < N → DcRounds (fun x t => liftOracle (Ω x t)) ((Ell.spaceF fl dot).beside W) tol t0 w₀ k log v → Bad (bestT t0 log) →
    v.2.xc ∈ X ∧ Resolved C η u v.2

theorem bestT_snoc {A B D R : Type _} (t0 : T) (log : List (DcEvent A B D R T)) (w : A) (p : B × T) (c : D) (t1 : Option T) (w1 : A) (st : CUTStatus) (tsq : R) (w2 : A) :
    bestT t0 (log ++ [.query w p (c, t1) w1, .update w1 c st tsq w2]) = t1.getD (bestT t0 log) := by
  cases t1 with
  | none => simp [bestT]
  | some t => simp [bestT]

/-- The loop of `cutting_plane_dc` makes rounds. -/
theorem rounds_dc {Ω : (Fin n → ℝ) → T → W × Ell n → Except PyErr ((W × Ell n) × ((Fin n → ℝ) × Beta) × Option T)}
    {S : Space (W × Ell n) (Fin n → ℝ) ((Fin n → ℝ) × Beta) ℝ} {w : W × Ell n} {j : ℕ} {s : DcSt (W × Ell n) (Fin n → ℝ) T}
    (hr : Rounds (dcBody Ω S tol) 0 ⟨w, none, t0, .success⟩ j s) :
    ∃ log, DcRounds Ω S tol t0 w j log s.w ∧ s.t = bestT t0 log := by
  refine Rounds.inv (fun j s => ∃ log, DcRounds Ω S tol t0 w j log s.w ∧ s.t = bestT t0 log) ⟨[], .nil, rfl⟩ ?_ hr
  rintro j s s' ⟨log, hp, ht⟩ hb
  obtain ⟨w1, c, t1, w2, tsq, hq, hu, htol, rfl⟩ := dcBody_cont hb
  rw [ht] at hq
  refine ⟨_, .snoc hp hq hu htol, ?_⟩
  rw [bestT_snoc, ← ht]
  cases t1 <;> rfl

theorem round_split_dc {v v1 v2 : W × Ell n} {t : T} {c : (Fin n → ℝ) × Beta} {t1 : Option T} {st : CUTStatus} {tsq : ℝ}
    (hq : liftOracle (Ω v.2.xc t) v = .ok (v1, c, t1)) (hup : ((Ell.spaceF fl dot).beside W).update c v1 = .ok (v2, st, tsq)) :
    Ω v.2.xc t v.1 = .ok (v1.1, c, t1) ∧ updateF fl dot c v.2 = .ok (v2.2, st, tsq) ∧ v2.1 = v1.1 := by
  obtain ⟨h1, h2⟩ := liftOracle_eq hq
  refine ⟨h1, ?_, beside_update hup⟩
  rw [← h2]
  simp only [Space.beside, Ell.spaceF] at hup
  split at hup
  · simp at hup
  · rename_i v3 st3 tsq3 h3
    simp only [Except.ok.injEq, Prod.mk.injEq] at hup
    obtain ⟨rfl, rfl, rfl⟩ := hup
    exact h3

section runs
variable (hE : E₀.Proper) (hfl : RelErr u fl) (hu0 : 0 ≤ u) (hu : u ≤ ε) (hdot : VecDotErr ε dot) (hb : StepBounds n C ε η b l q) (hq : q < 1)
  (hΩ : DcKeeps K X Inv Bad tol Ω) (hw₀ : Inv w₀) (hres : DcResolved N X Bad C η u fl dot Ω tol t0 (w₀, E₀))
  (hfat : (lossF n l q + √((8 / 3 * b) ^ n * b)) * volume.real E₀.pts < volume.real (K ∩ E₀.pts))
  (hN : (lossF n l q + q ^ N) * volume.real E₀.pts < volume.real (K ∩ E₀.pts))

theorem DcRounds.inv {k : ℕ} {log} {v : W × Ell n} (hΩ : DcKeeps K X Inv Bad tol Ω) (hw₀ : Inv w₀)
    (h : DcRounds (fun x t => liftOracle (Ω x t)) ((Ell.spaceF fl dot).beside W) tol t0 (w₀, E₀) k log v) : Inv v.1 := by
  induction h with
  | nil => exact hw₀
  | @snoc k log w w1 w2 c t1 tsq hp hq1 hu1 ht ih =>
    obtain ⟨h1, -, h3⟩ := round_split_dc hq1 hu1
    rw [h3]
    exact (hΩ.mono _ _ _ _ _ _ ih h1).1

include hu0 hu hb hq hN in
theorem loss_lt {k : ℕ} {E : Ell n} (hi : LossInv K (volume.real E₀.pts) (volume.real (K ∩ E₀.pts)) l q k E) : k < N := by
  obtain ⟨hl, hq0⟩ := hb.facts (hu0.trans hu)
  have hV : 0 ≤ volume.real E₀.pts := measureReal_nonneg
  by_contra hc
  have h1 := hi.bound hV hl hq0 hq
  have h2 := mul_le_mul_of_nonneg_right (pow_le_pow_of_le_one hq0 hq.le (not_lt.1 hc)) hV
  unfold lossF at hN
  linarith

include hfl hu0 hu hdot hb hq hfat hN in
/-- One step from a state with little loss. -/
theorem dc_step {k : ℕ} {E : Ell n} {g : Fin n → ℝ} {β : ℝ} (hi : LossInv K (volume.real E₀.pts) (volume.real (K ∩ E₀.pts)) l q k E)
    (hC : Resolved C η u E) (hβ : 0 ≤ β) (hg : g ≠ 0) (hz : ∀ z ∈ K, g ⬝ᵥ (z - E.xc) + β ≤ 0 ∧ tol ≤ 199 / 200 * (g ⬝ᵥ (z - E.xc)) ^ 2) :
    ∃ E' tsq, updateF fl dot (g, .scalar β) E = .ok (E', .success, tsq) ∧ ¬ tsq < tol ∧
      LossInv K (volume.real E₀.pts) (volume.real (K ∩ E₀.pts)) l q (k + 1) E' := by
  obtain ⟨hl, hq0⟩ := hb.facts (hu0.trans hu)
  have hV : 0 ≤ volume.real E₀.pts := measureReal_nonneg
  obtain ⟨E', tsq, k1, k2, k3⟩ := hi.step hV hq hfl hu0 hu hdot hb hC hg hβ (fun z hz' => (hz z hz').1) hfat
  have hpos : 0 < volume.real (K ∩ E.pts) := by
    have h1 := hi.total hV hl hq0 hq
    have h2 : 0 ≤ q ^ N * volume.real E₀.pts := mul_nonneg (pow_nonneg hq0 N) hV
    unfold lossF at hN
    linarith
  refine ⟨E', tsq, k1, ?_, k3⟩
  obtain ⟨z, hzK, hzE⟩ : (K ∩ E.pts).Nonempty := by
    by_contra hc
    rw [Set.not_nonempty_iff_eq_empty] at hc
    rw [hc] at hpos
    simp at hpos
  have h1 := (hz z hzK).2
  have h2 := hzE g
  have h3 := (abs_le.1 k2).1
  rw [not_lt]
  linarith

include hE hfl hu0 hu hdot hb hq hΩ hw₀ hres hfat hN in
/-- While the level is bad, little is lost. -/
theorem dc_loss {k : ℕ} {log} {v : W × Ell n}
    (h : DcRounds (fun x t => liftOracle (Ω x t)) ((Ell.spaceF fl dot).beside W) tol t0 (w₀, E₀) k log v) (hbad : Bad (bestT t0 log)) :
    LossInv K (volume.real E₀.pts) (volume.real (K ∩ E₀.pts)) l q k v.2 := by
  induction h with
  | nil => exact LossInv.init hE
  | @snoc k log w w1 w2 c t1 tsq hp hq1 hu1 ht ih =>
    obtain ⟨h1, h2, h3⟩ := round_split_dc hq1 hu1
    rw [bestT_snoc] at hbad
    have hiv := hp.inv hΩ hw₀
    have hbad' := (hΩ.mono _ _ _ _ _ _ hiv h1).2 hbad
    have hi := ih hbad'
    obtain ⟨hX, hC⟩ := hres _ _ _ (loss_lt hu0 hu hb hq hN hi) hp hbad'
    obtain ⟨w', g, β, t1', k1, k2⟩ := hΩ.cuts _ hX _ _ hiv hbad'
    rw [h1] at k1
    simp only [Except.ok.injEq, Prod.mk.injEq] at k1
    obtain ⟨-, rfl, rfl⟩ := k1
    obtain ⟨k3, k4, k5⟩ := k2 hbad
    obtain ⟨E', tsq', k6, -, k7⟩ := dc_step hfl hu0 hu hdot hb hq hfat hN hi hC k3 k4 k5
    rw [h2] at k6
    simp only [Except.ok.injEq, Prod.mk.injEq] at k6
    rw [k6.1]
    exact k7

include hE hfl hu0 hu hdot hb hq hΩ hw₀ hres hfat hN in
/-- **C131** (the level reached).  `K` has more volume than `loss + √((8b/3)ⁿ b)` and than `loss + q^N` times the first ellipsoid; while the level is bad the cuts
keep `K`.  Then a run with `max_it ≥ N` that returns does not return a bad level, and a level that is not bad is reported within the first `N` oracle
calls, before which no exception is raised. -/
theorem C131_dc [DecidableEq T] :
    (∀ m : Int, (N : Int) ≤ m → ∀ w' xb t info, cuttingPlaneDc (fun x t => liftOracle (Ω x t)) ((Ell.spaceF fl dot).beside W) t0 ⟨m, tol⟩ (w₀, E₀) =
      .ok (w', xb, t, info) → ¬ Bad t) ∧
    (Bad t0 → ∃ (k : ℕ) (log : _) (v : W × Ell n) (w' : W) (c : _) (t1 : _), k < N ∧
      DcRounds (fun x t => liftOracle (Ω x t)) ((Ell.spaceF fl dot).beside W) tol t0 (w₀, E₀) k log v ∧
      Ω v.2.xc (bestT t0 log) v.1 = .ok (w', c, t1) ∧ ¬ Bad (t1.getD (bestT t0 log))) := by
  have hinv := fun {k log v} => dc_loss (k := k) (log := log) (v := v) hE hfl hu0 hu hdot hb hq hΩ hw₀ hres hfat hN
  constructor
  · intro m hm w' xb t info h hbad
    obtain ⟨s, i, hf, rfl, rfl, rfl, rfl⟩ := dc_ok h
    rcases forRange_ok hf with ⟨s1, hi, hr, hbr⟩ | ⟨hi, hr⟩
    · obtain ⟨log, hp, ht⟩ := rounds_dc hr
      obtain ⟨w1, c, t1, w2, st, tsq, hq1, hu1, hcase⟩ := dcBody_brk hbr
      obtain ⟨h1, h2, h3⟩ := round_split_dc hq1 hu1
      have hs : s.t = t1.getD s1.t := by
        rcases hcase with ⟨-, rfl⟩ | ⟨-, -, rfl⟩ <;> cases t1 <;> rfl
      rw [hs] at hbad
      have hiv := hp.inv hΩ hw₀
      have hbad' := (hΩ.mono _ _ _ _ _ _ hiv h1).2 hbad
      have hbad2 : Bad (bestT t0 log) := ht ▸ hbad'
      have hil := hinv hp hbad2
      obtain ⟨hX, hC⟩ := hres _ _ _ (loss_lt hu0 hu hb hq hN hil) hp hbad2
      obtain ⟨w', g, β, t1', k1, k2⟩ := hΩ.cuts _ hX _ _ hiv hbad'
      rw [h1] at k1
      simp only [Except.ok.injEq, Prod.mk.injEq] at k1
      obtain ⟨-, rfl, rfl⟩ := k1
      obtain ⟨k3, k4, k5⟩ := k2 hbad
      obtain ⟨E', tsq', k6, k7, -⟩ := dc_step hfl hu0 hu hdot hb hq hfat hN hil hC k3 k4 k5
      rw [h2] at k6
      simp only [Except.ok.injEq, Prod.mk.injEq] at k6
      obtain ⟨-, rfl, rfl⟩ := k6
      rcases hcase with ⟨h, -⟩ | ⟨-, h, -⟩
      · exact h rfl
      · exact k7 h
    · obtain ⟨log, hp, ht⟩ := rounds_dc hr
      have := loss_lt hu0 hu hb hq hN (hinv hp (ht ▸ hbad))
      dsimp only at hi
      omega
  · intro hbad0
    by_contra hno
    have hno : ∀ (k : ℕ) log (v : W × Ell n) w' c t1, k < N →
        DcRounds (fun x t => liftOracle (Ω x t)) ((Ell.spaceF fl dot).beside W) tol t0 (w₀, E₀) k log v →
        Ω v.2.xc (bestT t0 log) v.1 = .ok (w', c, t1) → Bad (t1.getD (bestT t0 log)) := by
      intro k log v w' c t1 h1 h2 h3
      by_contra h4
      exact hno ⟨k, log, v, w', c, t1, h1, h2, h3, h4⟩
    have all : ∀ k : ℕ, ∃ log v, DcRounds (fun x t => liftOracle (Ω x t)) ((Ell.spaceF fl dot).beside W) tol t0 (w₀, E₀) k log v ∧ Bad (bestT t0 log) := by
      intro k
      induction k with
      | zero => exact ⟨[], _, .nil, hbad0⟩
      | succ k ih =>
        obtain ⟨log, v, hp, hbad⟩ := ih
        have hil := hinv hp hbad
        have hk := loss_lt hu0 hu hb hq hN hil
        obtain ⟨hX, hC⟩ := hres _ _ _ hk hp hbad
        obtain ⟨w', g, β, t1, k1, k2⟩ := hΩ.cuts _ hX _ _ (hp.inv hΩ hw₀) hbad
        have hbad1 := hno _ _ _ _ _ _ hk hp k1
        obtain ⟨k3, k4, k5⟩ := k2 hbad1
        obtain ⟨E', tsq', k6, k7, -⟩ := dc_step hfl hu0 hu hdot hb hq hfat hN hil hC k3 k4 k5
        refine ⟨_, (w', E'), .snoc hp (w1 := (w', v.2)) (c := (g, .scalar β)) (t1 := t1) (tsq := tsq') ?_ ?_ k7, ?_⟩
        · simp [Space.beside, Ell.spaceF, liftOracle, k1]
        · simp [Space.beside, Ell.spaceF, k6]
        · rw [bestT_snoc]; exact hbad1
    obtain ⟨log, v, hp, hbad⟩ := all N
    exact absurd (loss_lt hu0 hu hb hq hN (hinv hp hbad)) (lt_irrefl N)

end runs

/-! ### Convex programs -/

/-- An oracle for a convex program (see `RoomOracle`) that may be wrong by `ν`: at the points `x ∈ X` it answers, and the points of `D` that are feasible with
room `δ` and beat the level by `δ` satisfy the cut with room `δ - ν`. -/
structure ApproxRoomOracle (ι : T → WithTop ℝ) (Room : (Fin n → ℝ) → ℝ → Prop) (f : (Fin n → ℝ) → ℝ) (D X : Set (Fin n → ℝ)) (ν : ℝ) (Inv : W → Prop)
    (Ω : (Fin n → ℝ) → T → W → Except PyErr (W × ((Fin n → ℝ) × Beta) × Option T)) : Prop where
  mono : ∀ x t w w' c t1, Inv w → Ω x t w = .ok (w', c, t1) → Inv w' ∧ ι (t1.getD t) ≤ ι t
  cuts : ∀ x ∈ X, ∀ t w, Inv w → ∃ w' g β t1, Ω x t w = .ok (w', (g, .scalar β), t1) ∧ 0 ≤ β ∧
    ∀ z ∈ D, ∀ δ, 0 ≤ δ → Room z δ → ((f z + δ : ℝ) : WithTop ℝ) ≤ ι (t1.getD t) → g ⬝ᵥ (z - x) + β ≤ ν - δ

theorem RoomOracle.approx {ι : T → WithTop ℝ} {Room : (Fin n → ℝ) → ℝ → Prop} {f : (Fin n → ℝ) → ℝ} (h : RoomOracle ι Room f Inv Ω) :
    ApproxRoomOracle ι Room f Set.univ Set.univ 0 Inv Ω := by
  constructor
  · intro x t w w' c t1 hw hq
    obtain ⟨w'', g, β, t1', e1, e2, e3, e4, e5⟩ := h x t w hw
    rw [hq] at e1
    simp only [Except.ok.injEq, Prod.mk.injEq] at e1
    obtain ⟨rfl, rfl, rfl⟩ := e1
    refine ⟨e2, ?_⟩
    cases t1 with
    | none => exact le_rfl
    | some s => exact (e4 s rfl).2.2
  · intro x _ t w hw
    obtain ⟨w', g, β, t1, e1, e2, e3, e4, e5⟩ := h x t w hw
    refine ⟨w', g, β, t1, e1, e3, fun z _ δ h1 h2 h3 => ?_⟩
    rw [zero_sub]
    exact e5 z δ h1 h2 h3

theorem pts_segment {E : Ell n} {x y : Fin n → ℝ} {θ : ℝ} (hx : x ∈ E.pts) (hy : y ∈ E.pts) (h0 : 0 ≤ θ) (h1 : θ ≤ 1) :
    (1 - θ) • x + θ • y ∈ E.pts := fun v => by
  have k1 := hx v
  have k2 := hy v
  have e : v ⬝ᵥ ((1 - θ) • x + θ • y - E.xc) = (1 - θ) * (v ⬝ᵥ (x - E.xc)) + θ * (v ⬝ᵥ (y - E.xc)) := by
    simp only [dotProduct_sub, dotProduct_add, dotProduct_smul, smul_eq_mul]; ring
  rw [e]
  nlinarith [mul_nonneg (mul_nonneg h0 (sub_nonneg.2 h1)) (sq_nonneg (v ⬝ᵥ (x - E.xc) - v ⬝ᵥ (y - E.xc))),
    mul_le_mul_of_nonneg_left k1 (sub_nonneg.2 h1), mul_le_mul_of_nonneg_left k2 h0]

/-- The points that have room and are clearly better than the target contain a shrunk copy of the Slater ball, which the cuts keep. -/
theorem room_keeps {ι : T → WithTop ℝ} {Room : (Fin n → ℝ) → ℝ → Prop} {f : (Fin n → ℝ) → ℝ} {ν : ℝ} (hconv : RoomConvex Room f)
    (hmono : ∀ z δ δ', δ ≤ δ' → Room z δ' → Room z δ) (hΩ : ApproxRoomOracle ι Room f E₀.pts X ν Inv Ω) {a p : Fin n → ℝ} {ρ η₀ M acc θ δ : ℝ}
    (hη₀ : 0 ≤ η₀) (hball : euclBall a ρ ⊆ E₀.pts) (hslater : ∀ z ∈ euclBall a ρ, Room z η₀ ∧ f z ≤ M) (hpE : p ∈ E₀.pts) (hp : Room p 0)
    (hθ : 0 < θ) (hθ1 : θ ≤ 1) (hθM : θ * (M - f p) ≤ acc / 2) (hν0 : 0 ≤ ν) (hν : ν < δ) (hδ1 : δ ≤ acc / 2) (hδ2 : δ ≤ θ * η₀)
    (htol : tol ≤ 199 / 200 * (δ - ν) ^ 2) :
    euclBall ((1 - θ) • p + θ • a) (θ * ρ) ⊆ E₀.pts ∧
      DcKeeps (euclBall ((1 - θ) • p + θ • a) (θ * ρ)) X Inv (fun t => ((f p + acc : ℝ) : WithTop ℝ) ≤ ι t) tol Ω := by
  have hδ0 : 0 < δ := hν0.trans_lt hν
  set c := (1 - θ) • p + θ • a with hcdef
  have hin : euclBall c (θ * ρ) ⊆ E₀.pts := fun z hz => by
    obtain ⟨v, hv, rfl⟩ := shrink_ball hθ hz
    exact pts_segment hpE (hball hv) hθ.le hθ1
  have hgood : ∀ z ∈ euclBall c (θ * ρ), Room z δ ∧ f z ≤ f p + acc - δ := fun z hz => by
    obtain ⟨v, hv, rfl⟩ := shrink_ball hθ hz
    obtain ⟨hv1, hv2⟩ := hslater v hv
    obtain ⟨c1, c2⟩ := hconv p v η₀ θ hη₀ hθ.le hθ1 hp hv1
    refine ⟨hmono _ _ _ hδ2 c1, ?_⟩
    have k1 := mul_le_mul_of_nonneg_left hv2 hθ.le
    linarith
  refine ⟨hin, ?_⟩
  constructor
  · intro x t w w' cut t1 hw hq
    obtain ⟨h1, h2⟩ := hΩ.mono x t w w' cut t1 hw hq
    exact ⟨h1, fun h => h.trans h2⟩
  · intro x hx t w hw _
    obtain ⟨w', g, β, t1, e1, e2, e3⟩ := hΩ.cuts x hx t w hw
    refine ⟨w', g, β, t1, e1, fun hbad => ?_⟩
    have hz : ∀ z ∈ euclBall c (θ * ρ), g ⬝ᵥ (z - x) + β ≤ ν - δ := fun z hz => by
      obtain ⟨q1, q2⟩ := hgood z hz
      exact e3 z (hin hz) δ hδ0.le q1 ((WithTop.coe_le_coe.2 (by linarith)).trans hbad)
    refine ⟨e2, ?_, fun z hz' => ⟨by linarith [hz z hz'], ?_⟩⟩
    · rintro rfl
      have hc : c ∈ euclBall c (θ * ρ) := by
        change ∑ i, (c i - c i) ^ 2 ≤ (θ * ρ) ^ 2; simp; positivity
      have := hz c hc
      rw [zero_dotProduct] at this
      linarith
    · have h1 : g ⬝ᵥ (z - x) ≤ -(δ - ν) := by linarith [hz z hz']
      have h2 : (δ - ν) ^ 2 ≤ (g ⬝ᵥ (z - x)) ^ 2 := by
        rw [← neg_sq (g ⬝ᵥ (z - x))]
        exact pow_le_pow_left₀ (by linarith) (by linarith) 2
      linarith

/-- **C131** (accuracy for convex programs).  A ball of radius `ρ` around `a` inside the first ellipsoid where there is room `η₀` and `f ≤ M`, and any feasible point
`p` of the first ellipsoid.  For the accuracy `acc > 0` and `θ ∈ (0,1]` with `θ(M - f(p)) ≤ acc/2`: if the oracle errs by less than `δ ≤ acc/2`, `δ ≤ θη₀`, the tolerance is at
most `199/200·(δ - ν)²`, and `(θρ)ⁿ` exceeds `√(κⁿ det Q)` times `loss + √((8b/3)ⁿ b)` and times `loss + q^N`, then a run with `max_it ≥ N` that returns has a level
below `f(p) + acc`, and such a level is reported within `N` oracle calls. -/
theorem C131_room [DecidableEq T] (hE : E₀.Proper) (hfl : RelErr u fl) (hu0 : 0 ≤ u) (hu : u ≤ ε) (hdot : VecDotErr ε dot) (hb : StepBounds n C ε η b l q) (hq : q < 1)
    {ι : T → WithTop ℝ} {Room : (Fin n → ℝ) → ℝ → Prop} {f : (Fin n → ℝ) → ℝ} {ν : ℝ} (hconv : RoomConvex Room f)
    (hmono : ∀ z δ δ', δ ≤ δ' → Room z δ' → Room z δ) (hΩ : ApproxRoomOracle ι Room f E₀.pts X ν Inv Ω) (hw₀ : Inv w₀) {a p : Fin n → ℝ} {ρ η₀ M acc θ δ : ℝ}
    (hρ : 0 < ρ) (hη₀ : 0 ≤ η₀) (hball : euclBall a ρ ⊆ E₀.pts) (hslater : ∀ z ∈ euclBall a ρ, Room z η₀ ∧ f z ≤ M) (hpE : p ∈ E₀.pts) (hp : Room p 0)
    (hθ : 0 < θ) (hθ1 : θ ≤ 1) (hθM : θ * (M - f p) ≤ acc / 2) (hν0 : 0 ≤ ν) (hν : ν < δ) (hδ1 : δ ≤ acc / 2) (hδ2 : δ ≤ θ * η₀)
    (htol : tol ≤ 199 / 200 * (δ - ν) ^ 2)
    (hres : DcResolved N X (fun t => ((f p + acc : ℝ) : WithTop ℝ) ≤ ι t) C η u fl dot Ω tol t0 (w₀, E₀))
    (hfat : (lossF n l q + √((8 / 3 * b) ^ n * b)) * √E₀.vsq < (θ * ρ) ^ n) (hN : (lossF n l q + q ^ N) * √E₀.vsq < (θ * ρ) ^ n) :
    (∀ m : Int, (N : Int) ≤ m → ∀ w' xb t info, cuttingPlaneDc (fun x t => liftOracle (Ω x t)) ((Ell.spaceF fl dot).beside W) t0 ⟨m, tol⟩ (w₀, E₀) =
      .ok (w', xb, t, info) → ι t < ((f p + acc : ℝ) : WithTop ℝ)) ∧
    (((f p + acc : ℝ) : WithTop ℝ) ≤ ι t0 → ∃ (k : ℕ) (log : _) (v : W × Ell n) (w' : W) (c : _) (t1 : _), k < N ∧
      DcRounds (fun x t => liftOracle (Ω x t)) ((Ell.spaceF fl dot).beside W) tol t0 (w₀, E₀) k log v ∧
      Ω v.2.xc (bestT t0 log) v.1 = .ok (w', c, t1) ∧ ι (t1.getD (bestT t0 log)) < ((f p + acc : ℝ) : WithTop ℝ)) := by
  have hr : 0 < θ * ρ := by positivity
  obtain ⟨hin, hK⟩ := room_keeps hconv hmono hΩ hη₀ hball hslater hpE hp hθ hθ1 hθM hν0 hν hδ1 hδ2 htol
  set c := (1 - θ) • p + θ • a with hcdef
  have hB0 := euclBall_real_pos (n := n)
  have scale : ∀ {s : ℝ}, s * √E₀.vsq < (θ * ρ) ^ n → s * volume.real E₀.pts < volume.real (euclBall c (θ * ρ) ∩ E₀.pts) := fun {s} hs => by
    rw [Set.inter_eq_left.2 hin, vol_ball hE.dim hr, vol_pts hE, ← mul_assoc]
    exact mul_lt_mul_of_pos_right hs hB0
  have key := C131_dc hE hfl hu0 hu hdot hb hq hK hw₀ hres (scale hfat) (scale hN)
  simpa only [not_le] using key

/-! ### A concrete run in doubles -/

/-- An oracle for `minimise x₀`, written like the oracles of the repository. -/
noncomputable def leftward (x : Fin 2 → ℝ) (t : ℝ) (_ : Unit) : Except PyErr (Unit × ((Fin 2 → ℝ) × Beta) × Option ℝ) :=
  if x 0 < t then .ok ((), (![1, 0], .scalar 0), some (x 0)) else .ok ((), (![1, 0], .scalar (x 0 - t)), none)

theorem leftward_room : RoomOracle (fun t : ℝ => (t : WithTop ℝ)) (fun _ _ => True) (fun z : Fin 2 → ℝ => z 0) (fun _ => True) leftward := by
  intro x t w _
  unfold leftward
  have e : ∀ z : Fin 2 → ℝ, ![1, 0] ⬝ᵥ (z - x) = z 0 - x 0 := fun z => by
    rw [dotProduct, Fin.sum_univ_two]
    simp
  split_ifs with h
  · refine ⟨_, _, _, _, rfl, trivial, le_rfl, fun s hs => ?_, fun z δ _ _ h2 => ?_⟩
    · obtain rfl := Option.some.inj hs
      exact ⟨trivial, rfl, WithTop.coe_le_coe.2 h.le⟩
    · have := WithTop.coe_le_coe.1 h2
      rw [e, Option.getD_some] at *
      linarith
  · refine ⟨_, _, _, _, rfl, trivial, by linarith, fun s hs => by simp at hs, fun z δ _ _ h2 => ?_⟩
    have := WithTop.coe_le_coe.1 h2
    rw [e, Option.getD_none] at *
    linarith

theorem leftward_resolved {fl : ℝ → ℝ} (hfl : Nearest 53 fl) {N : ℕ} :
    DcResolved N Set.univ (fun t : ℝ => ((-1 / 2 + 9 / 20 : ℝ) : WithTop ℝ) ≤ t) √2 (1 / 2 ^ 53) (1 / 2 ^ 53) fl (vecDot fl) leftward tol 1 ((), disc) := by
  intro k log v _ hp hbad
  obtain ⟨E', h1, h2, h3, h4, h5, h6, h7, h8, h9⟩ := disc_update hfl
  have key : (log = [] ∧ v.2 = disc) ∨ v.2 = E' := by
    induction hp with
    | nil => exact .inl ⟨rfl, rfl⟩
    | @snoc k log w w1 w2 c t1 tsq hp hq1 hu1 ht ih =>
      obtain ⟨k1, k2, -⟩ := round_split_dc hq1 hu1
      rw [bestT_snoc] at hbad
      have hbad0 : ((-1 / 2 + 9 / 20 : ℝ) : WithTop ℝ) ≤ (bestT 1 log : ℝ) := hbad.trans (by
        obtain ⟨-, h⟩ := leftward_room.approx.mono _ _ _ _ _ _ trivial k1
        exact h)
      right
      rcases ih (by omega) hbad0 with ⟨ih1, ih2⟩ | ih
      · rw [ih2, ih1] at k1
        rw [ih2] at k2
        unfold leftward at k1
        rw [if_pos (by simp [disc, bestT])] at k1
        simp only [Except.ok.injEq, Prod.mk.injEq, true_and] at k1
        rw [← k1.1, h1] at k2
        simp only [Except.ok.injEq, Prod.mk.injEq] at k2
        exact k2.1.symm
      · rw [ih] at k1
        unfold leftward at k1
        have hb1 := WithTop.coe_le_coe.1 hbad0
        rw [if_pos (by linarith)] at k1
        simp only [Except.ok.injEq, Prod.mk.injEq, true_and] at k1
        rw [← k1.2] at hbad
        have hb2 := WithTop.coe_le_coe.1 hbad
        rw [Option.getD_some] at hb2
        linarith
  refine ⟨Set.mem_univ _, ?_⟩
  rcases key with ⟨-, key⟩ | key <;> rw [key]
  · exact disc_is_resolved
  · exact step_is_resolved h3 h4 h5 h6 h7 h8 h9

/-- Concrete: `minimise x₀` from the unit disc in doubles; within 31 oracle calls the level is below `-1/20`, which the point `(-1/2, 0)` beats by `9/20`. -/
example {fl : ℝ → ℝ} (hfl : Nearest 53 fl) : ∃ (k : ℕ) (log : _) (v : Unit × Ell 2) (w' : Unit) (c : _) (t1 : _), k < 31 ∧
    DcRounds (fun x t => liftOracle (leftward x t)) ((Ell.spaceF fl (vecDot fl)).beside Unit) (3 / 100) 1 ((), disc) k log v ∧
    leftward v.2.xc (bestT 1 log) v.1 = .ok (w', c, t1) ∧ t1.getD (bestT 1 log) < -1 / 20 := by
  obtain ⟨h1, h2, h3⟩ := C117_double (n := 2) hfl (by norm_num)
  have h4 : (√2) ^ 4 = (4 : ℝ) := by
    rw [show (4 : ℕ) = 2 * 2 by rfl, pow_mul, Real.sq_sqrt (by norm_num)]; norm_num
  have hs2 : √2 ≤ 3 / 2 := by rw [Real.sqrt_le_left (by norm_num)]; norm_num
  have hP : disc.Proper := ⟨le_rfl, PosDef.one, one_pos⟩
  have hv : disc.vsq = 1 := by simp [disc, Ell.vsq]
  have hb : StepBounds 2 √2 (2 * ((2 : ℕ) + 1) / 2 ^ 53) (1 / 2 ^ 53) (1 / 20) (1 + 1 / 10 ^ 9) (9 / 10) := by
    refine ⟨by norm_num, by norm_num, by rw [Real.one_le_sqrt]; norm_num, by positivity, by rw [h4]; norm_num, ?_, ?_⟩
    · rw [h4]; norm_num; linarith
    · rw [h4]
      rw [Real.sqrt_sq (by norm_num)]
      have h5 : Real.exp (-(1 / (2 * (((2 : ℕ) : ℝ) + 1)))) ≤ 6 / 7 := by
        rw [Real.exp_neg, inv_le_comm₀ (Real.exp_pos _) (by norm_num)]
        have := Real.add_one_le_exp (1 / (2 * (((2 : ℕ) : ℝ) + 1)))
        norm_num at this ⊢
        linarith
      refine (mul_le_mul_of_nonneg_left h5 (by norm_num)).trans ?_
      norm_num
  have hloss : lossF 2 (1 + 1 / 10 ^ 9) (9 / 10) ≤ 1 / 10000 := by unfold lossF; norm_num
  have hball : ∀ z ∈ euclBall (![-1 / 2, 0] : Fin 2 → ℝ) (2 / 5), (z 0 + 1 / 2) ^ 2 + z 1 ^ 2 ≤ 4 / 25 := fun z hz => by
    have hz : ∑ i, (z i - (![-1 / 2, 0] : Fin 2 → ℝ) i) ^ 2 ≤ (2 / 5) ^ 2 := hz
    rw [Fin.sum_univ_two] at hz
    simp only [Matrix.cons_val_zero, Matrix.cons_val_one] at hz
    norm_num at hz ⊢
    linarith
  have hz0 : ∀ z ∈ euclBall (![-1 / 2, 0] : Fin 2 → ℝ) (2 / 5), z 0 ≤ -1 / 10 ∧ -9 / 10 ≤ z 0 := fun z hz => by
    have := hball z hz
    constructor <;> nlinarith [sq_nonneg (z 1)]
  have hsub : euclBall (![-1 / 2, 0] : Fin 2 → ℝ) (2 / 5) ⊆ disc.pts := fun z hz => by
    have h6 := hball z hz
    have h7 := hz0 z hz
    have : disc = ⟨true, false, 0, 1, 1 ^ 2⟩ := by simp [disc]
    rw [this, euclBall_eq_pts le_rfl]
    change ∑ i, (z i - (0 : Fin 2 → ℝ) i) ^ 2 ≤ 1 ^ 2
    rw [Fin.sum_univ_two]
    simp only [Pi.zero_apply, sub_zero]
    nlinarith
  have hΩ := leftward_room.approx
  have key := C131_room (E₀ := disc) (Ω := leftward) (X := Set.univ) (Inv := fun _ => True) (w₀ := ()) (t0 := 1) (N := 31) (tol := 3 / 100) hP h1 (by positivity) h2 h3 hb
    (by norm_num) (ι := fun t : ℝ => (t : WithTop ℝ)) (Room := fun _ _ => True) (f := fun z => z 0) (ν := 0) (fun x y δ θ _ _ _ _ _ => ⟨trivial, le_rfl⟩)
    (fun _ _ _ _ _ => trivial) ⟨hΩ.mono, fun x hx t w hw => by
      obtain ⟨w', g, β, t1, e1, e2, e3⟩ := hΩ.cuts x hx t w hw
      exact ⟨w', g, β, t1, e1, e2, fun z _ => e3 z (Set.mem_univ _)⟩⟩ trivial (a := ![-1 / 2, 0]) (p := ![-1 / 2, 0]) (ρ := 2 / 5) (η₀ := 1) (M := -1 / 10) (acc := 9 / 20)
    (θ := 1 / 2) (δ := 1 / 5) (by norm_num) (by norm_num) hsub (fun z hz => ⟨trivial, (hz0 z hz).1⟩)
    (hsub (by change ∑ i, (_ - _) ^ 2 ≤ (2 / 5 : ℝ) ^ 2; simp; positivity)) trivial (by norm_num) (by norm_num) (by simp; norm_num) le_rfl (by norm_num) (by norm_num) (by norm_num)
    (by norm_num) (leftward_resolved hfl) (by
      rw [hv, Real.sqrt_one, mul_one]
      have h6 : √((8 / 3 * (1 / 20 : ℝ)) ^ 2 * (1 / 20)) ≤ 3 / 100 := by rw [Real.sqrt_le_left (by norm_num)]; norm_num
      norm_num at h6 hloss ⊢
      linarith) (by
      rw [hv, Real.sqrt_one, mul_one]
      norm_num at hloss ⊢
      linarith)
  obtain ⟨k, log, v, w', c, t1, k1, k2, k3, k4⟩ := key.2 (WithTop.coe_le_coe.2 (by simp; norm_num))
  refine ⟨k, log, v, w', c, t1, k1, k2, k3, ?_⟩
  have := WithTop.coe_lt_coe.1 k4
  simp only [Matrix.cons_val_zero] at this
  linarith

end Verif
