import Verif.Proofs.EllFloatRun
import Verif.Proofs.Feas
import Verif.Proofs.AnySpace
import Verif.Spec.FeasSpec
import Verif.Model.FloatRuns

/-!
# C130: whole runs of `cutting_plane_feas` with rounded ellipsoids

A rounded update does not keep every point that satisfies the cut; what it loses lies in a thin shell around the new ellipsoid.  The shells
are counted by volume: the ellipsoids shrink geometrically, so all the shells of a run together have a volume that does not grow with the length of
the run, and a feasible set with more volume than that is found.
-/
namespace Verif
open Matrix MeasureTheory Ell FloatSpec
variable {n : ℕ} {E : Ell n} {g : Fin n → ℝ} {β b C ε u η l q : ℝ} {fl : ℝ → ℝ} {dot : (Fin n → ℝ) → (Fin n → ℝ) → ℝ} {W : Type _}

/-- **C130** (one update).  If the cut is not deeper than `(1 - b)τ`, the update succeeds, the points that satisfy the cut and are lost have at most
`lⁿ - 1` times the volume of the new ellipsoid, and this is at most `q` times that of the old one.  If the cut is deeper, the points that satisfy it
have at most `√((8b/3)ⁿ b)` times the volume of the ellipsoid. -/
theorem C130_update (hE : E.Proper) (hfl : RelErr u fl) (hu0 : 0 ≤ u) (hu : u ≤ ε) (hdot : VecDotErr ε dot) (hb : StepBounds n C ε η b l q)
    (hC : Resolved C η u E) (hg : g ≠ 0) (hβ0 : 0 ≤ β) :
    (β ≤ (1 - b) * √(E.kappa * (g ⬝ᵥ E.Q *ᵥ g)) → ∃ E' tsq, updateF fl dot (g, .scalar β) E = .ok (E', .success, tsq) ∧ E'.Proper ∧
      volume.real ((E.pts ∩ cutSet E.xc (g, .scalar β)) \ E'.pts) ≤ (l ^ n - 1) * volume.real E'.pts ∧
      volume.real E'.pts ≤ q * volume.real E.pts) ∧
    ((1 - b) * √(E.kappa * (g ⬝ᵥ E.Q *ᵥ g)) ≤ β →
      volume.real (E.pts ∩ cutSet E.xc (g, .scalar β)) ≤ √((8 / 3 * b) ^ n * b) * volume.real E.pts) := by
  refine ⟨fun h => ?_, cap_vol hE hg hb.b0 hb.b1⟩
  obtain ⟨E', tsq, k1, k2, -, k3, k4⟩ := step_vol hE hfl hu0 hu hdot hb hC hg hβ0 h
  exact ⟨E', tsq, k1, k2, k3, k4⟩

/-! ### Runs -/

variable {ω : (Fin n → ℝ) → W → Except PyErr (W × Option ((Fin n → ℝ) × Beta))} {K : Set (Fin n → ℝ)} {tol : ℝ} {w₀ : W} {E₀ : Ell n}

/-- The oracle's cuts are central or deep and keep `K`. -/
def CutsKeep (K : Set (Fin n → ℝ)) (ω : (Fin n → ℝ) → W → Except PyErr (W × Option ((Fin n → ℝ) × Beta))) : Prop :=
  ∀ x w w' c, ω x w = .ok (w', some c) → ∃ g β, c = (g, .scalar β) ∧ g ≠ 0 ∧ 0 ≤ β ∧ K ⊆ cutSet x c

/-- Every ellipsoid of the run is resolved by the arithmetic. -/
def RunResolved (C η u : ℝ) (fl : ℝ → ℝ) (dot : (Fin n → ℝ) → (Fin n → ℝ) → ℝ)
    (ω : (Fin n → ℝ) → W → Except PyErr (W × Option ((Fin n → ℝ) × Beta))) (tol : ℝ) (w₀ : W × Ell n) : Prop :=
  ∀ k log v, PassingRounds (fun x => liftOracle (ω x)) ((Ell.spaceF fl dot).beside W) tol w₀ k log v → Resolved C η u v.2

/-- The volume (relative to the first ellipsoid) that a run can lose. -/
noncomputable def lossF (n : ℕ) (l q : ℝ) : ℝ := (l ^ n - 1) * (q / (1 - q))

theorem round_split {v v1 v2 : W × Ell n} {c : (Fin n → ℝ) × Beta} {st : CUTStatus} {tsq : ℝ}
    (hq : liftOracle (ω v.2.xc) v = .ok (v1, some c)) (hup : ((Ell.spaceF fl dot).beside W).update c v1 = .ok (v2, st, tsq)) :
    ω v.2.xc v.1 = .ok (v1.1, some c) ∧ updateF fl dot c v.2 = .ok (v2.2, st, tsq) ∧ v2.1 = v1.1 := by
  obtain ⟨h1, h2⟩ := liftOracle_eq hq
  refine ⟨h1, ?_, beside_update hup⟩
  rw [← h2]
  simp only [Space.beside, Ell.spaceF] at hup
  split at hup
  · simp at hup
  · rename_i v3 st3 tsq3 h3
    simp only [Except.ok.injEq, Prod.mk.injEq] at hup
    obtain ⟨rfl, rfl, rfl⟩ := hup
    exact h3

theorem rounds_loss (hE : E₀.Proper) (hfl : RelErr u fl) (hu0 : 0 ≤ u) (hu : u ≤ ε) (hdot : VecDotErr ε dot) (hb : StepBounds n C ε η b l q)
    (hq : q < 1) (hω : CutsKeep K ω) (hres : RunResolved C η u fl dot ω tol (w₀, E₀))
    (hfat : (lossF n l q + √((8 / 3 * b) ^ n * b)) * volume.real E₀.pts < volume.real (K ∩ E₀.pts)) {k : ℕ} {log} {v : W × Ell n}
    (h : PassingRounds (fun x => liftOracle (ω x)) ((Ell.spaceF fl dot).beside W) tol (w₀, E₀) k log v) :
    LossInv K (volume.real E₀.pts) (volume.real (K ∩ E₀.pts)) l q k v.2 := by
  induction h with
  | nil => exact LossInv.init hE
  | @snoc k log w w1 w2 c tsq hp hq1 hu1 ht ih =>
    obtain ⟨h1, h2, -⟩ := round_split hq1 hu1
    obtain ⟨g, β, rfl, hg, hβ, hK⟩ := hω _ _ _ _ h1
    obtain ⟨E', tsq', k1, -, k2⟩ := ih.step measureReal_nonneg hq hfl hu0 hu hdot hb (hres _ _ _ hp) hg hβ hK hfat
    rw [h2] at k1
    simp only [Except.ok.injEq, Prod.mk.injEq] at k1
    obtain ⟨h3, -, -⟩ := k1
    rw [h3]
    exact k2

/-- **C130** (what a run loses).  The cuts keep `K`, and `K` has more volume than `loss + √((8b/3)ⁿ b)` times the first ellipsoid.  Then after `k`
rounds the ellipsoid is proper, has at most `qᵏ` times the volume of the first, and has lost at most `loss` times that volume of `K`. -/
theorem C130_rounds (hE : E₀.Proper) (hfl : RelErr u fl) (hu0 : 0 ≤ u) (hu : u ≤ ε) (hdot : VecDotErr ε dot) (hb : StepBounds n C ε η b l q)
    (hq : q < 1) (hω : CutsKeep K ω) (hres : RunResolved C η u fl dot ω tol (w₀, E₀))
    (hfat : (lossF n l q + √((8 / 3 * b) ^ n * b)) * volume.real E₀.pts < volume.real (K ∩ E₀.pts)) {k : ℕ} {log} {v : W × Ell n}
    (h : PassingRounds (fun x => liftOracle (ω x)) ((Ell.spaceF fl dot).beside W) tol (w₀, E₀) k log v) :
    v.2.Proper ∧ volume.real v.2.pts ≤ q ^ k * volume.real E₀.pts ∧
      volume.real (K ∩ E₀.pts) ≤ volume.real (K ∩ v.2.pts) + lossF n l q * volume.real E₀.pts := by
  have hi := rounds_loss hE hfl hu0 hu hdot hb hq hω hres hfat h
  obtain ⟨hl, hq0⟩ := hb.facts (hu0.trans hu)
  exact ⟨hi.proper, hi.vol, hi.total measureReal_nonneg hl hq0 hq⟩

theorem rounds_passing {Ω : (Fin n → ℝ) → W × Ell n → Except PyErr ((W × Ell n) × Option ((Fin n → ℝ) × Beta))}
    {S : Space (W × Ell n) (Fin n → ℝ) ((Fin n → ℝ) × Beta) ℝ} {w : W × Ell n} {j : ℕ} {s : FeasSt (W × Ell n)}
    (hr : Rounds (feasBody Ω S tol) 0 ⟨w, false, .success⟩ j s) :
    (∃ log, PassingRounds Ω S tol w j log s.w) ∧ s.feasible = false ∧ s.status = .success := by
  refine Rounds.inv (fun j s => (∃ log, PassingRounds Ω S tol w j log s.w) ∧ s.feasible = false ∧ s.status = .success)
    ⟨⟨_, .nil⟩, rfl, rfl⟩ ?_ hr
  rintro j s s' ⟨⟨log, hp⟩, hf, hst⟩ hb
  obtain ⟨w1, c, w2, tsq, hq, hu, ht, rfl⟩ := feasBody_cont hb
  exact ⟨⟨_, .snoc hp hq hu ht⟩, hf, hst⟩

/-- **C130** (verdicts of a run).  Under the hypotheses of `C130_rounds`, the run never ends with "no solution" or "no effect".  If in addition `K` has
more volume than `loss + q^N` times the first ellipsoid, it makes at most `N` iterations, and unless `max_it` is less than `N` it ends with a point the
oracle accepted or with "small enough"; in the latter case all of `K` but `loss` times the first volume lies in a slab on which the last gradient
varies by no more than `tol` allows. -/
theorem C130_feas (hE : E₀.Proper) (hfl : RelErr u fl) (hu0 : 0 ≤ u) (hu : u ≤ ε) (hdot : VecDotErr ε dot) (hb : StepBounds n C ε η b l q)
    (hq : q < 1) (hω : CutsKeep K ω) (hres : RunResolved C η u fl dot ω tol (w₀, E₀))
    (hfat : (lossF n l q + √((8 / 3 * b) ^ n * b)) * volume.real E₀.pts < volume.real (K ∩ E₀.pts)) {m : Int} {w' : W × Ell n} {info : CInfo}
    (h : cuttingPlaneFeas (fun x => liftOracle (ω x)) ((Ell.spaceF fl dot).beside W) ⟨m, tol⟩ (w₀, E₀) = .ok (w', info)) :
    info.status ≠ .nosoln ∧ info.status ≠ .noeffect ∧
    (∀ N : ℕ, (lossF n l q + q ^ N) * volume.real E₀.pts < volume.real (K ∩ E₀.pts) →
      info.numIters ≤ N ∧ (info.feasible = true ∨ info.status = .smallenough ∨ m < N)) ∧
    (info.feasible = true → ∃ w, ω w'.2.xc w = .ok (w'.1, none)) ∧
    (info.status = .smallenough → ∃ (x : Fin n → ℝ) (w w' : W) (g : Fin n → ℝ) (β : ℝ), ω x w = .ok (w', some (g, .scalar β)) ∧
      volume.real (K ∩ E₀.pts) ≤ volume.real (K ∩ E₀.pts ∩ {z | 199 / 200 * (g ⬝ᵥ (z - x)) ^ 2 < tol}) + lossF n l q * volume.real E₀.pts) := by
  obtain ⟨hl, hq0⟩ := hb.facts (hu0.trans hu)
  -- work with the part of `K` in the first ellipsoid
  have hω' : CutsKeep (K ∩ E₀.pts) ω := fun x w w' c hc => by
    obtain ⟨g, β, h1, h2, h3, h4⟩ := hω x w w' c hc
    exact ⟨g, β, h1, h2, h3, Set.inter_subset_left.trans h4⟩
  have hKK : K ∩ E₀.pts ∩ E₀.pts = K ∩ E₀.pts := by rw [Set.inter_assoc, Set.inter_self]
  have hfat' : (lossF n l q + √((8 / 3 * b) ^ n * b)) * volume.real E₀.pts < volume.real (K ∩ E₀.pts ∩ E₀.pts) := by rw [hKK]; exact hfat
  have hV : 0 ≤ volume.real E₀.pts := measureReal_nonneg
  have hinv := fun {k log v} => rounds_loss (k := k) (log := log) (v := v) hE hfl hu0 hu hdot hb hq hω' hres hfat'
  rw [hKK] at hinv hfat'
  have hlt : ∀ {k log v}, PassingRounds (fun x => liftOracle (ω x)) ((Ell.spaceF fl dot).beside W) tol (w₀, E₀) k log v →
      ∀ N : ℕ, (lossF n l q + q ^ N) * volume.real E₀.pts < volume.real (K ∩ E₀.pts) → k < N := fun {k log v} hp N hN => by
    by_contra hc
    have h1 := (hinv hp).bound hV hl hq0 hq
    have h2 : q ^ k ≤ q ^ N := pow_le_pow_of_le_one hq0 hq.le (not_lt.1 hc)
    have h3 := mul_le_mul_of_nonneg_right h2 hV
    unfold lossF at hN
    linarith
  obtain ⟨s, i, hf, rfl, rfl⟩ := feas_ok h
  rcases forRange_ok hf with ⟨s1, hi, hr, hbr⟩ | ⟨hi, hr⟩
  · obtain ⟨⟨log, hp⟩, hfe, hst⟩ := rounds_passing hr
    have hp' := hlt hp
    rcases feasBody_brk hbr with ⟨w1, hq1, rfl⟩ | ⟨w1, c, w2, st, tsq, hq1, hup, hne, rfl⟩ | ⟨w1, c, w2, tsq, hq1, hup, ht, rfl⟩
    · obtain ⟨h3, h4⟩ := liftOracle_eq hq1
      dsimp only
      rw [hst]
      refine ⟨by simp, by simp, fun N hN => ⟨hp' N hN, .inl rfl⟩, fun _ => ⟨s1.w.1, ?_⟩, by simp⟩
      rw [h4]; exact h3
    · exfalso
      obtain ⟨h3, h4, -⟩ := round_split hq1 hup
      obtain ⟨g, β, rfl, hg, hβ, hK⟩ := hω' _ _ _ _ h3
      obtain ⟨E', tsq', k1, -, -⟩ := (hinv hp).step hV hq hfl hu0 hu hdot hb (hres _ _ _ hp) hg hβ hK hfat'
      rw [h4] at k1
      simp only [Except.ok.injEq, Prod.mk.injEq] at k1
      exact hne k1.2.1
    · obtain ⟨h3, h4, -⟩ := round_split hq1 hup
      obtain ⟨g, β, rfl, hg, hβ, hK⟩ := hω' _ _ _ _ h3
      obtain ⟨E', tsq', k1, k2, -⟩ := (hinv hp).step hV hq hfl hu0 hu hdot hb (hres _ _ _ hp) hg hβ hK hfat'
      rw [h4] at k1
      simp only [Except.ok.injEq, Prod.mk.injEq] at k1
      obtain ⟨-, -, rfl⟩ := k1
      dsimp only
      refine ⟨by simp, by simp, fun N hN => ⟨hp' N hN, .inr (.inl rfl)⟩, fun hc => absurd (hfe.symm.trans hc) (by simp),
        fun _ => ⟨_, _, _, g, β, h3, ?_⟩⟩
      have hsub : K ∩ E₀.pts ∩ s1.w.2.pts ⊆ K ∩ E₀.pts ∩ {z | 199 / 200 * (g ⬝ᵥ (z - s1.w.2.xc)) ^ 2 < tol} := fun z hz => by
        refine ⟨hz.1, ?_⟩
        have h5 := hz.2 g
        have h6 := (abs_le.1 k2).1
        change 199 / 200 * _ < tol
        linarith
      have h7 := measureReal_mono hsub (measure_ne_top_of_subset (Set.inter_subset_left.trans Set.inter_subset_right) (volume_pts_ne_top hE))
      have h8 := (hinv hp).total hV hl hq0 hq
      unfold lossF
      linarith
  · obtain ⟨⟨log, hp⟩, hfe, hst⟩ := rounds_passing hr
    have hp' := hlt hp
    dsimp only
    rw [hst, hfe]
    refine ⟨by simp, by simp, fun N hN => ⟨(hp' N hN).le, .inr (.inr ?_)⟩, by simp, by simp⟩
    have := hp' N hN
    dsimp only at hi
    omega

theorem vol_ball (hn : 2 ≤ n) {a : Fin n → ℝ} {r : ℝ} (hr : 0 < r) :
    volume.real (euclBall a r) = r ^ n * volume.real (euclBall (0 : Fin n → ℝ) 1) := by
  have hBp : (⟨true, false, a, 1, r ^ 2⟩ : Ell n).Proper := ⟨hn, PosDef.one, by positivity⟩
  rw [← euclBall_eq_pts hn a r true false, vol_pts hBp]
  congr 1
  unfold Ell.vsq
  dsimp only
  rw [det_one, mul_one, ← pow_mul, mul_comm 2 n, pow_mul, Real.sqrt_sq (by positivity)]

/-- **C130** (finding a ball).  Let the oracle answer every query with `None` or with a central or deep cut that keeps the ball `B(a, r)`, `g'g ≥ 1`.  If
`B(a, r)` lies in the first ellipsoid and `rⁿ` exceeds `√(κⁿ det Q)` times `loss + √((8b/3)ⁿ b)` and times `loss + q^N`, with `√(4n·tol)/r·rⁿ` to spare, then
the run raises nothing and finds a point the oracle accepts, in at most `N` iterations. -/
theorem C130_ball (hE : E₀.Proper) (hfl : RelErr u fl) (hu0 : 0 ≤ u) (hu : u ≤ ε) (hdot : VecDotErr ε dot) (hb : StepBounds n C ε η b l q)
    (hq : q < 1) {a : Fin n → ℝ} {r : ℝ} (hr : 0 < r) (hball : euclBall a r ⊆ E₀.pts)
    (hω : ∀ x w, (∃ w', ω x w = .ok (w', none)) ∨
      ∃ w' g β, ω x w = .ok (w', some (g, .scalar β)) ∧ euclBall a r ⊆ cutSet x (g, .scalar β) ∧ 0 ≤ β ∧ 1 ≤ g ⬝ᵥ g)
    (hres : RunResolved C η u fl dot ω tol (w₀, E₀)) {N : ℕ} {m : Int} (hm : (N : Int) ≤ m)
    (hfat : (lossF n l q + √((8 / 3 * b) ^ n * b)) * √E₀.vsq < r ^ n) (hN : (lossF n l q + q ^ N) * √E₀.vsq < r ^ n)
    (htol : lossF n l q * √E₀.vsq + √(4 * n * tol) / r * r ^ n < r ^ n) :
    ∃ w' info, cuttingPlaneFeas (fun x => liftOracle (ω x)) ((Ell.spaceF fl dot).beside W) ⟨m, tol⟩ (w₀, E₀) = .ok (w', info) ∧
      info.feasible = true ∧ info.status = .success ∧ info.numIters ≤ N ∧ ∃ w, ω w'.2.xc w = .ok (w'.1, none) := by
  obtain ⟨hl, hq0⟩ := hb.facts (hu0.trans hu)
  have hB0 := euclBall_real_pos (n := n)
  have hvB : volume.real (euclBall a r) = r ^ n * volume.real (euclBall (0 : Fin n → ℝ) 1) := vol_ball hE.dim hr
  have hKE : euclBall a r ∩ E₀.pts = euclBall a r := Set.inter_eq_left.2 hball
  have hV : 0 ≤ volume.real E₀.pts := measureReal_nonneg
  have scale : ∀ {c : ℝ}, c * √E₀.vsq < r ^ n → c * volume.real E₀.pts < volume.real (euclBall a r ∩ E₀.pts) := fun {c} hc => by
    rw [hKE, hvB, vol_pts hE, ← mul_assoc]
    exact mul_lt_mul_of_pos_right hc hB0
  have hω' : CutsKeep (euclBall a r) ω := fun x w w' c hc => by
    rcases hω x w with ⟨w1, h1⟩ | ⟨w1, g, β, h1, h2, h3, h4⟩
    · rw [h1] at hc; simp at hc
    · rw [h1] at hc
      simp only [Except.ok.injEq, Prod.mk.injEq, Option.some.injEq] at hc
      obtain ⟨-, rfl⟩ := hc
      refine ⟨g, β, rfl, fun h0 => ?_, h3, h2⟩
      rw [h0, dotProduct_zero] at h4; linarith
  have hfat' := scale hfat
  have hN' := scale hN
  have hinv := fun {k log v} => rounds_loss (k := k) (log := log) (v := v) hE hfl hu0 hu hdot hb hq hω' hres hfat'
  let P : ℕ → FeasSt (W × Ell n) → Prop := fun k s => s.feasible = false ∧ s.status = .success ∧
    ∃ log, PassingRounds (fun x => liftOracle (ω x)) ((Ell.spaceF fl dot).beside W) tol (w₀, E₀) k log s.w
  let Q : FeasSt (W × Ell n) → Prop := fun s => s.feasible = true ∧ s.status = .success ∧ ∃ w, ω s.w.2.xc w = .ok (s.w.1, none)
  have hB : ∀ k s, P k s → (k : ℝ) ≤ N - 1 := by
    rintro k s ⟨-, -, log, hp⟩
    have h1 := (hinv hp).bound hV hl hq0 hq
    have h2 : k < N := by
      by_contra hc
      have h3 := mul_le_mul_of_nonneg_right (pow_le_pow_of_le_one hq0 hq.le (not_lt.1 hc)) hV
      unfold lossF at hN'
      linarith
    have : (k : ℝ) + 1 ≤ N := by exact_mod_cast h2
    linarith
  have hstep : ∀ k s, P k s →
      (∃ s', feasBody (fun x => liftOracle (ω x)) ((Ell.spaceF fl dot).beside W) tol k s = .ok (.brk s') ∧ Q s') ∨
      (∃ s', feasBody (fun x => liftOracle (ω x)) ((Ell.spaceF fl dot).beside W) tol k s = .ok (.cont s') ∧ P (k + 1) s') := by
    rintro k ⟨⟨w, E⟩, f, st⟩ ⟨rfl, rfl, log, hp⟩
    rcases hω E.xc w with ⟨w', h1⟩ | ⟨w', g, β, h1, h2, h3, h4⟩
    · left
      refine ⟨⟨(w', E), true, .success⟩, ?_, rfl, rfl, w, h1⟩
      simp [feasBody, Space.beside, Ell.spaceF, liftOracle, h1]
    · right
      have hg : g ≠ 0 := fun h0 => by rw [h0, dotProduct_zero] at h4; linarith
      have hi := hinv hp
      obtain ⟨E', tsq, k1, k2, -⟩ := hi.step hV hq hfl hu0 hu hdot hb (hres _ _ _ hp) hg h3 h2 hfat'
      have hω0 : 0 < E.kappa * (g ⬝ᵥ E.Q *ᵥ g) := mul_pos hi.proper.kappa ((pd_iff.1 hi.proper.pd).2 g hg)
      have ht : ¬ tsq < tol := fun ht => by
        set H := E.kappa * (g ⬝ᵥ E.Q *ᵥ g) with hH
        have e1 : H ≤ 4 / 3 * tol := by linarith [(abs_le.1 k2).1]
        have e2 := hi.total hV hl hq0 hq
        have e3 : volume.real (euclBall a r ∩ E.pts) ≤ volume.real (euclBall a r ∩ {x | (g ⬝ᵥ (x - E.xc)) ^ 2 ≤ H}) :=
          measureReal_mono (fun x hx => ⟨hx.1, hx.2 g⟩)
            (measure_ne_top_of_subset (Set.inter_subset_left.trans hball) (volume_pts_ne_top hE))
        have e4 := e3.trans (slab_vol hE.dim (a := a) (c := E.xc) hr hg hω0)
        have e5 : √(3 * n * H / (r ^ 2 * (g ⬝ᵥ g))) ≤ √(4 * n * tol) / r := by
          rw [← Real.sqrt_sq hr.le, ← Real.sqrt_div' _ (sq_nonneg _)]
          refine Real.sqrt_le_sqrt ?_
          rw [Real.sqrt_sq hr.le]
          have hn0 : (0 : ℝ) ≤ n := Nat.cast_nonneg _
          have e6 := mul_le_mul_of_nonneg_left e1 hn0
          have e7 : (0 : ℝ) ≤ 4 * n * tol := by
            have := mul_nonneg hn0 hω0.le
            linarith
          refine div_le_div₀ e7 (by linarith) (by positivity) ?_
          nlinarith [sq_nonneg r]
        have e8 := mul_le_mul_of_nonneg_right e5 (measureReal_nonneg (μ := volume) (s := euclBall a r))
        rw [hKE, hvB, vol_pts hE] at e2
        rw [hvB] at e4 e8
        have e9 : (r ^ n) * volume.real (euclBall (0 : Fin n → ℝ) 1) ≤
            (lossF n l q * √E₀.vsq + √(4 * n * tol) / r * r ^ n) * volume.real (euclBall (0 : Fin n → ℝ) 1) := by
          unfold lossF
          linarith
        linarith [mul_lt_mul_of_pos_right htol hB0]
      refine ⟨⟨(w', E'), false, .success⟩, ?_, rfl, rfl, _, PassingRounds.snoc hp (w1 := (w', E)) (w2 := (w', E')) (c := (g, .scalar β)) (tsq := tsq) ?_ ?_ ht⟩
      · simp [feasBody, Space.beside, Ell.spaceF, liftOracle, h1, k1, ht]
      · simp [Space.beside, Ell.spaceF, liftOracle, h1]
      · simp [Space.beside, Ell.spaceF, k1]
  have hN0 : 0 < N := by
    have := hB 0 ⟨(w₀, E₀), false, .success⟩ ⟨rfl, rfl, _, .nil⟩
    have h1 : (0 : ℝ) < N := by push_cast at this; linarith
    exact_mod_cast h1
  have hcast : (N : ℝ) ≤ (m.toNat : ℕ) := by
    have : N ≤ m.toNat := by omega
    exact_mod_cast this
  obtain ⟨s, j, hrun, ⟨h1, h2, h3⟩, hj⟩ := forLoop_finish hstep hB m.toNat 0 none ⟨(w₀, E₀), false, .success⟩ ⟨rfl, rfl, _, .nil⟩
    (by push_cast; linarith)
  refine ⟨s.w, ⟨s.feasible, j + 1, s.status⟩, ?_, h1, h2, ?_, h3⟩
  · simp [cuttingPlaneFeas, forRange, hrun, readVar]
  · have : (j : ℝ) + 1 ≤ N := by linarith
    exact_mod_cast this

/-- What the oracle has to deliver at the points of `X`: it answers, and its cuts are central or deep, keep `K`, and no point of `K` is within the tolerance of
the cutting plane. -/
def FeasKeeps (K X : Set (Fin n → ℝ)) (Inv : W → Prop) (tol : ℝ) (ω : (Fin n → ℝ) → W → Except PyErr (W × Option ((Fin n → ℝ) × Beta))) : Prop :=
  ∀ x ∈ X, ∀ w, Inv w → (∃ w', ω x w = .ok (w', none)) ∨ ∃ w' g β, ω x w = .ok (w', some (g, .scalar β)) ∧ Inv w' ∧ 0 ≤ β ∧ g ≠ 0 ∧
    ∀ z ∈ K, g ⬝ᵥ (z - x) + β ≤ 0 ∧ tol ≤ 199 / 200 * (g ⬝ᵥ (z - x)) ^ 2

/-- For at most `N` rounds, the centres stay in `X` and the ellipsoids are resolved by the arithmetic. -/
def FeasResolved (N : ℕ) (X : Set (Fin n → ℝ)) (C η u : ℝ) (fl : ℝ → ℝ) (dot : (Fin n → ℝ) → (Fin n → ℝ) → ℝ)
    (ω : (Fin n → ℝ) → W → Except PyErr (W × Option ((Fin n → ℝ) × Beta))) (tol : ℝ) (w₀ : W × Ell n) : Prop :=
  ∀ k log v, k < N → PassingRounds (fun x => liftOracle (ω x)) ((Ell.spaceF fl dot).beside W) tol w₀ k log v → v.2.xc ∈ X ∧ Resolved C η u v.2

/-- **C130** (firm cuts).  As `C130_ball`, for any set `K` instead of a ball and an oracle with state that is only known to work at the points of `X`; no point of `K` is within the
tolerance of a cutting plane.  The run raises nothing and finds a point of `X` the oracle accepts, in at most `N` iterations. -/
theorem C130_firm {X : Set (Fin n → ℝ)} {Inv : W → Prop} {N : ℕ} (hE : E₀.Proper) (hfl : RelErr u fl) (hu0 : 0 ≤ u) (hu : u ≤ ε) (hdot : VecDotErr ε dot)
    (hb : StepBounds n C ε η b l q) (hq : q < 1) (hω : FeasKeeps K X Inv tol ω) (hw₀ : Inv w₀) (hres : FeasResolved N X C η u fl dot ω tol (w₀, E₀))
    (hfat : (lossF n l q + √((8 / 3 * b) ^ n * b)) * volume.real E₀.pts < volume.real (K ∩ E₀.pts))
    (hN : (lossF n l q + q ^ N) * volume.real E₀.pts < volume.real (K ∩ E₀.pts)) {m : Int} (hm : (N : Int) ≤ m) :
    ∃ w' info, cuttingPlaneFeas (fun x => liftOracle (ω x)) ((Ell.spaceF fl dot).beside W) ⟨m, tol⟩ (w₀, E₀) = .ok (w', info) ∧
      info.feasible = true ∧ info.status = .success ∧ info.numIters ≤ N ∧ w'.2.xc ∈ X ∧ ∃ w, Inv w ∧ ω w'.2.xc w = .ok (w'.1, none) := by
  obtain ⟨hl, hq0⟩ := hb.facts (hu0.trans hu)
  have hV : 0 ≤ volume.real E₀.pts := measureReal_nonneg
  let P : ℕ → FeasSt (W × Ell n) → Prop := fun k s => s.feasible = false ∧ s.status = .success ∧ Inv s.w.1 ∧
    LossInv K (volume.real E₀.pts) (volume.real (K ∩ E₀.pts)) l q k s.w.2 ∧
    ∃ log, PassingRounds (fun x => liftOracle (ω x)) ((Ell.spaceF fl dot).beside W) tol (w₀, E₀) k log s.w
  let Q : FeasSt (W × Ell n) → Prop := fun s => s.feasible = true ∧ s.status = .success ∧ s.w.2.xc ∈ X ∧ ∃ w, Inv w ∧ ω s.w.2.xc w = .ok (s.w.1, none)
  have hlt : ∀ k s, P k s → k < N := by
    rintro k s ⟨-, -, -, hi, -⟩
    by_contra hc
    have h1 := hi.bound hV hl hq0 hq
    have h3 := mul_le_mul_of_nonneg_right (pow_le_pow_of_le_one hq0 hq.le (not_lt.1 hc)) hV
    unfold lossF at hN
    linarith
  have hB : ∀ k s, P k s → (k : ℝ) ≤ N - 1 := fun k s h => by
    have : (k : ℝ) + 1 ≤ N := by exact_mod_cast hlt k s h
    linarith
  have hstep : ∀ k s, P k s →
      (∃ s', feasBody (fun x => liftOracle (ω x)) ((Ell.spaceF fl dot).beside W) tol k s = .ok (.brk s') ∧ Q s') ∨
      (∃ s', feasBody (fun x => liftOracle (ω x)) ((Ell.spaceF fl dot).beside W) tol k s = .ok (.cont s') ∧ P (k + 1) s') := by
    intro k s hP
    have hk := hlt k s hP
    obtain ⟨⟨w, E⟩, f, st⟩ := s
    obtain ⟨rfl, rfl, hw, hi, log, hp⟩ := hP
    obtain ⟨hX, hC⟩ := hres k log _ hk hp
    rcases hω E.xc hX w hw with ⟨w', h1⟩ | ⟨w', g, β, h1, h2, h3, hg, hz⟩
    · left
      refine ⟨⟨(w', E), true, .success⟩, ?_, rfl, rfl, hX, w, hw, h1⟩
      simp [feasBody, Space.beside, Ell.spaceF, liftOracle, h1]
    · right
      obtain ⟨E', tsq, k1, k2, k3⟩ := hi.step hV hq hfl hu0 hu hdot hb hC hg h3 (fun z hz' => (hz z hz').1) hfat
      have hpos : 0 < volume.real (K ∩ E.pts) := by
        have e1 := hi.total hV hl hq0 hq
        have e2 : 0 ≤ q ^ N * volume.real E₀.pts := mul_nonneg (pow_nonneg hq0 N) hV
        unfold lossF at hN
        dsimp only at e1
        linarith
      obtain ⟨z, hzK, hzE⟩ : (K ∩ E.pts).Nonempty := by
        by_contra hc
        rw [Set.not_nonempty_iff_eq_empty] at hc
        rw [hc] at hpos
        simp at hpos
      have ht : ¬ tsq < tol := by
        have e1 := (hz z hzK).2
        have e2 := hzE g
        have e3 := (abs_le.1 k2).1
        rw [not_lt]
        dsimp only at e3
        linarith
      refine ⟨⟨(w', E'), false, .success⟩, ?_, rfl, rfl, h2, k3, _, PassingRounds.snoc hp (w1 := (w', E)) (w2 := (w', E')) (c := (g, .scalar β)) (tsq := tsq) ?_ ?_ ht⟩
      · simp [feasBody, Space.beside, Ell.spaceF, liftOracle, h1, k1, ht]
      · simp [Space.beside, Ell.spaceF, liftOracle, h1]
      · simp [Space.beside, Ell.spaceF, k1]
  have h0 : P 0 ⟨(w₀, E₀), false, .success⟩ := ⟨rfl, rfl, hw₀, LossInv.init hE, _, .nil⟩
  have hcast : (N : ℝ) ≤ (m.toNat : ℕ) := by
    have : N ≤ m.toNat := by omega
    exact_mod_cast this
  obtain ⟨s, j, hrun, ⟨h1, h2, h3, h4⟩, hj⟩ := forLoop_finish hstep hB m.toNat 0 none ⟨(w₀, E₀), false, .success⟩ h0 (by push_cast; linarith)
  refine ⟨s.w, ⟨s.feasible, j + 1, s.status⟩, ?_, h1, h2, ?_, h3, h4⟩
  · simp [cuttingPlaneFeas, forRange, hrun, readVar]
  · have : (j : ℝ) + 1 ≤ N := by linarith
    exact_mod_cast this

/-! ### A concrete run in doubles -/

/-- The unit disc. -/
noncomputable def disc : Ell 2 := ⟨true, false, 0, 1, 1⟩

/-- `x₀ ≤ -1/10`; otherwise a central cut. -/
noncomputable def leftOf (x : Fin 2 → ℝ) (_ : Unit) : Except PyErr (Unit × Option ((Fin 2 → ℝ) × Beta)) :=
  if x 0 ≤ -1 / 10 then .ok ((), none) else .ok ((), some (![1, 0], .scalar 0))

theorem diag_cond {Q : Matrix (Fin 2) (Fin 2) ℝ} (h0 : 0 ≤ Q 0 0) (h1 : 0 ≤ Q 1 1) (h : Q 0 1 = 0) (h' : Q 1 0 = 0) : CondBound √2 Q := by
  intro y
  rw [Real.sq_sqrt (by norm_num)]
  have e : y ⬝ᵥ Q *ᵥ y = Q 0 0 * y 0 ^ 2 + Q 1 1 * y 1 ^ 2 := by
    simp only [dotProduct, mulVec, Fin.sum_univ_two, h, h']; ring
  rw [e, Fin.sum_univ_two]
  have a0 := Real.sq_sqrt h0
  have a1 := Real.sq_sqrt h1
  have b0 := sq_abs (y 0)
  have b1 := sq_abs (y 1)
  have := sq_nonneg (√(Q 0 0) * |y 0| - √(Q 1 1) * |y 1|)
  have e0 : (√(Q 0 0) * |y 0|) ^ 2 = Q 0 0 * y 0 ^ 2 := by rw [mul_pow, a0, b0]
  have e1 : (√(Q 1 1) * |y 1|) ^ 2 = Q 1 1 * y 1 ^ 2 := by rw [mul_pow, a1, b1]
  nlinarith

theorem fl_interval {fl : ℝ → ℝ} (hfl : Nearest 53 fl) {x lo hi : ℝ} (h0 : 0 ≤ lo) (h1 : lo ≤ x) (h2 : x ≤ hi) :
    lo * (1 - 1 / 1000) ≤ fl x ∧ fl x ≤ hi * (1 + 1 / 1000) := by
  have h := hfl.relErr x
  rw [abs_of_nonneg (h0.trans h1), abs_le] at h
  have h3 : (1 : ℝ) / 2 ^ 53 * x ≤ 1 / 1000 * x := mul_le_mul_of_nonneg_right (by norm_num) (h0.trans h1)
  constructor <;> nlinarith

/-- The first update of the run. -/
theorem disc_update {fl : ℝ → ℝ} (hfl : Nearest 53 fl) : ∃ E' : Ell 2, updateF fl (vecDot fl) (![1, 0], .scalar 0) disc = .ok (E', .success, 1) ∧
    E'.xc 0 ≤ -1 / 10 ∧ |E'.xc 0| ≤ 1 / 2 ∧ E'.xc 1 = 0 ∧ 1 / 4 ≤ E'.kappa * E'.Q 0 0 ∧ 0 ≤ E'.Q 0 0 ∧ 0 ≤ E'.Q 1 1 ∧ E'.Q 0 1 = 0 ∧ E'.Q 1 0 = 0 := by
  have h0 : fl 0 = 0 := by have := hfl.relErr 0; simpa using this
  have h1 : fl 1 = 1 := hfl.rounding.exact _ (by simpa using rep_int (p := 53) (α := ℝ) (z := 1) (by norm_num))
  have hw : ∀ i, vecDot fl (disc.Q i) ![1, 0] = (![1, 0] : Fin 2 → ℝ) i := fun i => by
    fin_cases i
    · exact vecDot_two hfl (a := 1) (b := 0) (by simp [disc, h1]) (by simp [disc, h0]) (by simp [h1])
    · exact vecDot_two hfl (a := 0) (b := 0) (by simp [disc, h0]) (by simp [disc, h0]) (by simp [h0])
  have ho : vecDot fl ![1, 0] (![1, 0] : Fin 2 → ℝ) = 1 := vecDot_two hfl (a := 1) (b := 0) (by simp [h1]) (by simp [h0]) (by simp [h1])
  have hc : calcDcF fl 2 (fl (disc.kappa * 1)) 0 = .ok (calcCcF fl 2 1, 1) := by
    have e : fl (disc.kappa * 1) = 1 := by simp [disc, h1]
    rw [e]
    have hs : sqrtF fl 1 = .ok 1 := by
      unfold sqrtF; rw [pySqrt_ok.2 ⟨zero_le_one, rfl⟩, Real.sqrt_one]; change Except.ok (fl 1) = _; rw [h1]
    simp only [calcDcF, hs]
    rw [if_neg (by rw [sub_zero, h1]; norm_num), if_pos trivial]
  have hu := updateF_central (E := disc) hw ho one_ne_zero hc rfl
  refine ⟨_, hu, ?_⟩
  simp only [disc, Pi.zero_apply, Matrix.cons_val_zero, Matrix.cons_val_one, mul_one, mul_zero, h0, h1, sub_zero, zero_sub, one_mul, div_one,
    one_apply_eq, one_apply_ne (zero_ne_one' (Fin 2)), one_apply_ne (zero_ne_one' (Fin 2)).symm]
  obtain ⟨a1, a2⟩ := fl_interval hfl (x := 1 / ((2 : ℕ) + 1)) (lo := 1 / 3) (hi := 1 / 3) (by norm_num) (by norm_num) (by norm_num)
  obtain ⟨b1, b2⟩ := fl_interval hfl (by norm_num) a1 a2
  obtain ⟨d1, d2⟩ := fl_interval hfl (by norm_num) b1 b2
  have hx := hfl.relErr (-fl (fl (fl (1 / ((2 : ℕ) + 1)))))
  rw [abs_neg, abs_of_nonneg (by linarith : 0 ≤ fl (fl (fl (1 / (((2 : ℕ) : ℝ) + 1))))), abs_le] at hx
  have hx' : (1 : ℝ) / 2 ^ 53 * fl (fl (fl (1 / ((2 : ℕ) + 1)))) ≤ 1 / 1000 * fl (fl (fl (1 / ((2 : ℕ) + 1)))) :=
    mul_le_mul_of_nonneg_right (by norm_num) (by linarith)
  have c2e : c2F fl 2 = fl (2 / 3) := by unfold c2F; norm_num
  obtain ⟨e1, e2⟩ := fl_interval hfl (x := 2 / 3) (lo := 2 / 3) (hi := 2 / 3) (by norm_num) le_rfl le_rfl
  obtain ⟨f1, f2⟩ := fl_interval hfl (by norm_num) e1 e2
  obtain ⟨g1, g2⟩ := fl_interval hfl (by norm_num) f1 f2
  rw [c2e]
  obtain ⟨i1, i2⟩ := fl_interval hfl (x := 1 - fl (fl (fl (2 / 3)))) (lo := 3 / 10) (hi := 1 / 2) (by norm_num) (by linarith) (by linarith)
  have hc1 : c1F fl 2 = fl (4 / fl 3) := by unfold c1F; norm_num
  obtain ⟨j1, j2⟩ := fl_interval hfl (x := 3) (lo := 3) (hi := 3) (by norm_num) le_rfl le_rfl
  have hj0 : 0 < fl 3 := by linarith
  obtain ⟨k1, -⟩ := fl_interval hfl (x := 4 / fl 3) (lo := 13 / 10) (hi := 4 / fl 3) (by norm_num) (by rw [le_div_iff₀ hj0]; linarith) le_rfl
  obtain ⟨l1, -⟩ := fl_interval hfl (x := fl (4 / fl 3)) (by norm_num) k1 le_rfl
  rw [hc1]
  refine ⟨by linarith, ?_, trivial, ?_, by linarith, zero_le_one, trivial, trivial⟩
  · rw [abs_le]; constructor <;> linarith
  · have := mul_le_mul l1 i1 (by norm_num) (by linarith)
    linarith

theorem disc_is_resolved : Resolved √2 (1 / 2 ^ 53) (1 / 2 ^ 53) disc := by
  refine ⟨diag_cond (by simp [disc]) (by simp [disc]) (by simp [disc]) (by simp [disc]), fun i => ?_⟩
  simp only [disc, Pi.zero_apply, abs_zero, mul_zero]
  positivity

theorem step_is_resolved {E' : Ell 2} (h3 : |E'.xc 0| ≤ 1 / 2) (h4 : E'.xc 1 = 0) (h5 : 1 / 4 ≤ E'.kappa * E'.Q 0 0)
    (h6 : 0 ≤ E'.Q 0 0) (h7 : 0 ≤ E'.Q 1 1) (h8 : E'.Q 0 1 = 0) (h9 : E'.Q 1 0 = 0) :
    Resolved √2 (1 / 2 ^ 53) (1 / 2 ^ 53) E' := by
  refine ⟨diag_cond h6 h7 h8 h9, fun i => ?_⟩
  refine mul_le_mul_of_nonneg_left ?_ (by positivity)
  fin_cases i
  · refine h3.trans (Real.le_sqrt_of_sq_le ?_)
    norm_num at h5 ⊢
    exact h5
  · simp [h4]

theorem disc_resolved {fl : ℝ → ℝ} (hfl : Nearest 53 fl) {tol : ℝ} :
    RunResolved √2 (1 / 2 ^ 53) (1 / 2 ^ 53) fl (vecDot fl) leftOf tol ((), disc) := by
  intro k log v hp
  obtain ⟨E', h1, h2, h3, h4, h5, h6, h7, h8, h9⟩ := disc_update hfl
  have key : v.2 = disc ∨ v.2 = E' := by
    induction hp with
    | nil => exact .inl rfl
    | @snoc k log w w1 w2 c tsq hp hq1 hu1 ht ih =>
      obtain ⟨k1, k2, -⟩ := round_split hq1 hu1
      right
      rcases ih with ih | ih
      · rw [ih] at k1 k2
        unfold leftOf at k1
        split_ifs at k1
        · simp at k1
        · simp only [Except.ok.injEq, Prod.mk.injEq, Option.some.injEq, true_and] at k1
          rw [← k1, h1] at k2
          simp only [Except.ok.injEq, Prod.mk.injEq] at k2
          exact k2.1.symm
      · rw [ih] at k1
        unfold leftOf at k1
        rw [if_pos h2] at k1
        simp at k1
  rcases key with key | key <;> rw [key]
  · exact disc_is_resolved
  · exact step_is_resolved h3 h4 h5 h6 h7 h8 h9

/-- Concrete: doubles, the unit disc, and the oracle `leftOf`, whose cuts keep the disc of radius `2/5` about `(-1/2, 0)`: in at most 20 iterations a point is
found. -/
example {fl : ℝ → ℝ} (hfl : Nearest 53 fl) : ∃ w' info,
    cuttingPlaneFeas (fun x => liftOracle (leftOf x)) ((Ell.spaceF fl (vecDot fl)).beside Unit) ⟨2000, 1 / 10 ^ 8⟩ ((), disc) = .ok (w', info) ∧
      info.feasible = true ∧ info.status = .success ∧ info.numIters ≤ 20 ∧ w'.2.xc 0 ≤ -1 / 10 := by
  obtain ⟨h1, h2, h3⟩ := C117_double (n := 2) hfl (by norm_num)
  have h4 : (√2) ^ 4 = (4 : ℝ) := by
    rw [show (4 : ℕ) = 2 * 2 by rfl, pow_mul, Real.sq_sqrt (by norm_num)]; norm_num
  have hs2 : √2 ≤ 3 / 2 := by rw [Real.sqrt_le_left (by norm_num)]; norm_num
  have hP : disc.Proper := ⟨le_rfl, PosDef.one, one_pos⟩
  have hv : disc.vsq = 1 := by simp [disc, Ell.vsq]
  have hb : StepBounds 2 √2 (2 * ((2 : ℕ) + 1) / 2 ^ 53) (1 / 2 ^ 53) (1 / 10) (1 + 1 / 10 ^ 9) (9 / 10) := by
    refine ⟨by norm_num, by norm_num, by rw [Real.one_le_sqrt]; norm_num, by positivity, by rw [h4]; norm_num, ?_, ?_⟩
    · rw [h4]; norm_num; linarith
    · rw [h4]
      rw [Real.sqrt_sq (by norm_num)]
      have h5 : Real.exp (-(1 / (2 * (((2 : ℕ) : ℝ) + 1)))) ≤ 6 / 7 := by
        rw [Real.exp_neg, inv_le_comm₀ (Real.exp_pos _) (by norm_num)]
        have := Real.add_one_le_exp (1 / (2 * (((2 : ℕ) : ℝ) + 1)))
        norm_num at this ⊢
        linarith
      refine (mul_le_mul_of_nonneg_left h5 (by norm_num)).trans ?_
      norm_num
  have hball : ∀ z ∈ euclBall (![-1 / 2, 0] : Fin 2 → ℝ) (2 / 5), (z 0 + 1 / 2) ^ 2 + z 1 ^ 2 ≤ 4 / 25 := fun z hz => by
    have hz : ∑ i, (z i - (![-1 / 2, 0] : Fin 2 → ℝ) i) ^ 2 ≤ (2 / 5) ^ 2 := hz
    rw [Fin.sum_univ_two] at hz
    simp only [Matrix.cons_val_zero, Matrix.cons_val_one] at hz
    norm_num at hz ⊢
    linarith
  have hz0 : ∀ z ∈ euclBall (![-1 / 2, 0] : Fin 2 → ℝ) (2 / 5), z 0 ≤ -1 / 10 ∧ -9 / 10 ≤ z 0 := fun z hz => by
    have := hball z hz
    constructor <;> nlinarith [sq_nonneg (z 1)]
  have hloss : lossF 2 (1 + 1 / 10 ^ 9) (9 / 10) ≤ 1 / 100 := by unfold lossF; norm_num
  obtain ⟨w', info, k1, k2, k3, k4, w, k5⟩ := C130_ball (W := Unit) (w₀ := ()) (E₀ := disc) (a := ![-1 / 2, 0]) (r := 2 / 5) (ω := leftOf) (tol := 1 / 10 ^ 8) (N := 20) (m := 2000)
    hP h1 (by positivity) h2 h3 hb (by norm_num) (by norm_num) (fun z hz => by
      have h6 := hball z hz
      have h7 := hz0 z hz
      have : disc = ⟨true, false, 0, 1, 1 ^ 2⟩ := by simp [disc]
      rw [this, euclBall_eq_pts le_rfl]
      change ∑ i, (z i - (0 : Fin 2 → ℝ) i) ^ 2 ≤ 1 ^ 2
      rw [Fin.sum_univ_two]
      simp only [Pi.zero_apply, sub_zero]
      nlinarith) (fun x w => by
      unfold leftOf
      split_ifs with hx
      · exact .inl ⟨(), rfl⟩
      · refine .inr ⟨(), ![1, 0], 0, rfl, fun z hz => ?_, le_rfl, by simp⟩
        have := (hz0 z hz).1
        change ![1, 0] ⬝ᵥ (z - x) + 0 ≤ 0
        rw [dotProduct, Fin.sum_univ_two]
        simp only [Matrix.cons_val_zero, Matrix.cons_val_one, Pi.sub_apply]
        linarith) (disc_resolved hfl) (by norm_num) (by
      rw [hv, Real.sqrt_one, mul_one]
      have h6 : √((8 / 3 * (1 / 10 : ℝ)) ^ 2 * (1 / 10)) ≤ 1 / 10 := by rw [Real.sqrt_le_left (by norm_num)]; norm_num
      norm_num at h6 hloss ⊢
      linarith) (by
      rw [hv, Real.sqrt_one, mul_one]
      norm_num at hloss ⊢
      linarith) (by
      rw [hv, Real.sqrt_one, mul_one]
      have h6 : √(4 * ((2 : ℕ) : ℝ) * (1 / 10 ^ 8)) ≤ 1 / 1000 := by rw [Real.sqrt_le_left (by norm_num)]; norm_num
      norm_num at h6 hloss ⊢
      linarith)
  refine ⟨w', info, k1, k2, k3, k4, ?_⟩
  unfold leftOf at k5
  split_ifs at k5 with h
  · exact h
  · simp at k5

end Verif
