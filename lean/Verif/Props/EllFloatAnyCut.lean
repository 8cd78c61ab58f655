import Verif.Props.EllFloatSure
import Verif.Proofs.EllFloatParRun

/-!
# C134: runs with rounded ellipsoids and cuts of any kind

C130 to C133 treat oracles whose cuts are single.  Here the cuts may also be parallel, a pair of values; the width of the slab enters in the same way as the depth of the cut:
a slab too thin for the arithmetic contains too little of the ellipsoid to keep `K`.
-/
namespace Verif
open Matrix MeasureTheory Ell FloatSpec
variable {n : ℕ} {θ C ε u η l q : ℝ} {fl : ℝ → ℝ} {dot : (Fin n → ℝ) → (Fin n → ℝ) → ℝ} {W : Type _}
  {ω : (Fin n → ℝ) → W → Except PyErr (W × Option ((Fin n → ℝ) × Beta))} {K X : Set (Fin n → ℝ)} {Inv : W → Prop} {tol : ℝ} {w₀ : W} {E₀ : Ell n}
  {A L₀ L v : ℝ} {N : ℕ}

/-- **C134** (one update).  If the cut is neither deeper than `(1 - θ)τ` nor, when it is parallel, thinner than `θτ`, the update succeeds, with `tsq` right up to `5C²ε`; the points that satisfy the cut and
are lost have at most `lⁿ - 1` times the volume of the new ellipsoid, and this is at most `q` times that of the old one; no half-axis is more than doubled.  If it is deeper or thinner,
the points that satisfy it have at most `√((8θ/3)ⁿ θ)` or `√(3n/4)·θ` times the volume of the ellipsoid. -/
theorem C134_update {E : Ell n} {g : Fin n → ℝ} {be : Beta} (hE : E.Proper) (hfl : RelErr u fl) (hu0 : 0 ≤ u) (hu : u ≤ ε) (hdot : VecDotErr ε dot)
    (hb : CutBounds n C ε η θ l q) (hC : Resolved C η u E) (hg : g ≠ 0) :
    (Reach θ √(E.kappa * (g ⬝ᵥ E.Q *ᵥ g)) be → ∃ E' tsq, updateF fl dot (g, be) E = .ok (E', .success, tsq) ∧ E'.Proper ∧
      |tsq - E.kappa * (g ⬝ᵥ E.Q *ᵥ g)| ≤ 5 * (C ^ 2 * ε) * (E.kappa * (g ⬝ᵥ E.Q *ᵥ g)) ∧
      volume.real ((E.pts ∩ cutSet E.xc (g, be)) \ E'.pts) ≤ (l ^ n - 1) * volume.real E'.pts ∧ volume.real E'.pts ≤ q * volume.real E.pts ∧
      ∀ y, E'.kappa * (y ⬝ᵥ E'.Q *ᵥ y) ≤ 4 * (E.kappa * (y ⬝ᵥ E.Q *ᵥ y))) ∧
    (∀ β, (1 - θ) * √(E.kappa * (g ⬝ᵥ E.Q *ᵥ g)) ≤ β →
      volume.real (E.pts ∩ cutSet E.xc (g, .scalar β)) ≤ √((8 / 3 * θ) ^ n * θ) * volume.real E.pts) ∧
    (∀ b0 b1 bs, b1 ≤ b0 + θ * √(E.kappa * (g ⬝ᵥ E.Q *ᵥ g)) →
      volume.real (E.pts ∩ cutSet E.xc (g, .seq (b0 :: b1 :: bs))) ≤ √(3 * n / 4) * θ * volume.real E.pts) := by
  refine ⟨fun h => ?_, fun β h => cap_vol hE hg hb.t0 hb.t1 h, fun b0 b1 bs h => thin_vol hE hg hb.t0 h⟩
  obtain ⟨E', tsq, k1, k2⟩ := cut_ok hE hfl hu0 hu hdot hb.C1 hC.1 hg hb.t0 hb.eps h
  exact ⟨E', tsq, k1, k2.proper, k2.tau, k2.lost hE (hu0.trans hu) hb hC, k2.vol.trans (mul_le_mul_of_nonneg_right hb.ratio measureReal_nonneg), k2.up⟩

/-- What a cut has to do for the run to go on: it is central or deep, keeps `K`, and no point of `K` is within the tolerance of the (first) cutting plane. -/
def CutOK (K : Set (Fin n → ℝ)) (tol : ℝ) (x : Fin n → ℝ) (c : (Fin n → ℝ) × Beta) : Prop :=
  deepBeta c.2 ∧ c.1 ≠ 0 ∧ ∀ z ∈ K, z ∈ cutSet x c ∧ tol ≤ 199 / 200 * (c.1 ⬝ᵥ (z - x)) ^ 2

/-- `FeasKeeps` for cuts of any kind. -/
def FeasKeepsAny (K X : Set (Fin n → ℝ)) (Inv : W → Prop) (tol : ℝ) (ω : (Fin n → ℝ) → W → Except PyErr (W × Option ((Fin n → ℝ) × Beta))) : Prop :=
  ∀ x ∈ X, ∀ w, Inv w → (∃ w', ω x w = .ok (w', none)) ∨ ∃ w' c, ω x w = .ok (w', some c) ∧ Inv w' ∧ CutOK K tol x c

/-- `DcKeeps` for cuts of any kind; the invariant may mention the level. -/
structure DcKeepsAny {T : Type _} (K X : Set (Fin n → ℝ)) (Inv : W → T → Prop) (Bad : T → Prop) (tol : ℝ)
    (Ω : (Fin n → ℝ) → T → W → Except PyErr (W × ((Fin n → ℝ) × Beta) × Option T)) : Prop where
  mono : ∀ x t w w' c t1, Inv w t → Ω x t w = .ok (w', c, t1) → Inv w' (t1.getD t) ∧ (Bad (t1.getD t) → Bad t)
  cuts : ∀ x ∈ X, ∀ t w, Inv w t → Bad t → ∃ w' c t1, Ω x t w = .ok (w', c, t1) ∧ (Bad (t1.getD t) → CutOK K tol x c)

/-- What has to be known in advance, as in `Sure`. -/
structure SureAny (n N : ℕ) (E₀ : Ell n) (K X : Set (Fin n → ℝ)) (C ε η u θ l q A L₀ L v : ℝ) : Prop where
  bounds : CutBounds n C ε η θ l q
  lt : q < 1
  start : E₀.Within L₀
  width : L₀ * 4 ^ N ≤ L
  L0 : 0 < L
  v0 : 0 < v
  fat : (lossF n l q + thinF n θ) * volume.real E₀.pts < volume.real (K ∩ E₀.pts)
  left : v * volume.real (euclBall (0 : Fin n → ℝ) 1) + lossF n l q * volume.real E₀.pts ≤ volume.real (K ∩ E₀.pts)
  cond : n * L ^ n ≤ C ^ 2 * v ^ 2
  coord : ∀ z ∈ K, ∀ i, |z i| ≤ A
  centre : u * (A + √L) * √(L ^ (n - 1)) ≤ η * v
  inside : ∀ x : Fin n → ℝ, (∀ i, |x i| ≤ A + √L) → x ∈ X
  rounds : (lossF n l q + q ^ N) * volume.real E₀.pts < volume.real (K ∩ E₀.pts)

/-- What holds after `k` rounds: little of `K` is lost and the ellipsoid is not too wide. -/
def Kept (E₀ : Ell n) (K : Set (Fin n → ℝ)) (l q L₀ : ℝ) (k : ℕ) (E : Ell n) : Prop :=
  LossInv K (volume.real E₀.pts) (volume.real (K ∩ E₀.pts)) l q k E ∧ E.Within (L₀ * 4 ^ k)

section
variable (hs : SureAny n N E₀ K X C ε η u θ l q A L₀ L v) (hE : E₀.Proper) (hfl : RelErr u fl) (hu0 : 0 ≤ u) (hu : u ≤ ε) (hdot : VecDotErr ε dot)

include hs hE in
theorem SureAny.init : Kept E₀ K l q L₀ 0 E₀ := ⟨LossInv.init hE, by simpa using hs.start⟩

include hs hu0 hu

theorem SureAny.few {k : ℕ} {E : Ell n} (hi : Kept E₀ K l q L₀ k E) : k < N := by
  obtain ⟨hl, hq0⟩ := hs.bounds.facts (hu0.trans hu)
  have hV : 0 ≤ volume.real E₀.pts := measureReal_nonneg
  by_contra hc
  have h1 := hi.1.bound hV hl hq0 hs.lt
  have h2 := mul_le_mul_of_nonneg_right (pow_le_pow_of_le_one hq0 hs.lt.le (not_lt.1 hc)) hV
  have h3 := hs.rounds
  unfold lossF at h3
  linarith

include hE in
theorem SureAny.resolved {k : ℕ} {E : Ell n} (hi : Kept E₀ K l q L₀ k E) : (K ∩ E.pts).Nonempty ∧ E.xc ∈ X ∧ Resolved C η u E := by
  have hk := (hs.few hu0 hu hi).le
  obtain ⟨hi, hw⟩ := hi
  obtain ⟨hl, hq0⟩ := hs.bounds.facts (hu0.trans hu)
  have hL00 : 0 < L₀ := by
    have h0 := hE.dim
    have h1 := within_diag hs.start (⟨0, by omega⟩ : Fin n)
    have h2 := mul_pos hE.kappa (hE.pd.diag_pos (i := (⟨0, by omega⟩ : Fin n)))
    linarith
  have hL : E.Within L := fun y => (hw y).trans (mul_le_mul_of_nonneg_right
    ((mul_le_mul_of_nonneg_left (pow_le_pow_right₀ (by norm_num) hk) hL00.le).trans hs.width) (Finset.sum_nonneg fun i _ => mul_self_nonneg (y i)))
  have h1 : v * volume.real (euclBall (0 : Fin n → ℝ) 1) ≤ volume.real (K ∩ E.pts) := by
    have h1 := hi.total measureReal_nonneg hl hq0 hs.lt
    have h2 := hs.left
    unfold lossF at h2
    linarith
  have hB := euclBall_real_pos (n := n)
  have h2 : v ≤ √E.vsq := by
    have h2 : volume.real (K ∩ E.pts) ≤ volume.real E.pts := measureReal_mono Set.inter_subset_right (volume_pts_ne_top hi.proper)
    rw [vol_pts hi.proper] at h2
    exact le_of_mul_le_mul_right (h1.trans h2) hB
  have h3 : v ^ 2 ≤ E.vsq := (Real.le_sqrt hs.v0.le (vsq_pos hi.proper).le).1 h2
  have hne : (K ∩ E.pts).Nonempty := by
    by_contra hc
    rw [Set.not_nonempty_iff_eq_empty.1 hc, measureReal_empty] at h1
    linarith [mul_pos hs.v0 hB]
  obtain ⟨z, hz1, hz2⟩ := hne
  have h4 : ∀ i, |E.xc i| ≤ A + √L := fun i => by
    have := within_centre hL hz2 i
    have := hs.coord z hz1 i
    linarith
  exact ⟨⟨z, hz1, hz2⟩, hs.inside _ h4, within_resolved hi.proper hL hs.L0 hu0 hs.bounds.eta hs.v0 h3 hs.cond h4 hs.centre⟩

include hE hfl hdot

/-- One round. -/
theorem SureAny.step {k : ℕ} {E : Ell n} {c : (Fin n → ℝ) × Beta} (hi : Kept E₀ K l q L₀ k E) (hc : CutOK K tol E.xc c) :
    ∃ E' tsq, updateF fl dot c E = .ok (E', .success, tsq) ∧ ¬ tsq < tol ∧ Kept E₀ K l q L₀ (k + 1) E' := by
  obtain ⟨g, be⟩ := c
  obtain ⟨h1, h2, h3⟩ := hc
  obtain ⟨⟨z, hz1, hz2⟩, -, hr⟩ := hs.resolved hE hu0 hu hi
  obtain ⟨E', tsq, k1, k2, k3, k4⟩ := hi.1.cut measureReal_nonneg hs.lt hfl hu0 hu hdot hs.bounds hr h2 h1 (fun z hz => (h3 z hz).1) hs.fat
  refine ⟨E', tsq, k1, ?_, k3, ?_⟩
  · have e1 := (h3 z hz1).2
    have e2 := hz2 g
    have e3 := (abs_le.1 k2).1
    dsimp only at e1
    rw [not_lt]
    linarith
  · have := k4 _ hi.2
    rwa [mul_assoc, ← pow_succ] at this

/-- **C134** (what a run loses).  While the oracle's cuts keep `K`, after `k` rounds the ellipsoid is proper, has at most `qᵏ` times the volume of the first, has lost at most `loss` times that
volume of `K`, and no half-axis is longer than `√(L₀·4ᵏ)`; and `k < N`. -/
theorem C134_rounds (hω : FeasKeepsAny K X Inv tol ω) (hw₀ : Inv w₀) {k : ℕ} {log} {p : W × Ell n}
    (h : PassingRounds (fun x => liftOracle (ω x)) ((Ell.spaceF fl dot).beside W) tol (w₀, E₀) k log p) :
    k < N ∧ p.2.Proper ∧ volume.real p.2.pts ≤ q ^ k * volume.real E₀.pts ∧
      volume.real (K ∩ E₀.pts) ≤ volume.real (K ∩ p.2.pts) + lossF n l q * volume.real E₀.pts ∧ p.2.Within (L₀ * 4 ^ k) := by
  have key : Inv p.1 ∧ Kept E₀ K l q L₀ k p.2 := by
    induction h with
    | nil => exact ⟨hw₀, hs.init hE⟩
    | @snoc k log w w1 w2 c tsq hp hq1 hu1 ht ih =>
      obtain ⟨i1, i2⟩ := ih
      obtain ⟨h1, h2, h3⟩ := round_split hq1 hu1
      rcases hω _ (hs.resolved hE hu0 hu i2).2.1 _ i1 with ⟨w', h4⟩ | ⟨w', c', h4, h5, h6⟩
      · rw [h1] at h4; simp at h4
      · rw [h1] at h4
        simp only [Except.ok.injEq, Prod.mk.injEq, Option.some.injEq] at h4
        obtain ⟨rfl, rfl⟩ := h4
        obtain ⟨E', tsq', k1, -, k2⟩ := hs.step hE hfl hu0 hu hdot i2 h6
        rw [h2] at k1
        simp only [Except.ok.injEq, Prod.mk.injEq] at k1
        rw [k1.1]
        exact ⟨h3 ▸ h5, k2⟩
  obtain ⟨-, hi⟩ := key
  obtain ⟨hl, hq0⟩ := hs.bounds.facts (hu0.trans hu)
  exact ⟨hs.few hu0 hu hi, hi.1.proper, hi.1.vol, hi.1.total measureReal_nonneg hl hq0 hs.lt, hi.2⟩

/-- **C134** (finding a point).  With an oracle whose cuts, single or parallel, keep `K` by more than the tolerance, the run raises nothing and within `N` iterations finds a point of `X` the
oracle accepts.  All assumptions are about the problem, the first ellipsoid and the precision. -/
theorem C134_feas (hω : FeasKeepsAny K X Inv tol ω) (hw₀ : Inv w₀) {m : Int} (hm : (N : Int) ≤ m) :
    ∃ w' info, cuttingPlaneFeas (fun x => liftOracle (ω x)) ((Ell.spaceF fl dot).beside W) ⟨m, tol⟩ (w₀, E₀) = .ok (w', info) ∧
      info.feasible = true ∧ info.status = .success ∧ info.numIters ≤ N ∧ w'.2.xc ∈ X ∧ ∃ w, Inv w ∧ ω w'.2.xc w = .ok (w'.1, none) := by
  let P : ℕ → FeasSt (W × Ell n) → Prop := fun k s => s.feasible = false ∧ s.status = .success ∧ Inv s.w.1 ∧ Kept E₀ K l q L₀ k s.w.2
  let Q : FeasSt (W × Ell n) → Prop := fun s => s.feasible = true ∧ s.status = .success ∧ s.w.2.xc ∈ X ∧ ∃ w, Inv w ∧ ω s.w.2.xc w = .ok (s.w.1, none)
  have hB : ∀ k s, P k s → (k : ℝ) ≤ N - 1 := by
    rintro k s ⟨-, -, -, hi⟩
    have : (k : ℝ) + 1 ≤ N := by exact_mod_cast hs.few hu0 hu hi
    linarith
  have hstep : ∀ k s, P k s →
      (∃ s', feasBody (fun x => liftOracle (ω x)) ((Ell.spaceF fl dot).beside W) tol k s = .ok (.brk s') ∧ Q s') ∨
      (∃ s', feasBody (fun x => liftOracle (ω x)) ((Ell.spaceF fl dot).beside W) tol k s = .ok (.cont s') ∧ P (k + 1) s') := by
    rintro k ⟨⟨w, E⟩, f, st⟩ ⟨rfl, rfl, hiv, hi⟩
    have hX := (hs.resolved hE hu0 hu hi).2.1
    rcases hω E.xc hX w hiv with ⟨w', h1⟩ | ⟨w', c, h1, h2, h3⟩
    · left
      refine ⟨⟨(w', E), true, .success⟩, ?_, rfl, rfl, hX, w, hiv, h1⟩
      simp [feasBody, Space.beside, Ell.spaceF, liftOracle, h1]
    · right
      obtain ⟨E', tsq, k1, k2, k3⟩ := hs.step hE hfl hu0 hu hdot hi h3
      refine ⟨⟨(w', E'), false, .success⟩, ?_, rfl, rfl, h2, k3⟩
      simp [feasBody, Space.beside, Ell.spaceF, liftOracle, h1, k1, k2]
  have hP0 : P 0 ⟨(w₀, E₀), false, .success⟩ := ⟨rfl, rfl, hw₀, hs.init hE⟩
  have hcast : (N : ℝ) ≤ (m.toNat : ℕ) := by
    have : N ≤ m.toNat := by omega
    exact_mod_cast this
  obtain ⟨s, j, hrun, ⟨h1, h2, h3, h4⟩, hj⟩ := forLoop_finish hstep hB m.toNat 0 none _ hP0 (by push_cast; linarith)
  refine ⟨s.w, ⟨s.feasible, j + 1, s.status⟩, ?_, h1, h2, ?_, h3, h4⟩
  · simp [cuttingPlaneFeas, forRange, hrun, readVar]
  · have : (j : ℝ) + 1 ≤ N := by linarith
    exact_mod_cast this

end

/-! ### Optimization -/

section
variable {T : Type _} {Ω : (Fin n → ℝ) → T → W → Except PyErr (W × ((Fin n → ℝ) × Beta) × Option T)} {Inv : W → T → Prop} {Bad : T → Prop} {t0 : T}
variable (hs : SureAny n N E₀ K X C ε η u θ l q A L₀ L v) (hE : E₀.Proper) (hfl : RelErr u fl) (hu0 : 0 ≤ u) (hu : u ≤ ε) (hdot : VecDotErr ε dot)
include hs hE hu0 hu hfl hdot

theorem dcAny_kept (hΩ : DcKeepsAny K X Inv Bad tol Ω) (hw₀ : Inv w₀ t0) {k : ℕ} {log} {p : W × Ell n}
    (h : DcRounds (fun x t => liftOracle (Ω x t)) ((Ell.spaceF fl dot).beside W) tol t0 (w₀, E₀) k log p) :
    Inv p.1 (bestT t0 log) ∧ (Bad (bestT t0 log) → Kept E₀ K l q L₀ k p.2) := by
  induction h with
  | nil => exact ⟨hw₀, fun _ => hs.init hE⟩
  | @snoc k log w w1 w2 c t1 tsq hp hq1 hu1 ht ih =>
    obtain ⟨h1, h2, h3⟩ := round_split_dc hq1 hu1
    obtain ⟨hiv, ih⟩ := ih
    obtain ⟨m1, m2⟩ := hΩ.mono _ _ _ _ _ _ hiv h1
    rw [bestT_snoc]
    refine ⟨h3 ▸ m1, fun hbad => ?_⟩
    have hi := ih (m2 hbad)
    obtain ⟨w', c', t1', k1, k2⟩ := hΩ.cuts _ (hs.resolved hE hu0 hu hi).2.1 _ _ hiv (m2 hbad)
    rw [h1] at k1
    simp only [Except.ok.injEq, Prod.mk.injEq] at k1
    obtain ⟨-, rfl, rfl⟩ := k1
    obtain ⟨E', tsq', k6, -, k7⟩ := hs.step hE hfl hu0 hu hdot hi (k2 hbad)
    rw [h2] at k6
    simp only [Except.ok.injEq, Prod.mk.injEq] at k6
    rw [k6.1]
    exact k7

/-- **C134** (the level reached).  While the level is bad the cuts, single or parallel, keep `K`.  Then a run with `max_it ≥ N` that returns does not return a bad level, and a level that is not bad is
reported within the first `N` oracle calls, before which no exception is raised. -/
theorem C134_dc [DecidableEq T] (hΩ : DcKeepsAny K X Inv Bad tol Ω) (hw₀ : Inv w₀ t0) :
    (∀ m : Int, (N : Int) ≤ m → ∀ w' xb t info, cuttingPlaneDc (fun x t => liftOracle (Ω x t)) ((Ell.spaceF fl dot).beside W) t0 ⟨m, tol⟩ (w₀, E₀) =
      .ok (w', xb, t, info) → ¬ Bad t) ∧
    (Bad t0 → ∃ (k : ℕ) (log : _) (p : W × Ell n) (w' : W) (c : _) (t1 : _), k < N ∧
      DcRounds (fun x t => liftOracle (Ω x t)) ((Ell.spaceF fl dot).beside W) tol t0 (w₀, E₀) k log p ∧
      Ω p.2.xc (bestT t0 log) p.1 = .ok (w', c, t1) ∧ ¬ Bad (t1.getD (bestT t0 log))) := by
  have hinv := fun {k log p} => dcAny_kept (k := k) (log := log) (p := p) (t0 := t0) hs hE hfl hu0 hu hdot hΩ hw₀
  constructor
  · intro m hm w' xb t info h hbad
    obtain ⟨s, i, hf, rfl, rfl, rfl, rfl⟩ := dc_ok h
    rcases forRange_ok hf with ⟨s1, hi, hr, hbr⟩ | ⟨hi, hr⟩
    · obtain ⟨log, hp, ht⟩ := rounds_dc hr
      obtain ⟨w1, c, t1, w2, st, tsq, hq1, hu1, hcase⟩ := dcBody_brk hbr
      obtain ⟨h1, h2, h3⟩ := round_split_dc hq1 hu1
      have hst : s.t = t1.getD s1.t := by
        rcases hcase with ⟨-, rfl⟩ | ⟨-, -, rfl⟩ <;> cases t1 <;> rfl
      rw [hst] at hbad
      obtain ⟨hiv, hil⟩ := hinv hp
      rw [← ht] at hiv
      have hbad' := (hΩ.mono _ _ _ _ _ _ hiv h1).2 hbad
      have hil := hil (ht ▸ hbad')
      obtain ⟨w', c', t1', k1, k2⟩ := hΩ.cuts _ (hs.resolved hE hu0 hu hil).2.1 _ _ hiv hbad'
      rw [h1] at k1
      simp only [Except.ok.injEq, Prod.mk.injEq] at k1
      obtain ⟨-, rfl, rfl⟩ := k1
      obtain ⟨E', tsq', k6, k7, -⟩ := hs.step hE hfl hu0 hu hdot hil (k2 hbad)
      rw [h2] at k6
      simp only [Except.ok.injEq, Prod.mk.injEq] at k6
      obtain ⟨-, rfl, rfl⟩ := k6
      rcases hcase with ⟨h, -⟩ | ⟨-, h, -⟩
      · exact h rfl
      · exact k7 h
    · obtain ⟨log, hp, ht⟩ := rounds_dc hr
      have := hs.few hu0 hu ((hinv hp).2 (ht ▸ hbad))
      dsimp only at hi
      omega
  · intro hbad0
    by_contra hno
    have hno : ∀ (k : ℕ) log (p : W × Ell n) w' c t1, k < N →
        DcRounds (fun x t => liftOracle (Ω x t)) ((Ell.spaceF fl dot).beside W) tol t0 (w₀, E₀) k log p →
        Ω p.2.xc (bestT t0 log) p.1 = .ok (w', c, t1) → Bad (t1.getD (bestT t0 log)) := by
      intro k log p w' c t1 h1 h2 h3
      by_contra h4
      exact hno ⟨k, log, p, w', c, t1, h1, h2, h3, h4⟩
    have all : ∀ k : ℕ, ∃ log p, DcRounds (fun x t => liftOracle (Ω x t)) ((Ell.spaceF fl dot).beside W) tol t0 (w₀, E₀) k log p ∧ Bad (bestT t0 log) := by
      intro k
      induction k with
      | zero => exact ⟨[], _, .nil, hbad0⟩
      | succ k ih =>
        obtain ⟨log, p, hp, hbad⟩ := ih
        obtain ⟨hiv, hil⟩ := hinv hp
        have hil := hil hbad
        have hk := hs.few hu0 hu hil
        obtain ⟨w', c, t1, k1, k2⟩ := hΩ.cuts _ (hs.resolved hE hu0 hu hil).2.1 _ _ hiv hbad
        have hbad1 := hno _ _ _ _ _ _ hk hp k1
        obtain ⟨E', tsq', k6, k7, -⟩ := hs.step hE hfl hu0 hu hdot hil (k2 hbad1)
        refine ⟨_, (w', E'), .snoc hp (w1 := (w', p.2)) (c := c) (t1 := t1) (tsq := tsq') ?_ ?_ k7, ?_⟩
        · simp [Space.beside, Ell.spaceF, liftOracle, k1]
        · simp [Space.beside, Ell.spaceF, k6]
        · rw [bestT_snoc]; exact hbad1
    obtain ⟨log, p, hp, hbad⟩ := all N
    exact absurd (hs.few hu0 hu ((hinv hp).2 hbad)) (lt_irrefl N)

end

/-! ### Every problem with a solution set of positive volume is solved if the arithmetic is precise enough -/

/-- **C134** (precise enough).  Whatever the first ellipsoid and the bounded set `K` that meets it in positive volume: for all sufficiently precise arithmetics the assumptions of `C134_feas`
and `C134_dc` hold, with an `N` and a box `X` that do not depend on the arithmetic. -/
theorem C134_precise (hE : E₀.Proper) (hA : ∀ z ∈ K, ∀ i, |z i| ≤ A) (hpos : 0 < volume.real (K ∩ E₀.pts)) :
    ∃ (N : ℕ) (L ε₀ : ℝ), 0 < ε₀ ∧ ∃ C η θ l q L₀ v,
      ∀ ε u, 0 ≤ u → u ≤ ε → ε ≤ ε₀ → ∀ X, (∀ x : Fin n → ℝ, (∀ i, |x i| ≤ A + √L) → x ∈ X) → SureAny n N E₀ K X C ε η u θ l q A L₀ L v := by
  obtain ⟨L₀, hL0, hW⟩ := within_exists E₀ hE.kappa.le
  have hVf := volume_pts_ne_top hE
  set a := volume.real (K ∩ E₀.pts) with ha
  set V := volume.real E₀.pts with hV
  have haV : a ≤ V := measureReal_mono Set.inter_subset_right hVf
  have hV0 : 0 < V := hpos.trans_le haV
  set f := a / V with hf
  have hf0 : 0 < f := div_pos hpos hV0
  have hfV : f * V = a := div_mul_cancel₀ _ hV0.ne'
  set e := Real.exp (-(1 / (2 * ((n : ℝ) + 1)))) with he
  have he0 : 0 < e := Real.exp_pos _
  have he1 : e < 1 := by rw [he, Real.exp_lt_one_iff]; have : 0 < 1 / (2 * ((n : ℝ) + 1)) := by positivity
                         linarith
  set q := (1 + e) / 2 with hq
  have hq0 : 0 < q := by linarith
  have hq1 : q < 1 := by linarith
  obtain ⟨N, hN⟩ := exists_pow_lt_of_lt_one (show 0 < f / 4 by linarith) hq1
  set L := L₀ * 4 ^ N with hL
  have hLp : 0 < L := by positivity
  have hB := euclBall_real_pos (n := n)
  set v := a / (2 * volume.real (euclBall (0 : Fin n → ℝ) 1)) with hv
  have hv0 : 0 < v := by positivity
  obtain ⟨θ', hθ0', hθ'⟩ := small_of_cont (g := thinF n) (c := f / 4) (by unfold thinF; fun_prop) (by simp [thinF]; linarith)
  set θ := min θ' 1 with hθd
  have hθ0 : 0 < θ := by positivity
  have hthin := hθ' θ hθ0.le (min_le_left _ _)
  set C := max 1 √(n * L ^ n / v ^ 2) with hC
  have hC1 : 1 ≤ C := le_max_left _ _
  have hC2 : n * L ^ n ≤ C ^ 2 * v ^ 2 := by
    have h1 : n * L ^ n / v ^ 2 ≤ C ^ 2 := by
      rw [← Real.sqrt_le_left (by linarith)]
      exact le_max_right _ _
    rwa [div_le_iff₀ (by positivity)] at h1
  obtain ⟨t, ht0, ht⟩ := small_of_cont (g := fun t => lossF n (1 + t) q) (c := f / 4) (by unfold lossF; fun_prop) (by simp [lossF]; linarith)
  obtain ⟨s, hs0, hs⟩ := small_of_cont (g := fun s => √((1 + s) ^ n) * e) (c := q) (by fun_prop) (by simp; linarith)
  set η := t * θ / (12 * C) with hη
  have hη0 : 0 < η := by positivity
  have ht := ht t ht0.le le_rfl
  obtain ⟨e1, h10, h1⟩ := small_of_cont (g := fun x => 100000000 * (C ^ 4 * x)) (c := θ ^ 4) (by fun_prop) (by simp; positivity)
  obtain ⟨e2, h20, h2⟩ := small_of_cont (g := fun x => 3000000 * (C ^ 4 * x / θ ^ 4)) (c := min s (t / 2)) (by fun_prop) (by simp; exact ⟨hs0, ht0⟩)
  obtain ⟨e4, h40, h4⟩ := small_of_cont (g := fun x => x * (A + √L) * √(L ^ (n - 1))) (c := η * v) (by fun_prop) (by simp; positivity)
  refine ⟨N, L, min (min e1 e2) e4, by positivity, C, η, θ, 1 + t, q, L₀, v, fun ε u hu0 hu hε X hX => ?_⟩
  have hε0 : 0 ≤ ε := hu0.trans hu
  have k1 := hε.trans (min_le_left _ _)
  have h1 := h1 ε hε0 (k1.trans (min_le_left _ _))
  have h2 := h2 ε hε0 (k1.trans (min_le_right _ _))
  have h4 := h4 u hu0 (hu.trans (hε.trans (min_le_right _ _)))
  have hsn := hs _ (by positivity) (h2.trans (min_le_left _ _))
  refine ⟨⟨hθ0, min_le_right _ _, hC1, hη0.le, h1, ?_, hsn⟩, hq1, hW, le_rfl, hLp, hv0, ?_, ?_, hC2, hA, h4, hX, ?_⟩
  · have h5 : 6 * η * C / θ = t / 2 := by rw [hη]; field_simp; ring
    have := h2.trans (min_le_right _ _)
    linarith
  · rw [← ha, ← hV, ← hfV]
    exact mul_lt_mul_of_pos_right (by linarith) hV0
  · have h5 : v * volume.real (euclBall (0 : Fin n → ℝ) 1) = a / 2 := by rw [hv]; field_simp
    have h6 := mul_le_mul_of_nonneg_right ht hV0.le
    rw [h5]
    rw [div_mul_eq_mul_div, hfV] at h6
    linarith
  · rw [← ha, ← hV, ← hfV]
    exact mul_lt_mul_of_pos_right (by linarith) hV0

/-! ### Concrete: looking for a point with `1/4 ≤ x₀ ≤ 3/4` in the unit disc with parallel cuts -/

/-- An oracle with parallel cuts, written like the passband loop of `lowpass_oracle`. -/
noncomputable def strip (x : Fin 2 → ℝ) (_ : Unit) : Except PyErr (Unit × Option ((Fin 2 → ℝ) × Beta)) :=
  if 3 / 4 < x 0 then .ok ((), some (![1, 0], .seq [x 0 - 3 / 4, x 0 - 1 / 4])) else
  if x 0 < 1 / 4 then .ok ((), some (![-1, 0], .seq [1 / 4 - x 0, 3 / 4 - x 0])) else .ok ((), none)

theorem strip_keeps (htol : tol ≤ 1 / 500) : FeasKeepsAny (euclBall (![1 / 2, 0] : Fin 2 → ℝ) (1 / 5)) Set.univ (fun _ => True) tol strip := by
  intro x _ w _
  have hz : ∀ z ∈ euclBall (![1 / 2, 0] : Fin 2 → ℝ) (1 / 5), 3 / 10 ≤ z 0 ∧ z 0 ≤ 7 / 10 := fun z hz => by
    have hz : ∑ i, (z i - (![1 / 2, 0] : Fin 2 → ℝ) i) ^ 2 ≤ (1 / 5) ^ 2 := hz
    rw [Fin.sum_univ_two] at hz
    simp only [Matrix.cons_val_zero, Matrix.cons_val_one] at hz
    constructor <;> nlinarith [sq_nonneg (z 1 - 0)]
  unfold strip
  split_ifs with h1 h2
  · refine .inr ⟨(), _, rfl, trivial, show 0 ≤ x 0 - 3 / 4 by linarith, fun h0 => by simpa using congrFun h0 0, fun z hz' => ?_⟩
    obtain ⟨k1, k2⟩ := hz z hz'
    have e : ![1, 0] ⬝ᵥ (z - x) = z 0 - x 0 := by rw [dotProduct, Fin.sum_univ_two]; simp
    refine ⟨show ![1, 0] ⬝ᵥ (z - x) + (x 0 - 3 / 4) ≤ 0 ∧ 0 ≤ ![1, 0] ⬝ᵥ (z - x) + (x 0 - 1 / 4) from ?_, ?_⟩
    · rw [e]; constructor <;> linarith
    · rw [e]; nlinarith
  · refine .inr ⟨(), _, rfl, trivial, show 0 ≤ 1 / 4 - x 0 by linarith, fun h0 => by simpa using congrFun h0 0, fun z hz' => ?_⟩
    obtain ⟨k1, k2⟩ := hz z hz'
    have e : ![-1, 0] ⬝ᵥ (z - x) = x 0 - z 0 := by rw [dotProduct, Fin.sum_univ_two]; simp
    refine ⟨show ![-1, 0] ⬝ᵥ (z - x) + (1 / 4 - x 0) ≤ 0 ∧ 0 ≤ ![-1, 0] ⬝ᵥ (z - x) + (3 / 4 - x 0) from ?_, ?_⟩
    · rw [e]; constructor <;> linarith
    · rw [e]; nlinarith
  · exact .inl ⟨(), rfl⟩

/-- In sufficiently precise arithmetic the point is found. -/
example : ∃ (N : ℕ) (ε₀ : ℝ), 0 < ε₀ ∧ ∀ ε u, 0 ≤ u → u ≤ ε → ε ≤ ε₀ → ∀ fl dot, RelErr u fl → VecDotErr ε dot → ∀ m : Int, (N : Int) ≤ m →
    ∃ w' info, cuttingPlaneFeas (fun x => liftOracle (strip x)) ((Ell.spaceF fl dot).beside Unit) ⟨m, 1 / 10 ^ 8⟩ ((), disc) = .ok (w', info) ∧
      info.feasible = true ∧ info.status = .success ∧ info.numIters ≤ N ∧ 1 / 4 ≤ w'.2.xc 0 ∧ w'.2.xc 0 ≤ 3 / 4 := by
  have hP : disc.Proper := ⟨le_rfl, PosDef.one, one_pos⟩
  have hsub : euclBall (![1 / 2, 0] : Fin 2 → ℝ) (1 / 5) ⊆ disc.pts := fun z hz => by
    have hz : ∑ i, (z i - (![1 / 2, 0] : Fin 2 → ℝ) i) ^ 2 ≤ (1 / 5) ^ 2 := hz
    have : disc = ⟨true, false, 0, 1, 1 ^ 2⟩ := by simp [disc]
    rw [this, euclBall_eq_pts le_rfl]
    change ∑ i, (z i - (0 : Fin 2 → ℝ) i) ^ 2 ≤ 1 ^ 2
    rw [Fin.sum_univ_two] at hz ⊢
    simp only [Matrix.cons_val_zero, Matrix.cons_val_one, Pi.zero_apply] at hz ⊢
    have : z 0 ≤ 7 / 10 := by nlinarith [sq_nonneg (z 1 - 0)]
    nlinarith
  obtain ⟨N, L, ε₀, h1, C, η, θ, l, q, L₀, v, h2⟩ := C134_precise (E₀ := disc) (K := euclBall (![1 / 2, 0] : Fin 2 → ℝ) (1 / 5)) (A := 1) hP (fun z hz i => by
      have := ball_coord (by norm_num) hz i
      fin_cases i <;> simp at this ⊢ <;> norm_num at this <;> linarith) (by
      rw [Set.inter_eq_left.2 hsub, vol_ball le_rfl (by norm_num)]
      have := euclBall_real_pos (n := 2)
      positivity)
  refine ⟨N, ε₀, h1, fun ε u hu0 hu hε fl dot hfl hdot m hm => ?_⟩
  obtain ⟨w', info, k1, k2, k3, k4, -, w, -, k5⟩ := C134_feas (w₀ := ()) (tol := 1 / 10 ^ 8) (h2 ε u hu0 hu hε Set.univ fun _ _ => trivial) hP hfl hu0 hu hdot
    (strip_keeps (by norm_num)) trivial hm
  refine ⟨w', info, k1, k2, k3, k4, ?_⟩
  unfold strip at k5
  split_ifs at k5 with c1 c2
  · simp at k5
  · simp at k5
  · exact ⟨not_lt.1 c2, not_lt.1 c1⟩

end Verif
