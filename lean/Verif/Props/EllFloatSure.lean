import Verif.Props.EllFloatDc
import Verif.Props.LmiFloatRun
import Verif.Proofs.EllWide

/-!
# C133: runs with rounded ellipsoids, from assumptions on the problem only

C130 to C132 assume of every ellipsoid of the run that the arithmetic resolves it.  Here this is derived: an update makes no half-axis longer than
by the factor `√D`, and while the ellipsoid still has the volume of most of `K` this bounds the shortest half-axis from below, hence the conditioning of the
matrix; the centre is near a point of `K`.
-/
namespace Verif
open Matrix MeasureTheory Ell FloatSpec
variable {n : ℕ} {b C ε u η l q : ℝ} {fl : ℝ → ℝ} {dot : (Fin n → ℝ) → (Fin n → ℝ) → ℝ} {W : Type _}
  {ω : (Fin n → ℝ) → W → Except PyErr (W × Option ((Fin n → ℝ) × Beta))} {K X : Set (Fin n → ℝ)} {Inv : W → Prop} {tol : ℝ} {w₀ : W} {E₀ : Ell n}
  {A D L₀ L v : ℝ} {N : ℕ}

/-- What has to be known in advance about a run of `N` rounds that starts with `E₀` and looks for the points of `K`: `√L` bounds the half-axes it can produce, `A` the
coordinates of the points of `K`, `v` the volume of `K` that cannot get lost, in unit balls; the arithmetic is fine enough for ellipsoids of this width and volume, with centres
within `√L` of a point of `K`. -/
structure Sure (n N : ℕ) (E₀ : Ell n) (K X : Set (Fin n → ℝ)) (C ε η u b l q A D L₀ L v : ℝ) : Prop where
  bounds : StepBounds n C ε η b l q
  lt : q < 1
  growth : (1 + 400 * (C ^ 4 * ε / b ^ 2)) * c1 n ≤ D
  start : E₀.Within L₀
  width : L₀ * D ^ N ≤ L
  L0 : 0 < L
  v0 : 0 < v
  fat : (lossF n l q + √((8 / 3 * b) ^ n * b)) * volume.real E₀.pts < volume.real (K ∩ E₀.pts)
  left : v * volume.real (euclBall (0 : Fin n → ℝ) 1) + lossF n l q * volume.real E₀.pts ≤ volume.real (K ∩ E₀.pts)
  cond : n * L ^ n ≤ C ^ 2 * v ^ 2
  coord : ∀ z ∈ K, ∀ i, |z i| ≤ A
  centre : u * (A + √L) * √(L ^ (n - 1)) ≤ η * v
  inside : ∀ x : Fin n → ℝ, (∀ i, |x i| ≤ A + √L) → x ∈ X

theorem c1_ge (hn : 2 ≤ n) : 1 ≤ c1 n := by
  have hn' : (2 : ℝ) ≤ n := by exact_mod_cast hn
  unfold c1
  rw [le_div_iff₀ (by nlinarith)]
  linarith

section
variable (hs : Sure n N E₀ K X C ε η u b l q A D L₀ L v) (hE : E₀.Proper) (hfl : RelErr u fl) (hu0 : 0 ≤ u) (hu : u ≤ ε) (hdot : VecDotErr ε dot)
include hs hE hu0 hu

theorem Sure.D1 : 1 ≤ D := by
  have h1 := c1_ge hE.dim
  have h2 : 0 ≤ C ^ 4 * ε / b ^ 2 := by have := hu0.trans hu; positivity
  have h3 := hs.growth
  nlinarith

omit hu0 hu in
theorem Sure.L00 : 0 < L₀ := by
  have h0 := hE.dim
  have h1 := within_diag hs.start (⟨0, by omega⟩ : Fin n)
  have h2 := mul_pos hE.kappa (hE.pd.diag_pos (i := (⟨0, by omega⟩ : Fin n)))
  linarith

/-- While little of `K` is lost and the ellipsoid is not too wide, it is resolved. -/
theorem Sure.resolved {k : ℕ} (hk : k ≤ N) {E : Ell n}
    (hi : LossInv K (volume.real E₀.pts) (volume.real (K ∩ E₀.pts)) l q k E) (hw : E.Within (L₀ * D ^ k)) : E.xc ∈ X ∧ Resolved C η u E := by
  obtain ⟨hl, hq0⟩ := hs.bounds.facts (hu0.trans hu)
  have hD := hs.D1 hE hu0 hu
  have hL : E.Within L := fun y => (hw y).trans (mul_le_mul_of_nonneg_right
    ((mul_le_mul_of_nonneg_left (pow_le_pow_right₀ hD hk) (hs.L00 hE).le).trans hs.width) (Finset.sum_nonneg fun i _ => mul_self_nonneg (y i)))
  have h1 : v * volume.real (euclBall (0 : Fin n → ℝ) 1) ≤ volume.real (K ∩ E.pts) := by
    have h1 := hi.total measureReal_nonneg hl hq0 hs.lt
    have h2 := hs.left
    unfold lossF at h2
    linarith
  have hB := euclBall_real_pos (n := n)
  have h2 : v ≤ √E.vsq := by
    have h2 : volume.real (K ∩ E.pts) ≤ volume.real E.pts := measureReal_mono Set.inter_subset_right (volume_pts_ne_top hi.proper)
    rw [vol_pts hi.proper] at h2
    exact le_of_mul_le_mul_right (h1.trans h2) hB
  have h3 : v ^ 2 ≤ E.vsq := (Real.le_sqrt hs.v0.le (vsq_pos hi.proper).le).1 h2
  obtain ⟨z, hz1, hz2⟩ : (K ∩ E.pts).Nonempty := by
    by_contra hc
    rw [Set.not_nonempty_iff_eq_empty.1 hc, measureReal_empty] at h1
    linarith [mul_pos hs.v0 hB]
  have h4 : ∀ i, |E.xc i| ≤ A + √L := fun i => by
    have := within_centre hL hz2 i
    have := hs.coord z hz1 i
    linarith
  exact ⟨hs.inside _ h4, within_resolved hi.proper hL hs.L0 hu0 hs.bounds.eta hs.v0 h3 hs.cond h4 hs.centre⟩

include hfl hdot

/-- One round. -/
theorem Sure.step {k : ℕ} (hk : k ≤ N) {E E' : Ell n} {g : Fin n → ℝ} {β : ℝ} {st : CUTStatus} {tsq : ℝ}
    (hi : LossInv K (volume.real E₀.pts) (volume.real (K ∩ E₀.pts)) l q k E) (hw : E.Within (L₀ * D ^ k)) (hg : g ≠ 0) (hβ : 0 ≤ β)
    (hK : K ⊆ cutSet E.xc (g, .scalar β)) (hup : updateF fl dot (g, .scalar β) E = .ok (E', st, tsq)) :
    LossInv K (volume.real E₀.pts) (volume.real (K ∩ E₀.pts)) l q (k + 1) E' ∧ E'.Within (L₀ * D ^ (k + 1)) := by
  have hV : 0 ≤ volume.real E₀.pts := measureReal_nonneg
  obtain ⟨-, hr⟩ := hs.resolved hE hu0 hu hk hi hw
  have hsh := hi.shallow hV hs.lt (hu0.trans hu) hs.bounds hg hK hs.fat
  obtain ⟨E1, tsq1, k1, -, k2⟩ := hi.step hV hs.lt hfl hu0 hu hdot hs.bounds hr hg hβ hK hs.fat
  rw [hup] at k1
  simp only [Except.ok.injEq, Prod.mk.injEq] at k1
  obtain ⟨rfl, -, -⟩ := k1
  refine ⟨k2, ?_⟩
  have := within_step hi.proper hw hfl hu0 hu hdot hs.bounds hr hg hβ hsh hs.growth hup
  rwa [mul_assoc, ← pow_succ] at this

/-- **C133** (feasibility).  Everything `C130_firm` assumes about the ellipsoids of the run follows from `Sure`. -/
theorem C133_resolved (hω : FeasKeeps K X Inv tol ω) (hw₀ : Inv w₀) : FeasResolved N X C η u fl dot ω tol (w₀, E₀) := by
  intro k log v hk hp
  have key : k ≤ N → Inv v.1 ∧ LossInv K (volume.real E₀.pts) (volume.real (K ∩ E₀.pts)) l q k v.2 ∧ v.2.Within (L₀ * D ^ k) := by
    clear hk
    induction hp with
    | nil => exact fun _ => ⟨hw₀, LossInv.init hE, by simpa using hs.start⟩
    | @snoc k log w w1 w2 c tsq hp hq1 hu1 ht ih =>
      intro hk
      obtain ⟨i1, i2, i3⟩ := ih (by omega)
      obtain ⟨h1, h2, h3⟩ := round_split hq1 hu1
      obtain ⟨hX, -⟩ := hs.resolved hE hu0 hu (by omega) i2 i3
      rcases hω _ hX _ i1 with ⟨w', h4⟩ | ⟨w', g, β, h4, h5, h6, h7, h8⟩
      · rw [h1] at h4; simp at h4
      · rw [h1] at h4
        simp only [Except.ok.injEq, Prod.mk.injEq, Option.some.injEq] at h4
        obtain ⟨rfl, rfl⟩ := h4
        have hK : K ⊆ cutSet w.2.xc (g, .scalar β) := fun z hz => mem_cutSet.2 (by simpa [betaSat] using (h8 z hz).1)
        exact ⟨h3 ▸ h5, hs.step hE hfl hu0 hu hdot (by omega) i2 i3 h7 h6 hK h2⟩
  obtain ⟨-, i2, i3⟩ := key hk.le
  exact hs.resolved hE hu0 hu hk.le i2 i3

/-- **C133** (finding a point).  With an oracle whose cuts keep `K` by more than the tolerance, and `N` rounds enough, the run raises nothing and finds a point of `X` the oracle accepts.
All assumptions are about the problem, the first ellipsoid and the precision. -/
theorem C133_feas (hω : FeasKeeps K X Inv tol ω) (hw₀ : Inv w₀)
    (hN : (lossF n l q + q ^ N) * volume.real E₀.pts < volume.real (K ∩ E₀.pts)) {m : Int} (hm : (N : Int) ≤ m) :
    ∃ w' info, cuttingPlaneFeas (fun x => liftOracle (ω x)) ((Ell.spaceF fl dot).beside W) ⟨m, tol⟩ (w₀, E₀) = .ok (w', info) ∧
      info.feasible = true ∧ info.status = .success ∧ info.numIters ≤ N ∧ w'.2.xc ∈ X ∧ ∃ w, Inv w ∧ ω w'.2.xc w = .ok (w'.1, none) :=
  C130_firm hE hfl hu0 hu hdot hs.bounds hs.lt hω hw₀ (C133_resolved hs hE hfl hu0 hu hdot hω hw₀) hs.fat hN hm

end

/-! ### Optimization -/

section
variable {T : Type _} {Ω : (Fin n → ℝ) → T → W → Except PyErr (W × ((Fin n → ℝ) × Beta) × Option T)} {Bad : T → Prop} {t0 : T}
variable (hs : Sure n N E₀ K X C ε η u b l q A D L₀ L v) (hE : E₀.Proper) (hfl : RelErr u fl) (hu0 : 0 ≤ u) (hu : u ≤ ε) (hdot : VecDotErr ε dot)
include hs hE hu0 hu hfl hdot

/-- **C133** (optimization).  Everything `C131_dc` assumes about the ellipsoids of the run follows from `Sure`. -/
theorem C133_dc_resolved (hΩ : DcKeeps K X Inv Bad tol Ω) (hw₀ : Inv w₀) : DcResolved N X Bad C η u fl dot Ω tol t0 (w₀, E₀) := by
  intro k log v hk hp hbad
  have key : k ≤ N → Bad (bestT t0 log) → LossInv K (volume.real E₀.pts) (volume.real (K ∩ E₀.pts)) l q k v.2 ∧ v.2.Within (L₀ * D ^ k) := by
    clear hk hbad
    induction hp with
    | nil => exact fun _ _ => ⟨LossInv.init hE, by simpa using hs.start⟩
    | @snoc k log w w1 w2 c t1 tsq hp hq1 hu1 ht ih =>
      intro hk hbad
      obtain ⟨h1, h2, h3⟩ := round_split_dc hq1 hu1
      rw [bestT_snoc] at hbad
      have hiv := hp.inv hΩ hw₀
      have hbad' := (hΩ.mono _ _ _ _ _ _ hiv h1).2 hbad
      obtain ⟨i2, i3⟩ := ih (by omega) hbad'
      obtain ⟨hX, -⟩ := hs.resolved hE hu0 hu (by omega) i2 i3
      obtain ⟨w', g, β, t1', k1, k2⟩ := hΩ.cuts _ hX _ _ hiv hbad'
      rw [h1] at k1
      simp only [Except.ok.injEq, Prod.mk.injEq] at k1
      obtain ⟨-, rfl, rfl⟩ := k1
      obtain ⟨k3, k4, k5⟩ := k2 hbad
      have hK : K ⊆ cutSet w.2.xc (g, .scalar β) := fun z hz => mem_cutSet.2 (by simpa [betaSat] using (k5 z hz).1)
      exact hs.step hE hfl hu0 hu hdot (by omega) i2 i3 k4 k3 hK h2
  obtain ⟨i2, i3⟩ := key hk.le hbad
  exact hs.resolved hE hu0 hu hk.le i2 i3

/-- **C133** (the level reached), from assumptions on the problem, the first ellipsoid and the precision. -/
theorem C133_dc [DecidableEq T] (hΩ : DcKeeps K X Inv Bad tol Ω) (hw₀ : Inv w₀)
    (hN : (lossF n l q + q ^ N) * volume.real E₀.pts < volume.real (K ∩ E₀.pts)) :
    (∀ m : Int, (N : Int) ≤ m → ∀ w' xb t info, cuttingPlaneDc (fun x t => liftOracle (Ω x t)) ((Ell.spaceF fl dot).beside W) t0 ⟨m, tol⟩ (w₀, E₀) =
      .ok (w', xb, t, info) → ¬ Bad t) ∧
    (Bad t0 → ∃ (k : ℕ) (log : _) (v : W × Ell n) (w' : W) (c : _) (t1 : _), k < N ∧
      DcRounds (fun x t => liftOracle (Ω x t)) ((Ell.spaceF fl dot).beside W) tol t0 (w₀, E₀) k log v ∧
      Ω v.2.xc (bestT t0 log) v.1 = .ok (w', c, t1) ∧ ¬ Bad (t1.getD (bestT t0 log))) :=
  C131_dc hE hfl hu0 hu hdot hs.bounds hs.lt hΩ hw₀ (C133_dc_resolved hs hE hfl hu0 hu hdot hΩ hw₀) hs.fat hN

end

/-! ### Every problem with a solution set of positive volume is solved if the arithmetic is precise enough -/

theorem within_exists (E : Ell n) (hκ : 0 ≤ E.kappa) : ∃ L, 0 < L ∧ E.Within L := by
  refine ⟨E.kappa * ∑ i, ∑ j, |E.Q i j| + 1, by positivity, fun y => ?_⟩
  have h0 : 0 ≤ y ⬝ᵥ y := Finset.sum_nonneg fun i _ => mul_self_nonneg (y i)
  have h1 : ∀ i, y i * y i ≤ y ⬝ᵥ y := fun i => Finset.single_le_sum (f := fun i => y i * y i) (fun i _ => mul_self_nonneg (y i)) (Finset.mem_univ i)
  have h2 : y ⬝ᵥ E.Q *ᵥ y ≤ (∑ i, ∑ j, |E.Q i j|) * (y ⬝ᵥ y) := by
    rw [dotProduct, Finset.sum_mul]
    refine Finset.sum_le_sum fun i _ => ?_
    rw [mulVec, dotProduct, Finset.mul_sum, Finset.sum_mul]
    refine Finset.sum_le_sum fun j _ => ?_
    have h3 : |y i * y j| ≤ y ⬝ᵥ y := by
      rw [abs_mul]
      have := h1 i
      have := h1 j
      nlinarith [sq_nonneg (|y i| - |y j|), abs_mul_abs_self (y i), abs_mul_abs_self (y j)]
    calc y i * (E.Q i j * y j) = E.Q i j * (y i * y j) := by ring
      _ ≤ |E.Q i j * (y i * y j)| := le_abs_self _
      _ = |E.Q i j| * |y i * y j| := abs_mul _ _
      _ ≤ |E.Q i j| * (y ⬝ᵥ y) := mul_le_mul_of_nonneg_left h3 (abs_nonneg _)
  have := mul_le_mul_of_nonneg_left h2 hκ
  linarith

theorem small_of_cont {g : ℝ → ℝ} {c : ℝ} (hg : Continuous g) (h : g 0 < c) : ∃ t > 0, ∀ x, 0 ≤ x → x ≤ t → g x ≤ c := by
  have := (hg.tendsto 0).eventually (gt_mem_nhds h)
  obtain ⟨t, ht, hb⟩ := Metric.eventually_nhds_iff.1 this
  refine ⟨t / 2, by linarith, fun x hx0 hx => (hb ?_).le⟩
  rw [Real.dist_eq, sub_zero, abs_of_nonneg hx0]
  linarith

/-- **C133** (precise enough, for any place).  As `C133_precise`, for fixed volumes `V` of the first ellipsoid and `a` of the part of `K` in it and a fixed width of the first ellipsoid, but
simultaneously for all ellipsoids and sets `K` like that: it does not matter where the first centre is. -/
theorem C133_uniform (hn : 2 ≤ n) {V a L₀ : ℝ} (A : ℝ) (hpos : 0 < a) (haV : a ≤ V) (hL0 : 0 < L₀) :
    ∃ (N : ℕ) (L ε₀ : ℝ), 0 < ε₀ ∧ ∃ C η b l q D v, (lossF n l q + q ^ N) * V < a ∧
      ∀ (E₀ : Ell n) (K : Set (Fin n → ℝ)), E₀.Within L₀ → (∀ z ∈ K, ∀ i, |z i| ≤ A) → volume.real E₀.pts = V → volume.real (K ∩ E₀.pts) = a →
      ∀ ε u, 0 ≤ u → u ≤ ε → ε ≤ ε₀ → ∀ X, (∀ x : Fin n → ℝ, (∀ i, |x i| ≤ A + √L) → x ∈ X) → Sure n N E₀ K X C ε η u b l q A D L₀ L v := by
  have hV0 : 0 < V := hpos.trans_le haV
  set f := a / V with hf
  have hf0 : 0 < f := div_pos hpos hV0
  have hf1 : f ≤ 1 := (div_le_one hV0).2 haV
  have hfV : f * V = a := div_mul_cancel₀ _ hV0.ne'
  set e := Real.exp (-(1 / (2 * ((n : ℝ) + 1)))) with he
  have he0 : 0 < e := Real.exp_pos _
  have he1 : e < 1 := by rw [he, Real.exp_lt_one_iff]; have : 0 < 1 / (2 * ((n : ℝ) + 1)) := by positivity
                         linarith
  set q := (1 + e) / 2 with hq
  have hq0 : 0 < q := by linarith
  have hq1 : q < 1 := by linarith
  obtain ⟨N, hN⟩ := exists_pow_lt_of_lt_one (show 0 < f / 4 by linarith) hq1
  set D := 2 * c1 n with hD
  have hc1 := c1_ge hn
  set L := L₀ * D ^ N with hL
  have hLp : 0 < L := by have : 0 < D := by linarith
                         positivity
  have hB := euclBall_real_pos (n := n)
  set v := a / (2 * volume.real (euclBall (0 : Fin n → ℝ) 1)) with hv
  have hv0 : 0 < v := by positivity
  set b := f ^ 2 / 16 with hb
  have hb0 : 0 < b := by positivity
  have hb1 : b ≤ 1 / 16 := by rw [hb]; nlinarith
  set C := max 1 √(n * L ^ n / v ^ 2) with hC
  have hC1 : 1 ≤ C := le_max_left _ _
  have hC2 : n * L ^ n ≤ C ^ 2 * v ^ 2 := by
    have h1 : n * L ^ n / v ^ 2 ≤ C ^ 2 := by
      rw [← Real.sqrt_le_left (by linarith)]
      exact le_max_right _ _
    rwa [div_le_iff₀ (by positivity)] at h1
  obtain ⟨t, ht0, ht⟩ := small_of_cont (g := fun t => lossF n (1 + t) q) (c := f / 4) (by unfold lossF; fun_prop) (by simp [lossF]; linarith)
  obtain ⟨s, hs0, hs⟩ := small_of_cont (g := fun s => √((1 + s) ^ n) * e) (c := q) (by fun_prop) (by simp; linarith)
  set η := t * b / (4 * C) with hη
  have hη0 : 0 < η := by positivity
  have ht := ht t ht0.le le_rfl
  obtain ⟨e1, h10, h1⟩ := small_of_cont (g := fun x => 1000 * (C ^ 4 * x)) (c := b ^ 2) (by fun_prop) (by simp; positivity)
  obtain ⟨e2, h20, h2⟩ := small_of_cont (g := fun x => 350 * (C ^ 4 * x / b ^ 2)) (c := t / 2) (by fun_prop) (by simp; linarith)
  obtain ⟨e3, h30, h3⟩ := small_of_cont (g := fun x => 400 * (C ^ 4 * x / b ^ 2)) (c := min s 1) (by fun_prop) (by simp; linarith)
  obtain ⟨e4, h40, h4⟩ := small_of_cont (g := fun x => x * (A + √L) * √(L ^ (n - 1))) (c := η * v) (by fun_prop) (by simp; positivity)
  refine ⟨N, L, min (min e1 e2) (min e3 e4), by positivity, C, η, b, 1 + t, q, D, v, ?_, fun E₀ K hW hA hV ha ε u hu0 hu hε X hX => ?_⟩
  · rw [← hfV]
    exact mul_lt_mul_of_pos_right (by linarith) hV0
  · have hε0 : 0 ≤ ε := hu0.trans hu
    have k1 := hε.trans (min_le_left _ _)
    have k2 := hε.trans (min_le_right _ _)
    have h1 := h1 ε hε0 (k1.trans (min_le_left _ _))
    have h2 := h2 ε hε0 (k1.trans (min_le_right _ _))
    have h3 := h3 ε hε0 (k2.trans (min_le_left _ _))
    have h4 := h4 u hu0 (hu.trans (k2.trans (min_le_right _ _)))
    have hsn := hs _ (by positivity) (h3.trans (min_le_left _ _))
    refine ⟨⟨hb0, by linarith, hC1, hη0.le, h1, ?_, hsn⟩, hq1, ?_, hW, le_rfl, hLp, hv0, ?_, ?_, hC2, hA, h4, hX⟩
    · have : 2 * η * C / b = t / 2 := by rw [hη]; field_simp; ring
      linarith
    · rw [hD]
      exact mul_le_mul_of_nonneg_right (by linarith [h3.trans (min_le_right _ _)]) (by linarith)
    · rw [ha, hV, ← hfV]
      refine mul_lt_mul_of_pos_right ?_ hV0
      have h5 : √((8 / 3 * b) ^ n * b) ≤ f / 4 := by
        rw [Real.sqrt_le_left (by linarith)]
        have h6 : (8 / 3 * b) ^ n ≤ 1 := pow_le_one₀ (by positivity) (by linarith)
        have h7 := mul_le_mul_of_nonneg_right h6 hb0.le
        have h8 : (f / 4) ^ 2 = b := by rw [hb]; ring
        linarith
      linarith
    · have h5 : v * volume.real (euclBall (0 : Fin n → ℝ) 1) = a / 2 := by rw [hv]; field_simp
      have h6 := mul_le_mul_of_nonneg_right ht hV0.le
      rw [h5, ha, hV]
      rw [div_mul_eq_mul_div, hfV] at h6
      linarith

/-- **C133** (precise enough).  Whatever the first ellipsoid and the bounded set `K` that meets it in positive volume: for all sufficiently precise arithmetics the assumptions of `C133_feas`
and `C133_dc` hold, with an `N` and a box `X` that do not depend on the arithmetic. -/
theorem C133_precise (hE : E₀.Proper) (hA : ∀ z ∈ K, ∀ i, |z i| ≤ A) (hpos : 0 < volume.real (K ∩ E₀.pts)) :
    ∃ (N : ℕ) (L ε₀ : ℝ), 0 < ε₀ ∧ ∃ C η b l q D L₀ v, (lossF n l q + q ^ N) * volume.real E₀.pts < volume.real (K ∩ E₀.pts) ∧
      ∀ ε u, 0 ≤ u → u ≤ ε → ε ≤ ε₀ → ∀ X, (∀ x : Fin n → ℝ, (∀ i, |x i| ≤ A + √L) → x ∈ X) → Sure n N E₀ K X C ε η u b l q A D L₀ L v := by
  obtain ⟨L₀, hL0, hW⟩ := within_exists E₀ hE.kappa.le
  obtain ⟨N, L, ε₀, h0, C, η, b, l, q, D, v, h1, h2⟩ := C133_uniform hE.dim A hpos (measureReal_mono Set.inter_subset_right (volume_pts_ne_top hE)) hL0
  exact ⟨N, L, ε₀, h0, C, η, b, l, q, D, L₀, v, h1, h2 E₀ K hW hA rfl rfl⟩

/-! ### Linear matrix inequalities -/

theorem ball_scale (hE : E₀.Proper) {a : Fin n → ℝ} {r c : ℝ} (hr : 0 < r) (hball : euclBall a r ⊆ E₀.pts) :
    c * volume.real E₀.pts < volume.real (euclBall a r ∩ E₀.pts) ↔ c * √E₀.vsq < r ^ n := by
  rw [Set.inter_eq_left.2 hball, vol_ball hE.dim hr, vol_pts hE, ← mul_assoc]
  exact mul_lt_mul_iff_left₀ euclBall_real_pos

theorem ball_coord {a z : Fin n → ℝ} {r : ℝ} (hr : 0 ≤ r) (hz : z ∈ euclBall a r) (i : Fin n) : |z i| ≤ |a i| + r := by
  have h1 : (z i - a i) ^ 2 ≤ r ^ 2 := (Finset.single_le_sum (f := fun i => (z i - a i) ^ 2) (fun i _ => sq_nonneg _) (Finset.mem_univ i)).trans hz
  have h2 := abs_le_of_sq_le_sq h1 hr
  have h3 := abs_sub_abs_le_abs_sub (z i) (a i)
  linarith

section
variable {k m p : ℕ} {M μ r : ℝ} {F : Fin k → ℕ → ℕ → ℝ} {B : ℕ → ℕ → ℝ} {Q₀ : CholExt ℝ} {a : Fin k → ℝ} {E₀ : Ell k}

/-- **C133** (linear matrix inequalities, `p` bits).  `C132_lmi_bits` from assumptions on the problem, the first ellipsoid and `p` only. -/
theorem C133_lmi_bits (hfl : Nearest p fl) (hF : ∀ q, SymOn (F q) m) (hB : SymOn B m) (hQ : Ready m Q₀)
    (hm : 10 * (4 * (m : ℝ) + 7) ≤ 2 ^ p) (hk : 20 * ((k : ℝ) + 2) ≤ 2 ^ p) (hM0 : 0 ≤ M) (hE : E₀.Proper)
    (hr : 0 < r) (hball : euclBall a r ⊆ E₀.pts)
    (hK : ∀ z ∈ euclBall a r, AtLeast μ (pencil F B z) m ∧ ∀ i < m, ∀ j < m, absPencil F B z i j ≤ M)
    (hμ : (120 * m + 2 * k + 210) / 2 ^ p * m * M < μ) (htol : tol ≤ 199 / 200 * (μ - (120 * m + 2 * k + 210) / 2 ^ p * m * M) ^ 2)
    (hs : Sure k N E₀ (euclBall a r) {x | ∀ i < m, ∀ j < m, absPencil F B x i j ≤ M} C (2 * (k + 1) / 2 ^ p) η (1 / 2 ^ p) b l q A D L₀ L v)
    (hN : (lossF k l q + q ^ N) * √E₀.vsq < r ^ k) {im : Int} (him : (N : Int) ≤ im) :
    ∃ w' info, cuttingPlaneFeas (fun x => liftOracle (lmiRunF fl (seqDot fl) F B m x)) ((Ell.spaceF fl (vecDot fl)).beside (CholExt ℝ)) ⟨im, tol⟩ (Q₀, E₀) =
        .ok (w', info) ∧ info.feasible = true ∧ info.status = .success ∧ info.numIters ≤ N ∧
      AtLeast (-((10 * m + 2 * k + 22) / 2 ^ p * m * M)) (pencil F B w'.2.xc) m := by
  obtain ⟨hrel, hu, hvdot⟩ := C117_double (n := k) hfl (by linarith)
  exact C132_lmi_bits hfl hF hB hQ hm hk hM0 hE hs.bounds hs.lt hr hball hK hμ htol
    (C133_resolved hs hE hrel (by positivity) hu hvdot (lmi_keeps_bits hfl hF hB hm hk hM0 hr hK hμ htol) hQ)
    ((ball_scale hE hr hball).1 hs.fat) hN him

/-- **C133** (solvable linear matrix inequalities are solved).  If `B - Σ z_q F_q ⪰ μ·I`, `μ > 0`, on some ball inside the first ellipsoid, then for every `ν > 0` there are a number `N` of
iterations, a number `p₀` of bits and a tolerance such that with `p₀` bits or more `cutting_plane_feas(lmi_oracle(F, B), ell)`, every operation rounded, raises nothing and within `N`
iterations finds a point with `B - Σ x_q F_q ⪰ -ν·I`. -/
theorem C133_lmi (hF : ∀ q, SymOn (F q) m) (hB : SymOn B m) (hE : E₀.Proper) (hr : 0 < r) (hball : euclBall a r ⊆ E₀.pts) (hμ : 0 < μ)
    (hK : ∀ z ∈ euclBall a r, AtLeast μ (pencil F B z) m) {ν : ℝ} (hν : 0 < ν) :
    ∃ (N p₀ : ℕ) (tol₀ : ℝ), 0 < tol₀ ∧ ∀ p, p₀ ≤ p → ∀ fl, Nearest p fl → ∀ tol, tol ≤ tol₀ → ∀ Q₀, Ready m Q₀ → ∀ im : Int, (N : Int) ≤ im →
      ∃ w' info, cuttingPlaneFeas (fun x => liftOracle (lmiRunF fl (seqDot fl) F B m x)) ((Ell.spaceF fl (vecDot fl)).beside (CholExt ℝ)) ⟨im, tol⟩ (Q₀, E₀) =
        .ok (w', info) ∧ info.feasible = true ∧ info.status = .success ∧ info.numIters ≤ N ∧ AtLeast (-ν) (pencil F B w'.2.xc) m := by
  set A := ∑ i, |a i| + r with hA
  have hA0 : 0 ≤ A := by positivity
  have hKA : ∀ z ∈ euclBall a r, ∀ i, |z i| ≤ A := fun z hz i => (ball_coord hr.le hz i).trans
    (by have := Finset.single_le_sum (f := fun i => |a i|) (fun i _ => abs_nonneg _) (Finset.mem_univ i); linarith)
  have hpos : 0 < volume.real (euclBall a r ∩ E₀.pts) := by
    rw [Set.inter_eq_left.2 hball, vol_ball hE.dim hr]
    have := euclBall_real_pos (n := k)
    positivity
  obtain ⟨N, L, ε₀, hε₀, C, η, b, l, q, D, L₀, v, hN, hS⟩ := C133_precise hE hKA hpos
  set R := A + √L with hR
  have hR0 : 0 ≤ R := by positivity
  set M := ∑ i ∈ Finset.range m, ∑ j ∈ Finset.range m, (|B i j| + ∑ q, |F q i j| * R) with hM
  have hM0 : 0 ≤ M := by positivity
  have hbox : ∀ x : Fin k → ℝ, (∀ i, |x i| ≤ R) → ∀ i < m, ∀ j < m, absPencil F B x i j ≤ M := fun x hx i hi j hj => by
    have h1 : absPencil F B x i j ≤ |B i j| + ∑ q, |F q i j| * R := by
      unfold absPencil absCombo
      have : ∑ q, |F q i j * x q| ≤ ∑ q, |F q i j| * R := Finset.sum_le_sum fun q _ => by
        rw [abs_mul]; exact mul_le_mul_of_nonneg_left (hx q) (abs_nonneg _)
      linarith
    refine h1.trans ?_
    rw [hM]
    refine (Finset.single_le_sum (f := fun j => |B i j| + ∑ q, |F q i j| * R) (fun j _ => by positivity) (Finset.mem_range.2 hj)).trans ?_
    exact Finset.single_le_sum (f := fun i => ∑ j ∈ Finset.range m, (|B i j| + ∑ q, |F q i j| * R)) (fun i _ => by positivity) (Finset.mem_range.2 hi)
  set Z := 10 * (4 * (m : ℝ) + 7) + 20 * ((k : ℝ) + 2) + 2 * (k + 1) / ε₀ + (120 * m + 2 * k + 210) * m * M / (μ / 2) + (10 * m + 2 * k + 22) * m * M / ν with hZ
  obtain ⟨p₀, hp₀⟩ := pow_unbounded_of_one_lt Z (one_lt_two (α := ℝ))
  refine ⟨N, p₀, 199 / 200 * (μ / 2) ^ 2, by positivity, fun p hp fl hfl tol htol Q₀ hQ im him => ?_⟩
  have h2p : Z ≤ 2 ^ p := hp₀.le.trans (pow_le_pow_right₀ one_le_two hp)
  have z1 : 0 ≤ 10 * (4 * (m : ℝ) + 7) := by positivity
  have z2 : 0 ≤ 20 * ((k : ℝ) + 2) := by positivity
  have z3 : 0 ≤ 2 * ((k : ℝ) + 1) / ε₀ := by positivity
  have z4 : 0 ≤ (120 * (m : ℝ) + 2 * k + 210) * m * M / (μ / 2) := by positivity
  have z5 : 0 ≤ (10 * (m : ℝ) + 2 * k + 22) * m * M / ν := by positivity
  have h0 : (0 : ℝ) < 2 ^ p := by positivity
  have y3 : 2 * ((k : ℝ) + 1) / 2 ^ p ≤ ε₀ := by
    have : 2 * ((k : ℝ) + 1) / ε₀ ≤ 2 ^ p := by linarith
    rw [div_le_iff₀ hε₀] at this
    rw [div_le_iff₀ h0]
    linarith
  have y4 : (120 * (m : ℝ) + 2 * k + 210) / 2 ^ p * m * M ≤ μ / 2 := by
    have : (120 * (m : ℝ) + 2 * k + 210) * m * M / (μ / 2) ≤ 2 ^ p := by linarith
    rw [div_le_iff₀ (by positivity)] at this
    rw [div_mul_eq_mul_div, div_mul_eq_mul_div, div_le_iff₀ h0]
    linarith
  have y5 : (10 * (m : ℝ) + 2 * k + 22) / 2 ^ p * m * M ≤ ν := by
    have : (10 * (m : ℝ) + 2 * k + 22) * m * M / ν ≤ 2 ^ p := by linarith
    rw [div_le_iff₀ (by positivity)] at this
    rw [div_mul_eq_mul_div, div_mul_eq_mul_div, div_le_iff₀ h0]
    linarith
  have hu : (1 : ℝ) / 2 ^ p ≤ 2 * (k + 1) / 2 ^ p := by
    rw [div_le_div_iff_of_pos_right h0]
    have : (0 : ℝ) ≤ k := Nat.cast_nonneg _
    linarith
  obtain ⟨w', info, k1, k2, k3, k4, k5⟩ := C133_lmi_bits (M := M) (μ := μ) (tol := tol) hfl hF hB hQ (by linarith) (by linarith) hM0 hE hr hball
    (fun z hz => ⟨hK z hz, hbox z fun i => (hKA z hz i).trans (by rw [hR]; linarith [Real.sqrt_nonneg L])⟩) (by linarith)
    (htol.trans (mul_le_mul_of_nonneg_left (pow_le_pow_left₀ (by linarith) (by linarith) 2) (by norm_num)))
    (hS _ _ (by positivity) hu y3 _ hbox) ((ball_scale hE hr hball).1 hN) him
  exact ⟨w', info, k1, k2, k3, k4, k5.mono (by linarith)⟩

end

/-! ### Convex programs -/

section
variable {T : Type _} [DecidableEq T] {Ω : (Fin n → ℝ) → T → W → Except PyErr (W × ((Fin n → ℝ) × Beta) × Option T)} {t0 : T}

/-- **C133** (convex programs are solved to any accuracy).  A ball inside the first ellipsoid where there is room `η₀ > 0` and `f ≤ M`, a feasible point `p` of the first ellipsoid, and
`acc > 0`.  There are a number `N` of iterations, a bound `R` on the points the oracle is asked about, a precision `ε₀`, a tolerance and an admissible error of the oracle, none of them zero, such
that with arithmetic of precision `ε₀` or better every run with `max_it ≥ N` that returns has a level below `f(p) + acc`, and such a level is reported within `N` oracle calls, before
which no exception is raised.  `p` may be an optimal point. -/
theorem C133_room (hE : E₀.Proper) {ι : T → WithTop ℝ} {Room : (Fin n → ℝ) → ℝ → Prop} {f : (Fin n → ℝ) → ℝ} (hconv : RoomConvex Room f)
    (hmono : ∀ z δ δ', δ ≤ δ' → Room z δ' → Room z δ) {a p : Fin n → ℝ} {ρ η₀ M acc : ℝ}
    (hρ : 0 < ρ) (hη₀ : 0 < η₀) (hball : euclBall a ρ ⊆ E₀.pts) (hslater : ∀ z ∈ euclBall a ρ, Room z η₀ ∧ f z ≤ M) (hpE : p ∈ E₀.pts) (hp : Room p 0)
    (hacc : 0 < acc) :
    ∃ (N : ℕ) (R ε₀ tol₀ ν₀ : ℝ), 0 < ε₀ ∧ 0 < tol₀ ∧ 0 < ν₀ ∧ ∀ ε u, 0 ≤ u → u ≤ ε → ε ≤ ε₀ → ∀ fl dot, RelErr u fl → VecDotErr ε dot →
      ∀ tol ν, tol ≤ tol₀ → 0 ≤ ν → ν ≤ ν₀ → ∀ X Inv (Ω : (Fin n → ℝ) → T → W → Except PyErr (W × ((Fin n → ℝ) × Beta) × Option T)),
      (∀ x : Fin n → ℝ, (∀ i, |x i| ≤ R) → x ∈ X) → ApproxRoomOracle ι Room f E₀.pts X ν Inv Ω → ∀ w₀, Inv w₀ → ∀ t0,
    (∀ m : Int, (N : Int) ≤ m → ∀ w' xb t info, cuttingPlaneDc (fun x t => liftOracle (Ω x t)) ((Ell.spaceF fl dot).beside W) t0 ⟨m, tol⟩ (w₀, E₀) =
      .ok (w', xb, t, info) → ι t < ((f p + acc : ℝ) : WithTop ℝ)) ∧
    (((f p + acc : ℝ) : WithTop ℝ) ≤ ι t0 → ∃ (k : ℕ) (log : _) (v : W × Ell n) (w' : W) (c : _) (t1 : _), k < N ∧
      DcRounds (fun x t => liftOracle (Ω x t)) ((Ell.spaceF fl dot).beside W) tol t0 (w₀, E₀) k log v ∧
      Ω v.2.xc (bestT t0 log) v.1 = .ok (w', c, t1) ∧ ι (t1.getD (bestT t0 log)) < ((f p + acc : ℝ) : WithTop ℝ)) := by
  obtain ⟨θ, hθ, hθ1, hθM⟩ : ∃ θ : ℝ, 0 < θ ∧ θ ≤ 1 ∧ θ * (M - f p) ≤ acc / 2 := by
    refine ⟨min 1 (acc / 2 / max 1 (M - f p)), by positivity, min_le_left _ _, ?_⟩
    have h1 : (0 : ℝ) < max 1 (M - f p) := by positivity
    have h2 : min 1 (acc / 2 / max 1 (M - f p)) * max 1 (M - f p) ≤ acc / 2 := by
      refine (mul_le_mul_of_nonneg_right (min_le_right _ _) h1.le).trans ?_
      rw [div_mul_cancel₀ _ h1.ne']
    exact (mul_le_mul_of_nonneg_left (le_max_right _ _) (by positivity)).trans h2
  set δ := min (acc / 2) (θ * η₀) with hδ
  have hδ0 : 0 < δ := by positivity
  set c := (1 - θ) • p + θ • a with hc
  have hr : 0 < θ * ρ := by positivity
  have hin : euclBall c (θ * ρ) ⊆ E₀.pts := fun z hz => by
    obtain ⟨v, hv, rfl⟩ := shrink_ball hθ hz
    exact pts_segment hpE (hball hv) hθ.le hθ1
  have hKA : ∀ z ∈ euclBall c (θ * ρ), ∀ i, |z i| ≤ ∑ i, |c i| + θ * ρ := fun z hz i => (ball_coord hr.le hz i).trans
    (by have := Finset.single_le_sum (f := fun i => |c i|) (fun i _ => abs_nonneg _) (Finset.mem_univ i); linarith)
  have hpos : 0 < volume.real (euclBall c (θ * ρ) ∩ E₀.pts) := by
    rw [Set.inter_eq_left.2 hin, vol_ball hE.dim hr]
    have := euclBall_real_pos (n := n)
    positivity
  obtain ⟨N, L, ε₀, hε₀, C, η, b, l, q, D, L₀, v, hN, hS⟩ := C133_precise hE hKA hpos
  refine ⟨N, ∑ i, |c i| + θ * ρ + √L, ε₀, 199 / 200 * (δ / 2) ^ 2, δ / 2, hε₀, by positivity, by positivity, ?_⟩
  intro ε u hu0 hu hε fl dot hfl hdot tol ν htol hν0 hν X Inv Ω hX hΩ w₀ hw₀ t0
  obtain ⟨-, hK⟩ := room_keeps (tol := tol) (δ := δ) hconv hmono hΩ hη₀.le hball hslater hpE hp hθ hθ1 hθM hν0 (by linarith) (min_le_left _ _) (min_le_right _ _)
    (htol.trans (mul_le_mul_of_nonneg_left (pow_le_pow_left₀ (by linarith) (by linarith) 2) (by norm_num)))
  have key := C133_dc (t0 := t0) (hS ε u hu0 hu hε X hX) hE hfl hu0 hu hdot hK hw₀ hN
  simpa only [not_le] using key

end

/-! ### Concrete: the matrix inequality `-x₀ ≥ 0` in the plane, doubles, the unit disc -/

theorem halfDisc_ball {z : Fin 2 → ℝ} (hz : z ∈ euclBall (![-1 / 2, 0] : Fin 2 → ℝ) (49 / 100)) :
    z 0 ≤ -1 / 100 ∧ -99 / 100 ≤ z 0 ∧ |z 1| ≤ 49 / 100 ∧ z 0 ^ 2 + z 1 ^ 2 ≤ 1 := by
  have hz : ∑ i, (z i - (![-1 / 2, 0] : Fin 2 → ℝ) i) ^ 2 ≤ (49 / 100) ^ 2 := hz
  rw [Fin.sum_univ_two] at hz
  simp only [Matrix.cons_val_zero, Matrix.cons_val_one] at hz
  have h1 : z 0 ≤ -1 / 100 := by nlinarith [sq_nonneg (z 1)]
  have h2 : -99 / 100 ≤ z 0 := by nlinarith [sq_nonneg (z 1)]
  refine ⟨h1, h2, abs_le.2 ⟨?_, ?_⟩, ?_⟩ <;> nlinarith [sq_nonneg (z 0 + 1 / 2)]

theorem halfDisc_sub : euclBall (![-1 / 2, 0] : Fin 2 → ℝ) (49 / 100) ⊆ disc.pts := fun z hz => by
  have : disc = ⟨true, false, 0, 1, 1 ^ 2⟩ := by simp [disc]
  rw [this, euclBall_eq_pts le_rfl]
  change ∑ i, (z i - (0 : Fin 2 → ℝ) i) ^ 2 ≤ 1 ^ 2
  rw [Fin.sum_univ_two]
  simp only [Pi.zero_apply, sub_zero]
  linarith [(halfDisc_ball hz).2.2.2]

/-- Doubles are precise enough for ten rounds in the unit disc. -/
theorem halfDisc_sure : Sure 2 10 disc (euclBall (![-1 / 2, 0] : Fin 2 → ℝ) (49 / 100))
    {x : Fin 2 → ℝ | ∀ i < 1, ∀ j < 1, absPencil halfPlaneF (fun _ _ => 0) x i j ≤ 6} 123 (2 * ((2 : ℕ) + 1) / 2 ^ 53) (1 / 2 ^ 46) (1 / 2 ^ 53)
    (16 / 100) (1 + 21 / 10000) (852 / 1000) 1 (13366 / 10000) 1 (182 / 10) (21 / 100) := by
  have hP : disc.Proper := ⟨le_rfl, PosDef.one, one_pos⟩
  have hv : disc.vsq = 1 := by simp [disc, Ell.vsq]
  have hloss : lossF 2 (1 + 21 / 10000) (852 / 1000) ≤ 243 / 10000 := by unfold lossF; norm_num
  have hL : √(182 / 10 : ℝ) ≤ 427 / 100 := by rw [Real.sqrt_le_left (by norm_num)]; norm_num
  have hB := euclBall_real_pos (n := 2)
  have hball := halfDisc_sub
  refine ⟨⟨by norm_num, by norm_num, by norm_num, by positivity, by norm_num, by norm_num, ?_⟩, by norm_num, ?_, ?_, by norm_num, by norm_num, by norm_num, ?_, ?_,
    by norm_num, ?_, ?_, ?_⟩
  · have h5 : Real.exp (-(1 / (2 * (((2 : ℕ) : ℝ) + 1)))) ≤ 72 / 85 := by
      rw [Real.exp_neg, inv_le_comm₀ (Real.exp_pos _) (by norm_num)]
      have := Real.quadratic_le_exp_of_nonneg (x := 1 / (2 * (((2 : ℕ) : ℝ) + 1))) (by positivity)
      norm_num at this ⊢
      linarith
    rw [Real.sqrt_sq (by positivity)]
    refine (mul_le_mul_of_nonneg_left h5 (by positivity)).trans ?_
    norm_num
  · unfold c1; norm_num
  · intro y
    simp [disc]
  · rw [ball_scale hP (by norm_num) hball, hv, Real.sqrt_one, mul_one]
    have h6 : √((8 / 3 * (16 / 100 : ℝ)) ^ 2 * (16 / 100)) ≤ 171 / 1000 := by rw [Real.sqrt_le_left (by norm_num)]; norm_num
    norm_num at h6 hloss ⊢
    linarith
  · rw [Set.inter_eq_left.2 hball, vol_ball (a := ![-1 / 2, 0]) le_rfl (show (0 : ℝ) < 49 / 100 by norm_num), vol_pts hP, hv, Real.sqrt_one, one_mul, ← add_mul]
    refine mul_le_mul_of_nonneg_right ?_ hB.le
    norm_num at hloss ⊢
    linarith
  · intro z hz i
    obtain ⟨h1, h2, h3, -⟩ := halfDisc_ball hz
    fin_cases i
    · exact abs_le.2 ⟨by simp only [Fin.zero_eta]; linarith, by simp only [Fin.zero_eta]; linarith⟩
    · exact h3.trans (by norm_num)
  · simp only [Nat.add_one_sub_one, pow_one]
    have h0 := Real.sqrt_nonneg (182 / 10 : ℝ)
    nlinarith
  · intro x hx i _ j _
    rw [(halfPlane_pencil x i j).2]
    linarith [hx 0]

/-- In at most ten iterations a point with `x₀ ≤ 216/2^53` is found. -/
example {fl : ℝ → ℝ} (hfl : Nearest 53 fl) : ∃ w' info,
    cuttingPlaneFeas (fun x => liftOracle (lmiRunF fl (seqDot fl) halfPlaneF (fun _ _ => 0) 1 x)) ((Ell.spaceF fl (vecDot fl)).beside (CholExt ℝ))
        ⟨2000, 1 / 10 ^ 8⟩ (CholExt.init 1, disc) = .ok (w', info) ∧
      info.feasible = true ∧ info.status = .success ∧ info.numIters ≤ 10 ∧ w'.2.xc 0 ≤ 216 / 2 ^ 53 := by
  have hloss : lossF 2 (1 + 21 / 10000) (852 / 1000) ≤ 243 / 10000 := by unfold lossF; norm_num
  obtain ⟨w', info, k1, k2, k3, k4, k5⟩ := C133_lmi_bits (tol := 1 / 10 ^ 8) (Q₀ := CholExt.init 1) (μ := 1 / 100) (im := 2000) hfl (fun _ _ _ _ _ => rfl) (fun _ _ _ _ => rfl)
    (ready_init 1) (by norm_num) (by norm_num) (by norm_num) ⟨le_rfl, PosDef.one, one_pos⟩ (by norm_num) halfDisc_sub (fun z hz => by
      obtain ⟨h1, h2, -⟩ := halfDisc_ball hz
      refine ⟨fun y => ?_, fun i _ j _ => ?_⟩
      · simp only [quadOn, Nat.Ico_succ_singleton, Finset.sum_singleton, Finset.range_one, (halfPlane_pencil z 0 0).1]
        nlinarith [mul_nonneg (sq_nonneg (y 0)) (show 0 ≤ -z 0 - 1 / 100 by linarith)]
      · rw [(halfPlane_pencil z i j).2, abs_le]
        constructor <;> linarith) (by norm_num) (by norm_num) halfDisc_sure (by
      rw [show disc.vsq = 1 by simp [disc, Ell.vsq], Real.sqrt_one, mul_one]
      norm_num at hloss ⊢
      linarith) (by norm_num)
  refine ⟨w', info, k1, k2, k3, k4, ?_⟩
  have h6 := k5 fun _ => 1
  simp only [quadOn, Nat.Ico_succ_singleton, Finset.sum_singleton, Finset.range_one, (halfPlane_pencil w'.2.xc 0 0).1] at h6
  norm_num at h6 ⊢
  linarith

/-- `C133_lmi` applies: to any accuracy, in sufficiently many bits. -/
example {ν : ℝ} (hν : 0 < ν) : ∃ (N p₀ : ℕ) (tol₀ : ℝ), 0 < tol₀ ∧ ∀ p, p₀ ≤ p → ∀ fl, Nearest p fl → ∀ tol, tol ≤ tol₀ → ∀ Q₀, Ready 1 Q₀ → ∀ im : Int, (N : Int) ≤ im →
      ∃ w' info, cuttingPlaneFeas (fun x => liftOracle (lmiRunF fl (seqDot fl) halfPlaneF (fun _ _ => 0) 1 x)) ((Ell.spaceF fl (vecDot fl)).beside (CholExt ℝ)) ⟨im, tol⟩ (Q₀, disc) =
        .ok (w', info) ∧ info.feasible = true ∧ info.status = .success ∧ info.numIters ≤ N ∧ AtLeast (-ν) (pencil halfPlaneF (fun _ _ => 0) w'.2.xc) 1 :=
  C133_lmi (μ := 1 / 100) (fun _ _ _ _ _ => rfl) (fun _ _ _ _ => rfl) ⟨le_rfl, PosDef.one, one_pos⟩ (by norm_num) halfDisc_sub (by norm_num) (fun z hz y => by
    obtain ⟨h1, -⟩ := halfDisc_ball hz
    simp only [quadOn, Nat.Ico_succ_singleton, Finset.sum_singleton, Finset.range_one, (halfPlane_pencil z 0 0).1]
    nlinarith [mul_nonneg (sq_nonneg (y 0)) (show 0 ≤ -z 0 - 1 / 100 by linarith)]) hν

/-- `C133_room` applies to minimising `x₀` over the unit disc: the level gets below `-1 + acc`. -/
example {acc : ℝ} (hacc : 0 < acc) : ∃ (N : ℕ) (ε₀ tol₀ : ℝ), 0 < ε₀ ∧ 0 < tol₀ ∧ ∀ ε u, 0 ≤ u → u ≤ ε → ε ≤ ε₀ → ∀ fl dot, RelErr u fl → VecDotErr ε dot →
    ∀ tol, tol ≤ tol₀ → ∀ m : Int, (N : Int) ≤ m → ∀ w' xb t info,
      cuttingPlaneDc (fun x t => liftOracle (leftward x t)) ((Ell.spaceF fl dot).beside Unit) (1 : ℝ) ⟨m, tol⟩ ((), disc) = .ok (w', xb, t, info) → t < -1 + acc := by
  have hpts : ∀ z : Fin 2 → ℝ, z 0 ^ 2 + z 1 ^ 2 ≤ 1 → z ∈ disc.pts := fun z hz => by
    have : disc = ⟨true, false, 0, 1, 1 ^ 2⟩ := by simp [disc]
    rw [this, euclBall_eq_pts le_rfl]
    change ∑ i, (z i - (0 : Fin 2 → ℝ) i) ^ 2 ≤ 1 ^ 2
    rw [Fin.sum_univ_two]
    simp only [Pi.zero_apply, sub_zero]
    linarith
  obtain ⟨N, R, ε₀, tol₀, ν₀, h1, h2, h3, h4⟩ := C133_room (W := Unit) (T := ℝ) (E₀ := disc) (ι := fun t : ℝ => (t : WithTop ℝ)) (Room := fun _ _ => True)
    (f := fun z : Fin 2 → ℝ => z 0) (a := 0) (p := ![-1, 0]) (ρ := 1) (η₀ := 1) (M := 1) (acc := acc) ⟨le_rfl, PosDef.one, one_pos⟩
    (fun x y δ θ _ _ _ _ _ => ⟨trivial, by simp⟩) (fun _ _ _ _ _ => trivial) one_pos one_pos (fun z hz => hpts z (by
      have hz : ∑ i, (z i - (0 : Fin 2 → ℝ) i) ^ 2 ≤ 1 ^ 2 := hz
      rw [Fin.sum_univ_two] at hz
      simpa using hz)) (fun z hz => ⟨trivial, by
        have := ball_coord zero_le_one hz 0
        simp only [Pi.zero_apply, abs_zero, zero_add] at this
        exact (le_abs_self _).trans this⟩) (hpts _ (by norm_num)) trivial hacc
  refine ⟨N, ε₀, tol₀, h1, h2, fun ε u hu0 hu hε fl dot hfl hdot tol htol m hm w' xb t info h => ?_⟩
  have hR := leftward_room.approx
  have key := (h4 ε u hu0 hu hε fl dot hfl hdot tol 0 htol le_rfl h3.le Set.univ (fun _ => True) leftward (fun _ _ => trivial)
    ⟨hR.mono, fun x hx t w hw => by
      obtain ⟨w', g, β, t1, e1, e2, e3⟩ := hR.cuts x hx t w hw
      exact ⟨w', g, β, t1, e1, e2, fun z _ => e3 z trivial⟩⟩ () trivial 1).1 m hm w' xb t info h
  have key := WithTop.coe_lt_coe.1 key
  simpa using key

end Verif
