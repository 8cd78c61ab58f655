import Verif.Props.EllVolume
import Verif.Proofs.EllRep
import Verif.Props.Feas

/-! # C25: iteration bound of `cutting_plane_feas` on an `ell` -/
namespace Verif
open Matrix MeasureTheory Ell
variable {n : ℕ}

/-- A `for` loop whose invariant forces the counter to stay below `B` ends with a `break`. -/
theorem forLoop_finish {σ : Type _} {body : ℕ → σ → Except PyErr (Step σ)} {P : ℕ → σ → Prop}
    {Q : σ → Prop} {B : ℝ}
    (hstep : ∀ k s, P k s → (∃ s', body k s = .ok (.brk s') ∧ Q s') ∨
      (∃ s', body k s = .ok (.cont s') ∧ P (k + 1) s'))
    (hB : ∀ k s, P k s → (k : ℝ) ≤ B) :
    ∀ (r k : ℕ) (last : Option ℕ) (s : σ), P k s → B < k + r →
      ∃ s' j, forLoop body r k last s = .ok (s', some j) ∧ Q s' ∧ (j : ℝ) ≤ B := by
  intro r
  induction r with
  | zero => intro k last s hP hlt; have := hB k s hP; simp at hlt; linarith
  | succ r ih =>
    intro k last s hP hlt
    rcases hstep k s hP with ⟨s', hb, hQ⟩ | ⟨s', hb, hP'⟩
    · exact ⟨s', k, by simp [forLoop, hb], hQ, hB k s hP⟩
    · obtain ⟨s2, j, h1, h2, h3⟩ := ih (k + 1) (some k) s' hP' (by push_cast at hlt ⊢; linarith)
      exact ⟨s2, j, by simp [forLoop, hb, h1], h2, h3⟩

/-- A ball inside an ellipsoid bounds its support function from below. -/
theorem Ell.ball_support {E : Ell n} {a : Fin n → ℝ} {r : ℝ} (h : euclBall a r ⊆ E.pts)
    (y : Fin n → ℝ) : r ^ 2 * (y ⬝ᵥ y) ≤ E.kappa * (y ⬝ᵥ E.Q *ᵥ y) := by
  have hy0 : 0 ≤ y ⬝ᵥ y := by
    simp only [dotProduct, ← sq]; exact Finset.sum_nonneg fun i _ => sq_nonneg _
  rcases eq_or_lt_of_le hy0 with h0 | h0
  · have : y = 0 := dotProduct_self_eq_zero.1 h0.symm
    simp [this]
  · set s := r / √(y ⬝ᵥ y) with hs
    have hs2 : s ^ 2 * (y ⬝ᵥ y) = r ^ 2 := by
      rw [hs, div_pow, Real.sq_sqrt hy0]; field_simp
    have mem : ∀ t : ℝ, t ^ 2 = s ^ 2 → a + t • y ∈ euclBall a r := by
      intro t ht
      change ∑ i, ((a + t • y) i - a i) ^ 2 ≤ r ^ 2
      have : ∑ i, ((a + t • y) i - a i) ^ 2 = t ^ 2 * (y ⬝ᵥ y) := by
        simp only [dotProduct, Finset.mul_sum]
        refine Finset.sum_congr rfl fun i _ => ?_
        simp; ring
      rw [this, ht, hs2]
    have e : ∀ t : ℝ, y ⬝ᵥ (a + t • y - E.xc) = y ⬝ᵥ (a - E.xc) + t * (y ⬝ᵥ y) := by
      intro t
      rw [show a + t • y - E.xc = (a - E.xc) + t • y by abel, dotProduct_add, dotProduct_smul, smul_eq_mul]
    have h1 := h (mem s rfl) y
    have h2 := h (mem (-s) (by ring)) y
    rw [e] at h1 h2
    have h3 : (s * (y ⬝ᵥ y)) ^ 2 = r ^ 2 * (y ⬝ᵥ y) := by rw [← hs2]; ring
    nlinarith [sq_nonneg (y ⬝ᵥ (a - E.xc))]

theorem Ell.proper_of_ball {E : Ell n} (hE : E.WF) {a : Fin n → ℝ} {r : ℝ} (hr : 0 < r)
    (h : euclBall a r ⊆ E.pts) : E.Proper := by
  rw [proper_iff hE, pd_iff]
  refine ⟨by rw [transpose_smul, (psd_iff.1 hE.psd).1], fun x hx => ?_⟩
  rw [smul_mulVec, dotProduct_smul, smul_eq_mul]
  refine lt_of_lt_of_le ?_ (ball_support h x)
  have : 0 < x ⬝ᵥ x := by
    have h0 : x ⬝ᵥ x ≠ 0 := fun h => hx (dotProduct_self_eq_zero.1 h)
    have : 0 ≤ x ⬝ᵥ x := by
      simp only [dotProduct, ← sq]; exact Finset.sum_nonneg fun i _ => sq_nonneg _
    exact lt_of_le_of_ne this (Ne.symm h0)
  positivity

/-- The ball as an `ell`. -/
theorem euclBall_eq_pts (hn : 2 ≤ n) (a : Fin n → ℝ) (r : ℝ) (b1 b2 : Bool) :
    (⟨b1, b2, a, 1, r ^ 2⟩ : Ell n).pts = euclBall a r := by
  have hk : n ≠ 1 := by omega
  have h : ∃ E, Ell.init (.scalar (r ^ 2)) a = .ok E := by
    have := (C24_ell_init_fails (.scalar (r ^ 2)) a).not.2 hk
    cases h : Ell.init (.scalar (r ^ 2)) a with
    | ok E => exact ⟨E, rfl⟩
    | error e => exact absurd ⟨e, h⟩ this
  obtain ⟨E, h⟩ := h
  have h2 := (C24_ell_init_ball hn (sq_nonneg r) h).2.2.2.2
  have h3 : E = ⟨true, false, a, 1, r ^ 2⟩ := by
    unfold Ell.init at h
    split at h
    · simp at h
    · simp only [Except.ok.injEq] at h; exact h.symm
  subst h3
  exact h2

theorem Ell.ball_vsq {E : Ell n} (hE : E.WF) {a : Fin n → ℝ} {r : ℝ} (hr : 0 < r)
    (h : euclBall a r ⊆ E.pts) : (r ^ 2) ^ n ≤ E.vsq := by
  have hb : (⟨true, false, a, 1, r ^ 2⟩ : Ell n).Proper := ⟨hE.dim, Matrix.PosDef.one, by positivity⟩
  have hv := measure_mono (μ := volume) h
  rw [← euclBall_eq_pts hE.dim a r true false, volume_pts' hE, volume_pts' hb.wf] at hv
  rw [ENNReal.mul_le_mul_iff_left euclBall_volume_pos.ne' euclBall_volume_lt_top.ne,
    ENNReal.ofReal_le_ofReal_iff (Real.sqrt_nonneg _), Real.sqrt_le_sqrt_iff (vsq_nonneg hE)] at hv
  simpa [Ell.vsq] using hv

/-- One round with a valid deep cut on an ellipsoid containing a ball: the update succeeds, `tsq` bounds the
cut's variation over the ball, and the ball is kept. -/
theorem Ell.round_ok {E : Ell n} (hE : E.WF) {a : Fin n → ℝ} {r : ℝ} (hr : 0 < r)
    (hball : euclBall a r ⊆ E.pts) {g : Fin n → ℝ} {b : Beta} (hb : deepBeta b)
    (hg0 : g ≠ 0) (hcut : euclBall a r ⊆ cutSet E.xc (g, b)) :
    ∃ E' tsq, update (g, b) E = .ok (E', .success, tsq) ∧ r ^ 2 * (g ⬝ᵥ g) ≤ tsq ∧
      (∀ p ∈ euclBall a r, (g ⬝ᵥ (p - E.xc)) ^ 2 ≤ tsq) ∧ E'.WF ∧
      euclBall a r ⊆ E'.pts ∧ E'.vsq ≤ Real.exp (-(1 / ((n : ℝ) + 1))) * E.vsq := by
  have hn' : (2 : ℝ) ≤ n := by exact_mod_cast hE.dim
  have hP := proper_of_ball hE hr hball
  have hpos : 0 < g ⬝ᵥ E.Q *ᵥ g := (pd_iff.1 hP.pd).2 g hg0
  have ht := mul_pos hP.kappa hpos
  have hτ := Real.sqrt_pos.2 ht
  have ha : a ∈ euclBall a r := by
    change ∑ i, (a i - a i) ^ 2 ≤ r ^ 2; simp; positivity
  cases hu : update (g, b) E with
  | error e =>
    exfalso
    rcases b with b | (_ | ⟨b0, _ | ⟨b1, l⟩⟩)
    · rw [C20_ell_deep_fails_iff hP hg0] at hu
      have : 0 ≤ (n : ℝ) * b := mul_nonneg (by linarith) hb
      linarith [hu.1]
    · exact hb
    · have : update (g, .seq [b0]) E = update (g, .scalar b0) E := rfl
      rw [this, C20_ell_deep_fails_iff hP hg0] at hu
      have : 0 ≤ (n : ℝ) * b0 := mul_nonneg (by linarith) hb
      linarith [hu.1]
    · rw [C20_ell_parallel_fails_iff hP hg0] at hu
      obtain ⟨-, hu⟩ := hu
      have hb : 0 ≤ b0 := hb
      simp only at hu
      split at hu
      · have : 0 ≤ (n : ℝ) * b0 := mul_nonneg (by linarith) hb
        linarith [hu]
      · obtain ⟨h1, h2, -⟩ := hu
        have hb0 : b0 = 0 := by linarith
        have hb1 : b1 = 0 := by linarith
        subst hb0 hb1
        -- the slab is a hyperplane and cannot contain a ball
        have hz : ∀ x ∈ euclBall a r, g ⬝ᵥ (x - E.xc) = 0 := by
          intro x hx
          have : g ⬝ᵥ (x - E.xc) + 0 ≤ 0 ∧ 0 ≤ g ⬝ᵥ (x - E.xc) + 0 := hcut hx
          linarith [this.1, this.2]
        have hgg : 0 < g ⬝ᵥ g := by
          have h0 : g ⬝ᵥ g ≠ 0 := fun h => hg0 (dotProduct_self_eq_zero.1 h)
          have : 0 ≤ g ⬝ᵥ g := by
            simp only [dotProduct, ← sq]; exact Finset.sum_nonneg fun i _ => sq_nonneg _
          exact lt_of_le_of_ne this (Ne.symm h0)
        have hm : a + (r / √(g ⬝ᵥ g)) • g ∈ euclBall a r := by
          change ∑ i, ((a + (r / √(g ⬝ᵥ g)) • g) i - a i) ^ 2 ≤ r ^ 2
          have : ∑ i, ((a + (r / √(g ⬝ᵥ g)) • g) i - a i) ^ 2 = (r / √(g ⬝ᵥ g)) ^ 2 * (g ⬝ᵥ g) := by
            simp only [dotProduct, Finset.mul_sum]
            refine Finset.sum_congr rfl fun i _ => ?_
            simp; ring
          rw [this, div_pow, Real.sq_sqrt hgg.le]
          field_simp; rfl
        have h3 := hz _ hm
        have h4 := hz _ ha
        rw [show a + (r / √(g ⬝ᵥ g)) • g - E.xc = (a - E.xc) + (r / √(g ⬝ᵥ g)) • g by abel, dotProduct_add,
          dotProduct_smul, smul_eq_mul, h4, zero_add] at h3
        have : 0 < r / √(g ⬝ᵥ g) * (g ⬝ᵥ g) := by
          have := Real.sqrt_pos.2 hgg
          positivity
        linarith
  | ok res =>
    obtain ⟨E', st, tsq⟩ := res
    have hst : st = .success := by
      rcases C19_ell_statuses hE hu with rfl | rfl | rfl
      · rfl
      · exact absurd (hcut ha) (C18_ell_nosoln hE hu a (hball ha))
      · exfalso
        obtain ⟨htsq, ⟨hc, -⟩ | ⟨h', -⟩⟩ := update_ok hE hu
        swap
        · cases h'
        have dc : ∀ b : ℝ, 0 ≤ b → ¬ DcCase n tsq b (.reject .noeffect) := by
          intro b hb hd
          rcases hd.reject with ⟨h, -⟩ | ⟨-, -, -, h⟩
          · cases h
          · have := Real.sqrt_nonneg tsq
            have : 0 ≤ (n : ℝ) * b := mul_nonneg (by linarith) hb
            linarith
        cases hc with
        | scalar h => exact dc _ hb h
        | single h => exact dc _ hb h
        | @par b0 b1 l _ h0 h =>
          have hb : 0 ≤ b0 := hb
          generalize hr : Calc.reject CUTStatus.noeffect = q at h
          cases h with
          | fallback _ h => exact dc _ hb (hr ▸ h)
          | nosoln => simp at hr
          | noeffect _ _ h1 h2 h3 =>
            have : 0 ≤ (n : ℝ) * (b0 * (b1 / tsq)) := by
              have : 0 ≤ b1 := hb.trans h1
              have : 0 ≤ tsq := by rw [htsq]; exact ht.le
              positivity
            linarith
          | parallel => simp at hr
    subst hst
    refine ⟨E', tsq, rfl, ?_, fun p hp => ?_, update_wf hE hu, fun x hx => ?_, (Ell.vsq_step hE hu).2.2 hb⟩
    · rw [(C20_ell_tsq_nonneg hE hu).1]
      exact ball_support hball g
    · rw [(C20_ell_tsq_nonneg hE hu).1]
      exact hball hp g
    · exact update_keep hE hu (hball hx) (mem_cutSet.1 (hcut hx))

/-- **C25 (general form).**  Let `Ω` be an oracle with private state that never raises on states satisfying an
invariant `Inv` of its own, and answers every query either with `None` or with a cut `(g, β)` valid for the ball
`B(a, r)`, deep or central (`β ≥ 0`), with `g ≠ 0` and `(g·(p - x))² ≥ tol` at some point `p` of the ball.  If the
initial ellipsoid contains the ball, then `cutting_plane_feas` returns `feasible = True` after at most
`(n+1)·ln(vsq(E₀)/r^(2n)) + 1` iterations (`vsq = κⁿ det Q` is the squared volume ratio to the unit
ball), provided `max_it` exceeds that number.  The oracle accepted the centre found in the returned object. -/
theorem C25_feas_ell_converges {W : Type _} {Ω : (Fin n → ℝ) → W → Except PyErr (W × Option ((Fin n → ℝ) × Beta))}
    (Inv : W → Prop)
    {E₀ : Ell n} (hE : E₀.WF) {a : Fin n → ℝ} {r : ℝ} (hr : 0 < r) (hball : euclBall a r ⊆ E₀.pts)
    {o : Options ℝ}
    (hΩ : ∀ x w, Inv w → (∃ w', Ω x w = .ok (w', none)) ∨
      ∃ w' g b, Ω x w = .ok (w', some (g, b)) ∧ Inv w' ∧ euclBall a r ⊆ cutSet x (g, b) ∧ deepBeta b ∧ g ≠ 0 ∧
        ∃ p ∈ euclBall a r, o.tol ≤ (g ⬝ᵥ (p - x)) ^ 2)
    (hmax : ((n : ℝ) + 1) * Real.log (E₀.vsq / (r ^ 2) ^ n) < o.maxIt) (w₀ : W) (hw₀ : Inv w₀) :
    ∃ w E info, cuttingPlaneFeas (fun x => liftOracle (Ω x)) (Ell.space W n) o (w₀, E₀) = .ok ((w, E), info) ∧
      info.feasible = true ∧ info.status = .success ∧
      (info.numIters : ℝ) ≤ ((n : ℝ) + 1) * Real.log (E₀.vsq / (r ^ 2) ^ n) + 1 ∧
      ∃ u, Inv u ∧ Ω E.xc u = .ok (w, none) := by
  have hn1 : (0 : ℝ) < (n : ℝ) + 1 := by positivity
  have hV0 : 0 < E₀.vsq := vsq_pos (proper_of_ball hE hr hball)
  have hrn : 0 < (r ^ 2) ^ n := by positivity
  let P : ℕ → FeasSt (W × Ell n) → Prop := fun k s =>
    s.feasible = false ∧ s.status = .success ∧ Inv s.w.1 ∧ s.w.2.WF ∧ euclBall a r ⊆ s.w.2.pts ∧
      s.w.2.vsq ≤ Real.exp (-(k / ((n : ℝ) + 1))) * E₀.vsq
  let Q : FeasSt (W × Ell n) → Prop := fun s => s.feasible = true ∧ s.status = .success ∧
    ∃ u, Inv u ∧ Ω s.w.2.xc u = .ok (s.w.1, none)
  have hB : ∀ k s, P k s → (k : ℝ) ≤ ((n : ℝ) + 1) * Real.log (E₀.vsq / (r ^ 2) ^ n) := by
    rintro k s ⟨-, -, -, hwf, hb, hv⟩
    have h1 := (ball_vsq hwf hr hb).trans hv
    rw [Real.exp_neg, inv_mul_eq_div, le_div_iff₀ (Real.exp_pos _)] at h1
    have h2 : Real.exp (k / ((n : ℝ) + 1)) ≤ E₀.vsq / (r ^ 2) ^ n := by
      rw [le_div_iff₀ hrn]; linarith
    have h3 := (Real.le_log_iff_exp_le (div_pos hV0 hrn)).2 h2
    rw [div_le_iff₀ hn1] at h3
    linarith
  have hstep : ∀ k s, P k s →
      (∃ s', feasBody (fun x => liftOracle (Ω x)) (Ell.space W n) o.tol k s = .ok (.brk s') ∧ Q s') ∨
      (∃ s', feasBody (fun x => liftOracle (Ω x)) (Ell.space W n) o.tol k s = .ok (.cont s') ∧ P (k + 1) s') := by
    rintro k ⟨⟨w, E⟩, f, st⟩ ⟨rfl, rfl, hi, hwf, hb, hv⟩
    rcases hΩ E.xc w hi with ⟨w', h⟩ | ⟨w', g, b, h, hi', hc, hdb, hg, p, hp, htol⟩
    · left
      refine ⟨⟨(w', E), true, .success⟩, ?_, rfl, rfl, w, hi, h⟩
      simp [feasBody, Ell.space, liftOracle, h]
    · right
      obtain ⟨E', tsq, hu, -, ht, hwf', hb', hv'⟩ := round_ok hwf hr hb hdb hg hc
      refine ⟨⟨(w', E'), false, .success⟩, ?_, rfl, rfl, hi', hwf', hb', ?_⟩
      · have : ¬ tsq < o.tol := not_lt.2 (htol.trans (ht p hp))
        simp [feasBody, Ell.space, liftOracle, h, hu, this]
      · refine hv'.trans ?_
        have := mul_le_mul_of_nonneg_left hv (Real.exp_pos (-(1 / ((n : ℝ) + 1)))).le
        refine this.trans (le_of_eq ?_)
        rw [← mul_assoc, ← Real.exp_add]
        congr 2
        push_cast; ring
  have h0 : P 0 ⟨(w₀, E₀), false, .success⟩ := ⟨rfl, rfl, hw₀, hE, hball, by simp⟩
  have hmi : (0 : ℝ) < o.maxIt := lt_of_le_of_lt (by simpa using hB 0 _ h0) hmax
  have hcast : ((o.maxIt.toNat : ℕ) : ℝ) = o.maxIt := by
    have h : (0 : ℤ) ≤ o.maxIt := by exact_mod_cast hmi.le
    have := Int.toNat_of_nonneg h
    exact_mod_cast this
  obtain ⟨s, j, hrun, hQ, hj⟩ := forLoop_finish hstep hB o.maxIt.toNat 0 none _ h0
    (by rw [hcast]; simpa using hmax)
  have hres : cuttingPlaneFeas (fun x => liftOracle (Ω x)) (Ell.space W n) o (w₀, E₀) =
      .ok (s.w, ⟨s.feasible, j + 1, s.status⟩) := by
    simp [cuttingPlaneFeas, forRange, hrun, readVar]
  obtain ⟨⟨w, E⟩, f, st⟩ := s
  obtain ⟨rfl, rfl, hu⟩ : f = true ∧ st = .success ∧ ∃ u, Inv u ∧ Ω E.xc u = .ok (w, none) := hQ
  exact ⟨w, E, _, hres, rfl, rfl, by push_cast; linarith, hu⟩

/-- A ball of radius `r` has a point `p` with `|g·(p - x)| ≥ r|g|`. -/
theorem euclBall_spread {a x g : Fin n → ℝ} {r : ℝ} : ∃ p ∈ euclBall a r, r ^ 2 * (g ⬝ᵥ g) ≤ (g ⬝ᵥ (p - x)) ^ 2 := by
  have hy0 : 0 ≤ g ⬝ᵥ g := by
    simp only [dotProduct, ← sq]; exact Finset.sum_nonneg fun i _ => sq_nonneg _
  rcases eq_or_lt_of_le hy0 with h0 | h0
  · refine ⟨a, ?_, by rw [← h0, mul_zero]; positivity⟩
    change ∑ i, (a i - a i) ^ 2 ≤ r ^ 2; simp; positivity
  · set s := r / √(g ⬝ᵥ g) with hs
    have hs2 : s ^ 2 * (g ⬝ᵥ g) = r ^ 2 := by
      rw [hs, div_pow, Real.sq_sqrt hy0]; field_simp
    have mem : ∀ t : ℝ, t ^ 2 = s ^ 2 → a + t • g ∈ euclBall a r := by
      intro t ht
      change ∑ i, ((a + t • g) i - a i) ^ 2 ≤ r ^ 2
      have : ∑ i, ((a + t • g) i - a i) ^ 2 = t ^ 2 * (g ⬝ᵥ g) := by
        simp only [dotProduct, Finset.mul_sum]
        refine Finset.sum_congr rfl fun i _ => ?_
        simp; ring
      rw [this, ht, hs2]
    have e : ∀ t : ℝ, g ⬝ᵥ (a + t • g - x) = g ⬝ᵥ (a - x) + t * (g ⬝ᵥ g) := by
      intro t
      rw [show a + t • g - x = (a - x) + t • g by abel, dotProduct_add, dotProduct_smul, smul_eq_mul]
    have h3 : (s * (g ⬝ᵥ g)) ^ 2 = r ^ 2 * (g ⬝ᵥ g) := by rw [← hs2]; ring
    by_cases hsg : 0 ≤ g ⬝ᵥ (a - x) * (s * (g ⬝ᵥ g))
    · refine ⟨_, mem s rfl, ?_⟩
      rw [e]; nlinarith [sq_nonneg (g ⬝ᵥ (a - x))]
    · refine ⟨_, mem (-s) (by ring), ?_⟩
      rw [e]; nlinarith [sq_nonneg (g ⬝ᵥ (a - x))]

/-- **C25 (general start).**  Let `Ω` be an oracle with private state that never raises and answers
every query either with `None` or with a cut `(g, β)` valid for the ball `B(a, r)`, deep or central
(`β ≥ 0`), with `|g| ≥ 1`.  If the initial ellipsoid contains the ball and `tol ≤ r²`, then
`cutting_plane_feas` returns `feasible = True` after at most
`(n+1)·ln(vsq(E₀)/r^(2n)) + 1` iterations (`vsq = κⁿ det Q` is the squared volume ratio to the unit
ball), provided `max_it` exceeds that number.  The oracle accepted the centre found in the returned
object. -/
theorem C25_feas_ell_terminates {W : Type _} {Ω : (Fin n → ℝ) → W → Except PyErr (W × Option ((Fin n → ℝ) × Beta))}
    {E₀ : Ell n} (hE : E₀.WF) {a : Fin n → ℝ} {r : ℝ} (hr : 0 < r) (hball : euclBall a r ⊆ E₀.pts)
    (hΩ : ∀ x w, (∃ w', Ω x w = .ok (w', none)) ∨
      ∃ w' g b, Ω x w = .ok (w', some (g, b)) ∧ euclBall a r ⊆ cutSet x (g, b) ∧ deepBeta b ∧ 1 ≤ g ⬝ᵥ g)
    {o : Options ℝ} (htol : o.tol ≤ r ^ 2)
    (hmax : ((n : ℝ) + 1) * Real.log (E₀.vsq / (r ^ 2) ^ n) < o.maxIt) (w₀ : W) :
    ∃ w E info, cuttingPlaneFeas (fun x => liftOracle (Ω x)) (Ell.space W n) o (w₀, E₀) = .ok ((w, E), info) ∧
      info.feasible = true ∧ info.status = .success ∧
      (info.numIters : ℝ) ≤ ((n : ℝ) + 1) * Real.log (E₀.vsq / (r ^ 2) ^ n) + 1 ∧
      ∃ u, Ω E.xc u = .ok (w, none) := by
  have key := C25_feas_ell_converges (Ω := Ω) (fun _ => True) hE hr hball (fun x w _ => ?_) hmax w₀ trivial
  · obtain ⟨w, E, info, h1, h2, h3, h4, u, -, h5⟩ := key
    exact ⟨w, E, info, h1, h2, h3, h4, u, h5⟩
  rcases hΩ x w with h | ⟨w', g, b, h, hc, hb, hg⟩
  · exact .inl h
  · obtain ⟨p, hp, hpg⟩ := euclBall_spread (a := a) (x := x) (g := g) (r := r)
    refine .inr ⟨w', g, b, h, trivial, hc, hb, ?_, p, hp, htol.trans (le_trans ?_ hpg)⟩
    · rintro rfl; simp at hg; linarith
    · nlinarith [sq_nonneg r]

/-- **C25.**  The same for the constructor's ball `ell(R², x₀)`: at most `2n(n+1)·ln(R/r) + 1`
iterations. -/
theorem C25_feas_ell_iterations {W : Type _} {Ω : (Fin n → ℝ) → W → Except PyErr (W × Option ((Fin n → ℝ) × Beta))}
    (hn : 2 ≤ n) {x₀ a : Fin n → ℝ} {R r : ℝ} (hr : 0 < r) {E₀ : Ell n}
    (hinit : Ell.init (.scalar (R ^ 2)) x₀ = .ok E₀) (hball : euclBall a r ⊆ euclBall x₀ R)
    (hΩ : ∀ x w, (∃ w', Ω x w = .ok (w', none)) ∨
      ∃ w' g b, Ω x w = .ok (w', some (g, b)) ∧ euclBall a r ⊆ cutSet x (g, b) ∧ deepBeta b ∧ 1 ≤ g ⬝ᵥ g)
    {o : Options ℝ} (htol : o.tol ≤ r ^ 2)
    (hmax : 2 * n * ((n : ℝ) + 1) * Real.log (R / r) < o.maxIt) (w₀ : W) :
    ∃ w E info, cuttingPlaneFeas (fun x => liftOracle (Ω x)) (Ell.space W n) o (w₀, E₀) = .ok ((w, E), info) ∧
      info.feasible = true ∧ info.status = .success ∧
      (info.numIters : ℝ) ≤ 2 * n * ((n : ℝ) + 1) * Real.log (R / r) + 1 ∧
      ∃ u, Ω E.xc u = .ok (w, none) := by
  obtain ⟨hwf, -, -, -, hpts⟩ := C24_ell_init_ball hn (sq_nonneg R) hinit
  have h3 : E₀ = ⟨true, false, x₀, 1, R ^ 2⟩ := by
    unfold Ell.init at hinit
    split at hinit
    · simp at hinit
    · simp only [Except.ok.injEq] at hinit; exact hinit.symm
  have hv : ((n : ℝ) + 1) * Real.log (E₀.vsq / (r ^ 2) ^ n) = 2 * n * ((n : ℝ) + 1) * Real.log (R / r) := by
    have : E₀.vsq = (R ^ 2) ^ n := by rw [h3]; simp [Ell.vsq]
    rw [this, ← div_pow, ← div_pow, Real.log_pow, Real.log_pow]
    push_cast; ring
  rw [← hv] at hmax ⊢
  exact C25_feas_ell_terminates hwf hr (by rw [hpts]; exact hball) hΩ htol hmax w₀

/-- A concrete oracle: accept iff `x₀ ≤ -1`, otherwise cut with `x₀ - x_c₀ + (x_c₀ + 1) ≤ 0`. -/
noncomputable def exHalf (x : Fin 2 → ℝ) (w : Unit) :
    Except PyErr (Unit × Option ((Fin 2 → ℝ) × Beta)) :=
  if x 0 ≤ -1 then .ok (w, none) else .ok (w, some (![1, 0], .scalar (x 0 + 1)))

/-- C25 applies to it: disc of radius 4 about 0, disc of radius 1 about (-2, 0), at most
`12·ln 4 + 1 < 18` iterations. -/
example : ∃ w E info, cuttingPlaneFeas (fun x => liftOracle (exHalf x)) (Ell.space Unit 2) ⟨2000, 1⟩
      ((), ⟨true, false, 0, 1, 4 ^ 2⟩) = .ok ((w, E), info) ∧ info.feasible = true ∧
      info.status = .success ∧ (info.numIters : ℝ) ≤ 2 * (2 : ℕ) * (((2 : ℕ) : ℝ) + 1) * Real.log (4 / 1) + 1 ∧
      ∃ u, exHalf E.xc u = .ok (w, none) := by
  refine C25_feas_ell_iterations (a := ![-2, 0]) (x₀ := 0) le_rfl one_pos ?_ ?_ ?_ (by norm_num) ?_ ()
  · unfold Ell.init c1? pyDiv; norm_num
  · intro x hx
    simp only [euclBall, Set.mem_ofPred_eq, Fin.sum_univ_two, cons_val_zero, cons_val_one,
      Pi.zero_apply] at hx ⊢
    nlinarith [sq_nonneg (x 0 + 2), sq_nonneg (x 1), sq_nonneg (x 0 - 3)]
  · intro x w
    unfold exHalf
    by_cases h : x 0 ≤ -1
    · left; exact ⟨w, by simp [h]⟩
    · right
      refine ⟨w, ![1, 0], .scalar (x 0 + 1), by simp [h], fun z hz => ?_, ?_, by simp⟩
      · simp only [euclBall, Set.mem_ofPred_eq, Fin.sum_univ_two, cons_val_zero, cons_val_one] at hz
        change ![1, 0] ⬝ᵥ (z - x) + (x 0 + 1) ≤ 0
        simp only [dotProduct, Fin.sum_univ_two, cons_val_zero, cons_val_one, Pi.sub_apply]
        nlinarith [sq_nonneg (z 1)]
      · change 0 ≤ x 0 + 1; linarith
  · have : Real.log (4 / 1) ≤ 4 / 1 - 1 := Real.log_le_sub_one_of_pos (by norm_num)
    norm_num at this ⊢
    linarith

end Verif
