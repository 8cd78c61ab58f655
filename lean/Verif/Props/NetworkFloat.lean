import Verif.Proofs.NetworkFloat
import Verif.Props.NegCycleFloat
import Verif.Props.CycleRatio

/-!
# C129: the cycle ratio search in floating point

`cutting_plane_dc` with `cycle_ratio_oracle` and `ell1d`, all of them rounded.  All errors are multiples of one number,
`Δ = u·D/s0 + (u + γ)(ρ + M)` (`ratioUnit`): `u` is the unit roundoff, `γ` the relative error of `sum`, `D` bounds the potentials, `M` the interval,
every edge takes at least the time `s0`, and the ratio of each edge is at most `ρ`.
-/
namespace Verif
open Ell1d FloatSpec
variable {V α : Type _} [Field α] [LinearOrder α] [IsStrictOrderedRing α]

section run
variable {u γ ρ s0 M D tol : α} {n : ℕ} {E : List (V × V)} {cost time : V × V → α} {fl : α → α} {sum : List α → α} {find : Finder V α}

/-- `cycle_ratio_oracle` next to the search space. -/
def cycleRatioOracleF (fl : α → α) (sum : List α → α) (find : Finder V α) (cost time : V × V → α) (x : α) (t : WithBot α) :
    (V → α) × Ell1d α → Except PyErr (((V → α) × Ell1d α) × (α × α) × Option (WithBot α)) :=
  liftOracle (cycleRatioCallF fl sum find cost time x t)

omit [IsStrictOrderedRing α] in
/-- One round: the call and the update. -/
theorem ell1dF_step {W A : Type _} {f : W → Except PyErr (W × A)} {v v1 v2 : W × Ell1d α} {a : A} {c : α × α} {st : CUTStatus} {tsq : α}
    (hq : liftOracle f v = .ok (v1, a)) (hu : ((Ell1d.spaceF fl).beside W).update c v1 = .ok (v2, st, tsq)) :
    f v.1 = .ok (v1.1, a) ∧ updateF fl c v.2 = .ok (v2.2, st, tsq) ∧ v2.1 = v1.1 := by
  obtain ⟨hq1, hq2⟩ := liftOracle_ok hq
  refine ⟨hq1, ?_, beside_update hu⟩
  simp only [Space.beside, Ell1d.spaceF] at hu
  rw [hq2] at hu
  split at hu
  · simp at hu
  · rename_i E1 st1 t1 hE
    simp only [Except.ok.injEq, Prod.mk.injEq] at hu
    obtain ⟨rfl, rfl, rfl⟩ := hu
    exact hE

/-- The radius after a cut that is at most slightly shallow. -/
theorem ell1dF_radius (hfl : RelErr u fl) (hu : 0 ≤ u) (hu1 : u ≤ 1 / 100) {S : Ell1d α} (hM : |S.xc| + |S.r| ≤ M) {c : α × α} (hg : c.1 ≠ 0) {ζ : α}
    (hβ : -(ζ * |c.1|) ≤ c.2) {S' : Ell1d α} {st : CUTStatus} {tsq : α} (h : updateF fl c S = .ok (S', st, tsq)) :
    (st = .success → S'.r ≤ max S.r 0 / 2 + ζ / 2 + 10 * (u * M) ∧ min S.r 0 - 11 * (u * M) ≤ S'.r) ∧ (st = .noeffect → (1 - u) * |S.r| < ζ) := by
  obtain ⟨g, β⟩ := c
  simp only at hg hβ
  have hM0 : 0 ≤ M := (add_nonneg (abs_nonneg _) (abs_nonneg _)).trans hM
  have hv0 : 0 ≤ u * M := mul_nonneg hu hM0
  have hga : 0 < |g| := abs_pos.2 hg
  have hq : -ζ ≤ β / |g| := by rw [le_div_iff₀ hga]; linarith
  obtain ⟨E₁, st₁, tsq₁, k1, k2, k3, k4, k5, k6⟩ := step_err hfl hu hu1 hM hg (β := β)
  have hverd := (C128_verdict hfl hg h).2.2
  rw [k1] at h
  simp only [Except.ok.injEq, Prod.mk.injEq] at h
  obtain ⟨rfl, rfl, rfl⟩ := h
  refine ⟨fun hs => ?_, fun hs => ?_⟩
  · obtain ⟨-, k7, k8, k9⟩ := k4 hs
    rw [abs_le] at k7
    rcases lt_or_gt_of_ne hg with hg | hg
    · obtain ⟨a, b⟩ := k9 hg
      rw [abs_of_neg hg, div_neg] at hq
      rw [abs_le] at a b
      rcases le_total S.r 0 with h0 | h0
      · rw [max_eq_right h0, min_eq_left h0]
        rw [abs_of_nonpos h0] at k7
        constructor <;> linarith
      · rw [max_eq_left h0, min_eq_right h0]
        rw [abs_of_nonneg h0] at k7
        constructor <;> linarith
    · obtain ⟨a, b⟩ := k8 hg
      rw [abs_of_pos hg] at hq
      rw [abs_le] at a b
      rcases le_total S.r 0 with h0 | h0
      · rw [max_eq_right h0, min_eq_left h0]
        rw [abs_of_nonpos h0] at k7
        constructor <;> linarith
      · rw [max_eq_left h0, min_eq_right h0]
        rw [abs_of_nonneg h0] at k7
        constructor <;> linarith
  · by_contra hcon
    have h1 := k6 hs
    have h2 : |β / g| = -(β / |g|) := by
      rw [abs_div, abs_of_neg, neg_div]
      by_contra hc
      exact absurd h1 (not_lt.2 (div_nonneg (not_lt.1 hc) hga.le))
    have := hverd (by rw [h2]; linarith)
    rw [hs] at this
    simp at this

/-- What holds after `j` rounds. -/
structure RatioInv (E : List (V × V)) (cost time : V × V → α) (u Δ M : α) (t0 : WithBot α) (d0 : V → α) (S0 : Ell1d α) (j : ℕ)
    (s : DcSt ((V → α) × Ell1d α) α (WithBot α)) : Prop where
  bound : |s.w.2.xc| + |s.w.2.r| ≤ (1 + 20 * (j * u)) * M
  keep : ∀ z ∈ S0.pts, RatioFeasible E cost time z → s.t ≤ (z : WithBot α) → z ∈ s.w.2.ptsUpTo (27 * (j * Δ))
  mono : t0 ≤ s.t
  best : (s.xBest = none ∧ s.t = t0) ∨ ∃ x : α, s.xBest = some x ∧ s.t = (x : WithBot α) ∧ t0 < (x : WithBot α) ∧ RatioFeasible E cost time (x - 10 * Δ)
  up : s.w.2.r ≤ S0.r / 2 ^ j + 44 * Δ
  low : -(22 * (j * Δ)) ≤ s.w.2.r
  dist : ∀ v, s.w.1 v ≤ d0 v
  status : s.status = .success

variable {S0 : Ell1d α} {d0 : V → α} {t0 : WithBot α}

omit [IsStrictOrderedRing α] in
/-- The oracle only lowers the distances. -/
theorem cycleRatioCallF_le (hfind : FinderUpTo u n E find) {x : α} {t : WithBot α} {d d' : V → α} {c : α × α} {t1 : Option (WithBot α)}
    (h : cycleRatioCallF fl sum find cost time x t d = .ok (d', c, t1)) : ∀ v, d' v ≤ d v := by
  have net : ∀ {d' c t1}, ratioNetF fl sum find cost time x d = .ok (d', c, t1) → ∀ v, d' v ≤ d v := by
    intro d' c t1 hnet
    unfold ratioNetF networkCallF at hnet
    cases hf : find d (fun e => ratioEvalF fl cost time e x) with
    | error e => rw [hf] at hnet; simp at hnet
    | ok r =>
      obtain ⟨d1, r⟩ := r
      have := (hfind _ _ _ _ hf).1
      rw [hf] at hnet
      cases r <;> simp only [Except.ok.injEq, Prod.mk.injEq] at hnet <;> rw [← hnet.1] <;> exact this
  unfold cycleRatioCallF at h
  split at h
  · exact net h
  · simp only at h
    split_ifs at h with h0
    · simp only [Except.ok.injEq, Prod.mk.injEq] at h
      rw [← h.1]; exact fun _ => le_rfl
    · exact net h

/-- One round of the search. -/
theorem RatioInv.step (hfl : RelErr u fl) (hu : 0 ≤ u) (hu1 : u ≤ 1 / 100) (hs : SumErr γ n sum) (hγ : 0 ≤ γ) (hγ1 : γ ≤ 1 / 100)
    (h : RatioData E cost time ρ s0) (hρ : 0 ≤ ρ) (hfind : FinderUpTo u n E find) (hM : |S0.xc| + |S0.r| ≤ M) (hr : 0 ≤ S0.r) (hD0 : 0 ≤ D)
    (hd0 : ∀ v, d0 v ≤ D) {j : ℕ} {s : DcSt ((V → α) × Ell1d α) α (WithBot α)} (hI : RatioInv E cost time u (ratioUnit u γ ρ s0 M D) M t0 d0 S0 j s)
    (hj : 20 * ((j + 1) * u) ≤ 1) {w1 w2 : (V → α) × Ell1d α} {c : α × α} {t1 : Option (WithBot α)} {st : CUTStatus} {tsq : α}
    (hq : cycleRatioOracleF fl sum find cost time s.w.2.xc s.t s.w = .ok (w1, c, t1))
    (hup : ((Ell1d.spaceF fl).beside (V → α)).update c w1 = .ok (w2, st, tsq)) (hlow : ∀ v, -D ≤ w2.1 v) :
    updateF fl c s.w.2 = .ok (w2.2, st, tsq) ∧ (∀ v, w2.1 v ≤ s.w.1 v) ∧ 99 / 100 * s0 ≤ |c.1| ∧
    s.t ≤ (dcAfter ((Ell1d.spaceF fl).beside (V → α)) s w1 t1).t ∧ t0 ≤ (dcAfter ((Ell1d.spaceF fl).beside (V → α)) s w1 t1).t ∧
    (((dcAfter ((Ell1d.spaceF fl).beside (V → α)) s w1 t1).xBest = none ∧ (dcAfter ((Ell1d.spaceF fl).beside (V → α)) s w1 t1).t = t0) ∨
      ∃ x : α, (dcAfter ((Ell1d.spaceF fl).beside (V → α)) s w1 t1).xBest = some x ∧ (dcAfter ((Ell1d.spaceF fl).beside (V → α)) s w1 t1).t = (x : WithBot α) ∧
        t0 < (x : WithBot α) ∧ RatioFeasible E cost time (x - 10 * ratioUnit u γ ρ s0 M D)) ∧
    (st = .success → RatioInv E cost time u (ratioUnit u γ ρ s0 M D) M t0 d0 S0 (j + 1) { dcAfter ((Ell1d.spaceF fl).beside (V → α)) s w1 t1 with w := w2 }) ∧
    (st = .nosoln → ∀ y ∈ S0.pts, RatioFeasible E cost time y → (dcAfter ((Ell1d.spaceF fl).beside (V → α)) s w1 t1).t ≤ (y : WithBot α) →
      ∀ z ∈ S0.pts, RatioFeasible E cost time z → (dcAfter ((Ell1d.spaceF fl).beside (V → α)) s w1 t1).t ≤ (z : WithBot α) →
        |y - z| ≤ 27 * ((j + 1) * ratioUnit u γ ρ s0 M D)) ∧
    (st = .noeffect → |s.w.2.r| ≤ 5 * ratioUnit u γ ρ s0 M D) ∧ st ≠ .smallenough := by
  obtain ⟨hq1, hu2, hw⟩ := ell1dF_step hq hup
  have hM0 : 0 ≤ M := (add_nonneg (abs_nonneg _) (abs_nonneg _)).trans hM
  have hDs : 0 ≤ u * (D / s0) := mul_nonneg hu (div_nonneg hD0 h.pos.le)
  have huρ : 0 ≤ u * ρ := mul_nonneg hu hρ
  have huM : 0 ≤ u * M := mul_nonneg hu hM0
  have hγM : 0 ≤ γ * (ρ + M) := mul_nonneg hγ (add_nonneg hρ hM0)
  have hUM : u * M ≤ ratioUnit u γ ρ s0 M D := by unfold ratioUnit; linarith
  have hju : 0 ≤ (j : α) * u := mul_nonneg (Nat.cast_nonneg _) hu
  have hB2 : (1 + 20 * (j * u)) * M ≤ 2 * M := mul_le_mul_of_nonneg_right (by linarith) hM0
  have hb := hI.bound.trans hB2
  have hx : |s.w.2.xc| ≤ 2 * M := by linarith [abs_nonneg s.w.2.r]
  have hDd : ∀ v, w1.1 v ≤ s.w.1 v → |w1.1 v| ≤ D := fun v hv => abs_le.2 ⟨by rw [← hw]; exact hlow v, hv.trans ((hI.dist v).trans (hd0 v))⟩
  have hdd : ∀ v, w1.1 v ≤ s.w.1 v := cycleRatioCallF_le hfind hq1
  obtain ⟨-, c2, c3, c4, c5⟩ := cycleRatioCallF_ok hfl hu hu1 hs hγ hγ1 h hρ hfind hM0 hx hq1 (fun v => hDd v (hdd v)) hD0
  set Δ := ratioUnit u γ ρ s0 M D with hΔ
  set A := dcAfter ((Ell1d.spaceF fl).beside (V → α)) s w1 t1 with hA
  have hΔ0 : 0 ≤ Δ := huM.trans hUM
  have hg : c.1 ≠ 0 := fun h0 => by rw [h0, abs_zero] at c2; linarith [h.pos]
  have hcne : c ≠ (0, 0) := fun h0 => hg (by rw [h0])
  have hAt : A.t = t1.getD s.t := by rw [hA]; cases t1 <;> rfl
  have hstA : s.t ≤ A.t ∧ A.status = .success ∧ ((A.xBest = none ∧ A.t = t0) ∨ ∃ x : α, A.xBest = some x ∧ A.t = (x : WithBot α) ∧
      t0 < (x : WithBot α) ∧ RatioFeasible E cost time (x - 10 * Δ)) := by
    rcases c5 with rfl | ⟨rfl, -, c6, c7⟩
    · exact ⟨le_rfl, hI.status, hI.best⟩
    · refine ⟨c6.le, hI.status, .inr ⟨s.w.2.xc, ?_, rfl, hI.mono.trans_lt c6, c7⟩⟩
      show some (w1.2.xc) = some s.w.2.xc
      rw [(liftOracle_ok hq).2]
  obtain ⟨hst, hsA, hbest⟩ := hstA
  have hpts : ∀ z ∈ S0.pts, |z| ≤ M := fun z hz => by
    refine le_trans ?_ hM
    rw [abs_of_nonneg hr]
    rw [abs_le]
    have := neg_abs_le S0.xc
    have := le_abs_self S0.xc
    obtain ⟨a, b⟩ := hz
    constructor <;> linarith
  have hjΔ : 0 ≤ (j : α) * Δ := mul_nonneg (Nat.cast_nonneg _) hΔ0
  obtain ⟨k1, k2, k3, k4, k5⟩ := C128_update hfl hu hu1 hI.bound hcne (e := 27 * (j * Δ)) (η := 7 * Δ) (by linarith) (by linarith) hu2
  have hu2M : u * ((1 + 20 * (j * u)) * M) ≤ 2 * (u * M) := by
    have := mul_le_mul_of_nonneg_left hB2 hu
    linarith
  obtain ⟨r1, r2⟩ := ell1dF_radius hfl hu hu1 hb hg (ζ := 4 * Δ) c3 hu2
  have hcut : ∀ z ∈ S0.pts, RatioFeasible E cost time z → A.t ≤ (z : WithBot α) → z ∈ s.w.2.ptsUpTo (27 * (j * Δ)) ∧ z ∈ halfLineUpTo (7 * Δ) s.w.2.xc c :=
    fun z hz hzf ht => ⟨hI.keep z hz hzf (hst.trans ht), c4 z hzf (hpts z hz) (hAt ▸ ht)⟩
  refine ⟨hu2, fun v => by rw [hw]; exact hdd v, c2, hst, hI.mono.trans hst, hbest, fun hsucc => ?_, fun hns y hy hyf hyt z hz hzf hzt => ?_, fun hne => ?_, k3⟩
  · obtain ⟨q1, q2⟩ := r1 hsucc
    have hr2 : 0 ≤ S0.r / 2 ^ j := by positivity
    refine ⟨k1.trans ?_, fun z hz hzf ht => ?_, hI.mono.trans hst, hbest, ?_, ?_, fun v => ?_, hsA⟩
    · have : (1 + 10 * u) * (1 + 20 * (j * u)) ≤ 1 + 20 * ((j + 1 : ℕ) * u) := by
        push_cast
        have : 20 * (j * u) * u ≤ 1 * u := mul_le_mul_of_nonneg_right (by linarith) hu
        linarith
      calc _ = (1 + 10 * u) * (1 + 20 * (j * u)) * M := by ring
        _ ≤ _ := mul_le_mul_of_nonneg_right this hM0
    · obtain ⟨a, b⟩ := hcut z hz hzf ht
      have := k4 (by rw [hsucc]; simp) z a b
      simp only [Ell1d.ptsUpTo, Set.mem_ofPred_eq] at this ⊢
      push_cast
      linarith
    · have : max s.w.2.r 0 ≤ S0.r / 2 ^ j + 44 * Δ := max_le hI.up (by linarith)
      rw [pow_succ, ← div_div]
      simp only
      linarith
    · have : -(22 * (j * Δ)) ≤ min s.w.2.r 0 := le_min hI.low (by linarith)
      push_cast
      linarith
    · simp only
      rw [hw]; exact (hdd v).trans (hI.dist v)
  · obtain ⟨a, b⟩ := hcut y hy hyf hyt
    obtain ⟨a', b'⟩ := hcut z hz hzf hzt
    have := k5 hns y a b z a' b'
    linarith
  · have := r2 hne
    have h1 : u * |s.w.2.r| ≤ 1 / 100 * |s.w.2.r| := mul_le_mul_of_nonneg_right hu1 (abs_nonneg _)
    linarith

theorem RatioInv.rounds (hfl : RelErr u fl) (hu : 0 ≤ u) (hu1 : u ≤ 1 / 100) (hs : SumErr γ n sum) (hγ : 0 ≤ γ) (hγ1 : γ ≤ 1 / 100)
    (h : RatioData E cost time ρ s0) (hρ : 0 ≤ ρ) (hfind : FinderUpTo u n E find) (hM : |S0.xc| + |S0.r| ≤ M) (hr : 0 ≤ S0.r) (hD0 : 0 ≤ D)
    (hd0 : ∀ v, d0 v ≤ D) {j : ℕ} {s : DcSt ((V → α) × Ell1d α) α (WithBot α)}
    (hR : Rounds (dcBody (cycleRatioOracleF fl sum find cost time) ((Ell1d.spaceF fl).beside (V → α)) tol) 0 ⟨(d0, S0), none, t0, .success⟩ j s)
    (hj : 20 * (j * u) ≤ 1) (hlow : ∀ v, -D ≤ s.w.1 v) : RatioInv E cost time u (ratioUnit u γ ρ s0 M D) M t0 d0 S0 j s := by
  have hM0 : 0 ≤ M := (add_nonneg (abs_nonneg _) (abs_nonneg _)).trans hM
  have hDs : 0 ≤ u * (D / s0) := mul_nonneg hu (div_nonneg hD0 h.pos.le)
  have hΔ0 : 0 ≤ ratioUnit u γ ρ s0 M D := add_nonneg hDs (mul_nonneg (add_nonneg hu hγ) (add_nonneg hρ hM0))
  induction hR with
  | refl =>
    refine ⟨by simpa using hM, fun z hz _ _ => ?_, le_rfl, .inl ⟨rfl, rfl⟩, ?_, ?_, fun _ => le_rfl, rfl⟩
    · rw [Nat.cast_zero, zero_mul, mul_zero, ptsUpTo_zero]; exact hz
    · rw [pow_zero, div_one]; simp only; linarith
    · simp only [Nat.cast_zero, zero_mul, mul_zero, neg_zero]; exact hr
  | @snoc j s s' hR hb ih =>
    push_cast at hj
    obtain ⟨w1, c, t1, w2, tsq, hq, hup, -, rfl⟩ := dcBody_cont hb
    have hle : ∀ v, w2.1 v ≤ s.w.1 v := by
      obtain ⟨hq1, -, hw⟩ := ell1dF_step hq hup
      rw [hw]
      exact cycleRatioCallF_le hfind hq1
    have hI := ih (by linarith [mul_nonneg (Nat.cast_nonneg (α := α) j) hu]) fun v => (hlow v).trans (hle v)
    exact (hI.step hfl hu hu1 hs hγ hγ1 h hρ hfind hM hr hD0 hd0 hj hq hup hlow).2.2.2.2.2.2.1 rfl

/-- **C129** (soundness).  A run of `k` iterations with `20ku ≤ 1` that returns.  Either it found nothing, or it returns a ratio `x` above `t0` that
is feasible up to `10Δ`.  A feasible ratio `z` of the initial interval exceeds the answer (and the lower end of the interval) by no more than
`27kΔ` after the verdict "no solution", `54kΔ + 10Δ` after "no effect", and `2d + 54kΔ` after "small enough", where `tol ≤ (1 - 4u)(0.99·s0·d)²`. -/
theorem C129_run (hfl : RelErr u fl) (hu : 0 ≤ u) (hu1 : u ≤ 1 / 100) (hs : SumErr γ n sum) (hγ : 0 ≤ γ) (hγ1 : γ ≤ 1 / 100)
    (h : RatioData E cost time ρ s0) (hρ : 0 ≤ ρ) (hfind : FinderUpTo u n E find) (hM : |S0.xc| + |S0.r| ≤ M) (hr : 0 ≤ S0.r) {m : Int}
    {w' : (V → α) × Ell1d α} {xb : Option α} {t : WithBot α} {info : CInfo}
    (hrun : cuttingPlaneDc (cycleRatioOracleF fl sum find cost time) ((Ell1d.spaceF fl).beside (V → α)) t0 ⟨m, tol⟩ (d0, S0) = .ok (w', xb, t, info))
    (hk : 20 * (info.numIters * u) ≤ 1) (hD0 : 0 ≤ D) (hd0 : ∀ v, d0 v ≤ D) (hD : ∀ v, -D ≤ w'.1 v) :
    ((xb = none ∧ t = t0 ∧ info.feasible = false) ∨ ∃ x : α, xb = some x ∧ t = (x : WithBot α) ∧ t0 < (x : WithBot α) ∧ info.feasible = true ∧
      RatioFeasible E cost time (x - 10 * ratioUnit u γ ρ s0 M D)) ∧
    ∀ z ∈ S0.pts, RatioFeasible E cost time z → ∀ y : α, t ≤ (y : WithBot α) → S0.xc - S0.r ≤ y →
      (info.status = .nosoln → z ≤ y + 27 * (info.numIters * ratioUnit u γ ρ s0 M D)) ∧
      (info.status = .noeffect → z ≤ y + 54 * (info.numIters * ratioUnit u γ ρ s0 M D) + 10 * ratioUnit u γ ρ s0 M D) ∧
      (info.status = .smallenough → ∀ d, 0 ≤ d → tol ≤ (1 - 4 * u) * (99 / 100 * s0 * d) ^ 2 →
        z ≤ y + 2 * d + 54 * (info.numIters * ratioUnit u γ ρ s0 M D)) := by
  have hM0 : 0 ≤ M := (add_nonneg (abs_nonneg _) (abs_nonneg _)).trans hM
  have hDs : 0 ≤ u * (D / s0) := mul_nonneg hu (div_nonneg hD0 h.pos.le)
  have hΔ0 : 0 ≤ ratioUnit u γ ρ s0 M D := add_nonneg hDs (mul_nonneg (add_nonneg hu hγ) (add_nonneg hρ hM0))
  obtain ⟨s, i, hf, rfl, rfl, rfl, rfl⟩ := dc_ok hrun
  push_cast at hk
  have hiu : 0 ≤ (i : α) * u := mul_nonneg (Nat.cast_nonneg _) hu
  have hbest : ∀ {xb : Option α} {t : WithBot α}, ((xb = none ∧ t = t0) ∨ ∃ x : α, xb = some x ∧ t = (x : WithBot α) ∧ t0 < (x : WithBot α) ∧
      RatioFeasible E cost time (x - 10 * ratioUnit u γ ρ s0 M D)) → (xb = none ∧ t = t0 ∧ decide (t ≠ t0) = false) ∨ ∃ x : α, xb = some x ∧
      t = (x : WithBot α) ∧ t0 < (x : WithBot α) ∧ decide (t ≠ t0) = true ∧ RatioFeasible E cost time (x - 10 * ratioUnit u γ ρ s0 M D) := by
    rintro xb t (⟨rfl, rfl⟩ | ⟨x, rfl, rfl, hx, hx'⟩)
    · exact .inl ⟨rfl, rfl, by simp⟩
    · exact .inr ⟨x, rfl, rfl, hx, by simp [hx.ne'], hx'⟩
  rcases forRange_ok hf with ⟨s1, hi, hR, hb⟩ | ⟨hi, hR⟩
  · obtain ⟨w1, c, t1, w2, st, tsq, e1, e2, e3⟩ := dcBody_brk hb
    have hw2 : s.w = w2 := by rcases e3 with ⟨-, rfl⟩ | ⟨-, -, rfl⟩ <;> rfl
    have hst : s.t = (dcAfter ((Ell1d.spaceF fl).beside (V → α)) s1 w1 t1).t ∧ s.xBest = (dcAfter ((Ell1d.spaceF fl).beside (V → α)) s1 w1 t1).xBest := by
      rcases e3 with ⟨-, rfl⟩ | ⟨-, -, rfl⟩ <;> exact ⟨rfl, rfl⟩
    rw [hw2] at hD
    have hle : ∀ v, w2.1 v ≤ s1.w.1 v := by
      obtain ⟨hq1, -, hw⟩ := ell1dF_step e1 e2
      rw [hw]
      exact cycleRatioCallF_le hfind hq1
    have hI := RatioInv.rounds hfl hu hu1 hs hγ hγ1 h hρ hfind hM hr hD0 hd0 hR (by linarith) fun v => (hD v).trans (hle v)
    obtain ⟨k1, -, k2, k3, -, k4, k5, k6, k7, k8⟩ := hI.step hfl hu hu1 hs hγ hγ1 h hρ hfind hM hr hD0 hd0 (by linarith) e1 e2 hD
    rw [← hst.1] at k3 k6
    rw [← hst.1, ← hst.2] at k4
    refine ⟨hbest k4, fun z hz hzf y hty hly => ?_⟩
    set Δ := ratioUnit u γ ρ s0 M D
    have hiΔ : 0 ≤ (i : α) * Δ := mul_nonneg (Nat.cast_nonneg _) hΔ0
    push_cast
    rcases le_or_gt z y with hzy | hzy
    · exact ⟨fun _ => by linarith, fun _ => by linarith, fun _ d hd _ => by linarith⟩
    have hyp : y ∈ S0.pts := ⟨hly, hzy.le.trans hz.2⟩
    have hyf := ratio_mono (fun e he => (h.time_pos he).le) hzy.le hzf
    have htz : s.t ≤ (z : WithBot α) := hty.trans (WithBot.coe_le_coe.2 hzy.le)
    have a := hI.keep y hyp hyf (k3.trans hty)
    have b := hI.keep z hz hzf (k3.trans htz)
    simp only [Ell1d.ptsUpTo, Set.mem_ofPred_eq, abs_le] at a b
    have hrr := le_abs_self s1.w.2.r
    rcases e3 with ⟨hne, rfl⟩ | ⟨rfl, hts, rfl⟩
    · refine ⟨fun hs => ?_, fun hs => ?_, fun hs => absurd hs k8⟩
      · have := k6 hs y hyp hyf hty z hz hzf htz
        rw [abs_le] at this
        linarith
      · have := k7 hs
        linarith
    · refine ⟨by simp, by simp, fun _ d hd htol => ?_⟩
      obtain ⟨E₂, st₂, tsq₂, hk1, hk2⟩ := C128_total (E := s1.w.2) hfl hu hu1 c
      rw [k1] at hk1
      simp only [Except.ok.injEq, Prod.mk.injEq] at hk1
      obtain ⟨-, -, rfl⟩ := hk1
      have e2 := (abs_le.1 hk2).1
      have h1 : (1 - 4 * u) * (s1.w.2.r * c.1) ^ 2 < (1 - 4 * u) * (99 / 100 * s0 * d) ^ 2 := by linarith
      have h2 := lt_of_mul_lt_mul_left h1 (by linarith)
      have h0 : 0 < 99 / 100 * s0 := by linarith [h.pos]
      rw [sq_lt_sq, abs_mul, abs_of_nonneg (mul_nonneg h0.le hd)] at h2
      have h3 : |s1.w.2.r| < d := by
        by_contra hcon
        have := mul_le_mul (not_lt.1 hcon) k2 h0.le (abs_nonneg _)
        linarith
      linarith
  · have hI := RatioInv.rounds hfl hu hu1 hs hγ hγ1 h hρ hfind hM hr hD0 hd0 hR (by push_cast; linarith) hD
    exact ⟨hbest hI.best, fun z _ _ y _ _ => by simp only; rw [hI.status]; simp⟩

/-- The slopes of the cuts. -/
theorem ratio_slope_le (hs : SumErr γ n sum) (hγ : 0 ≤ γ) (hγ1 : γ ≤ 1 / 100) (h : RatioData E cost time ρ s0) (hfind : FinderUpTo u n E find) {T gmax : α}
    (hT : ∀ e ∈ E, time e ≤ T) (h1 : 1 ≤ gmax) (h2 : 101 / 100 * (n * T) ≤ gmax) {x : α} {t : WithBot α} {d d' : V → α} {c : α × α}
    {t1 : Option (WithBot α)} (hc : cycleRatioCallF fl sum find cost time x t d = .ok (d', c, t1)) : |c.1| ≤ gmax := by
  have net : ∀ {d' c t1}, ratioNetF fl sum find cost time x d = .ok (d', c, t1) → |c.1| ≤ gmax := by
    intro d' c t1 hnet
    unfold ratioNetF networkCallF at hnet
    cases hf : find d (fun e => ratioEvalF fl cost time e x) with
    | error e => rw [hf] at hnet; simp at hnet
    | ok r =>
      obtain ⟨d1, r⟩ := r
      obtain ⟨-, -, k3⟩ := hfind _ _ _ _ hf
      rw [hf] at hnet
      cases r with
      | none =>
        simp only [Except.ok.injEq, Prod.mk.injEq] at hnet
        rw [← hnet.2.1]; simpa using h1
      | some l =>
        simp only [Except.ok.injEq, Prod.mk.injEq] at hnet
        rw [← hnet.2.1]
        obtain ⟨⟨-, v, hv⟩, hln, -⟩ := k3 l rfl
        have hmem : ∀ e ∈ l, e ∈ E := fun e he => hv.mem e (by simpa using he)
        have e1 := hs (l.map fun e => ratioGrad time e x) (by simpa using hln)
        have e2 : |(l.map fun e => ratioGrad time e x).sum| ≤ (l.map fun _ => T).sum := abs_sum_map_le fun e he => by
          rw [ratioGrad, abs_neg, abs_of_pos (h.time_pos (hmem e he))]; exact hT e (hmem e he)
        have e3 : ((l.map fun e => ratioGrad time e x).map abs).sum ≤ (l.map fun _ => T).sum := by
          rw [List.map_map]
          exact sum_map_le fun e he => by
            simp only [Function.comp]
            rw [ratioGrad, abs_neg, abs_of_pos (h.time_pos (hmem e he))]; exact hT e (hmem e he)
        have hl : l ≠ [] := by rintro rfl; cases hv; simp_all [ClosedWalk]
        obtain ⟨e0, he0⟩ := List.exists_mem_of_ne_nil l hl
        have hT0 : 0 ≤ T := (h.time_pos (hmem e0 he0)).le.trans (hT e0 (hmem e0 he0))
        have e4 : (l.map fun _ => T).sum ≤ n * T := by
          rw [List.map_const', List.sum_replicate, nsmul_eq_mul]
          exact mul_le_mul_of_nonneg_right (by exact_mod_cast hln) hT0
        have e5 := mul_le_mul_of_nonneg_left (e3.trans e4) hγ
        have e6 : γ * (n * T) ≤ 1 / 100 * (n * T) := mul_le_mul_of_nonneg_right hγ1 (mul_nonneg (Nat.cast_nonneg _) hT0)
        simp only [abs_neg]
        have := abs_sub_abs_le_abs_sub (sum (l.map fun e => ratioGrad time e x)) (l.map fun e => ratioGrad time e x).sum
        linarith
  unfold cycleRatioCallF at hc
  split at hc
  · exact net hc
  · simp only at hc
    split_ifs at hc with h0
    · simp only [Except.ok.injEq, Prod.mk.injEq] at hc
      rw [← hc.2.1]; simpa using h1
    · exact net hc

/-- The run cannot go on after `N` halvings. -/
theorem ratio_rounds_le (hfl : RelErr u fl) (hu : 0 ≤ u) (hu1 : u ≤ 1 / 100) (hs : SumErr γ n sum) (hγ : 0 ≤ γ) (hγ1 : γ ≤ 1 / 100)
    (h : RatioData E cost time ρ s0) (hρ : 0 ≤ ρ) (hfind : FinderUpTo u n E find) (hM : |S0.xc| + |S0.r| ≤ M) (hr : 0 ≤ S0.r)
    (hD0 : 0 ≤ D) (hd0 : ∀ v, d0 v ≤ D) {T gmax : α} (hT : ∀ e ∈ E, time e ≤ T) (h1 : 1 ≤ gmax)
    (h2 : 101 / 100 * (n * T) ≤ gmax) {N : ℕ}
    (hN : (1 + 4 * u) * ((S0.r / 2 ^ N + 44 * ((N + 1) * ratioUnit u γ ρ s0 M D)) * gmax) ^ 2 < tol) (hNu : 20 * ((N + 1) * u) ≤ 1)
    {s s' : DcSt ((V → α) × Ell1d α) α (WithBot α)}
    (hR : Rounds (dcBody (cycleRatioOracleF fl sum find cost time) ((Ell1d.spaceF fl).beside (V → α)) tol) 0 ⟨(d0, S0), none, t0, .success⟩ N s)
    (hb : dcBody (cycleRatioOracleF fl sum find cost time) ((Ell1d.spaceF fl).beside (V → α)) tol N s = .ok (.cont s')) (hD : ∀ v, -D ≤ s'.w.1 v) :
    False := by
  have hM0 : 0 ≤ M := (add_nonneg (abs_nonneg _) (abs_nonneg _)).trans hM
  have hDs : 0 ≤ u * (D / s0) := mul_nonneg hu (div_nonneg hD0 h.pos.le)
  have hΔ0 : 0 ≤ ratioUnit u γ ρ s0 M D := add_nonneg hDs (mul_nonneg (add_nonneg hu hγ) (add_nonneg hρ hM0))
  obtain ⟨w1, c, t1, w2, tsq, hq, hup, ht, rfl⟩ := dcBody_cont hb
  obtain ⟨hq1, hu2, hw⟩ := ell1dF_step hq hup
  have hle : ∀ v, w2.1 v ≤ s.w.1 v := by rw [hw]; exact cycleRatioCallF_le hfind hq1
  have hju := mul_nonneg (Nat.cast_nonneg (α := α) N) hu
  have hI := RatioInv.rounds hfl hu hu1 hs hγ hγ1 h hρ hfind hM hr hD0 hd0 hR (by linarith) fun v => (hD v).trans (hle v)
  apply ht
  obtain ⟨E₂, st₂, tsq₂, hk1, hk2⟩ := C128_total (E := s.w.2) hfl hu hu1 c
  rw [hu2] at hk1
  simp only [Except.ok.injEq, Prod.mk.injEq] at hk1
  obtain ⟨-, -, rfl⟩ := hk1
  have e1 := (abs_le.1 hk2).2
  have hg := ratio_slope_le hs hγ hγ1 h hfind hT h1 h2 hq1
  have hjΔ := mul_nonneg (Nat.cast_nonneg (α := α) N) hΔ0
  have hr2 : 0 ≤ S0.r / 2 ^ N := by positivity
  have e2 : |s.w.2.r| ≤ S0.r / 2 ^ N + 44 * ((N + 1) * ratioUnit u γ ρ s0 M D) := by
    have := hI.up
    have := hI.low
    rw [abs_le]; constructor <;> linarith
  have e3 : (s.w.2.r * c.1) ^ 2 ≤ ((S0.r / 2 ^ N + 44 * ((N + 1) * ratioUnit u γ ρ s0 M D)) * gmax) ^ 2 := by
    rw [← sq_abs, abs_mul]
    exact pow_le_pow_left₀ (mul_nonneg (abs_nonneg _) (abs_nonneg _)) (mul_le_mul e2 hg (abs_nonneg _) ((abs_nonneg _).trans e2)) 2
  have e4 := mul_le_mul_of_nonneg_left e3 (show 0 ≤ 1 + 4 * u by linarith)
  linarith

/-- **C129** (length of a run).  `T` bounds the times, `gmax` the slopes.  As soon as `N` halvings bring the computed `tsq` below `tol` with
`44(N + 1)Δ` to spare, `N + 1` iterations are enough. -/
theorem C129_stops (hfl : RelErr u fl) (hu : 0 ≤ u) (hu1 : u ≤ 1 / 100) (hs : SumErr γ n sum) (hγ : 0 ≤ γ) (hγ1 : γ ≤ 1 / 100)
    (h : RatioData E cost time ρ s0) (hρ : 0 ≤ ρ) (hfind : FinderUpTo u n E find) (hM : |S0.xc| + |S0.r| ≤ M) (hr : 0 ≤ S0.r) {m : Int}
    {w' : (V → α) × Ell1d α} {xb : Option α} {t : WithBot α} {info : CInfo}
    (hrun : cuttingPlaneDc (cycleRatioOracleF fl sum find cost time) ((Ell1d.spaceF fl).beside (V → α)) t0 ⟨m, tol⟩ (d0, S0) = .ok (w', xb, t, info))
    (hD0 : 0 ≤ D) (hd0 : ∀ v, d0 v ≤ D) (hD : ∀ v, -D ≤ w'.1 v) {T gmax : α} (hT : ∀ e ∈ E, time e ≤ T) (h1 : 1 ≤ gmax)
    (h2 : 101 / 100 * (n * T) ≤ gmax) {N : ℕ}
    (hN : (1 + 4 * u) * ((S0.r / 2 ^ N + 44 * ((N + 1) * ratioUnit u γ ρ s0 M D)) * gmax) ^ 2 < tol) (hNu : 20 * ((N + 1) * u) ≤ 1) (hm : (N : Int) < m) :
    info.numIters ≤ N + 1 ∧ info.status ≠ .success := by
  obtain ⟨s, i, hf, rfl, rfl, rfl, rfl⟩ := dc_ok hrun
  have key : ∀ {j s1}, Rounds (dcBody (cycleRatioOracleF fl sum find cost time) ((Ell1d.spaceF fl).beside (V → α)) tol) 0 ⟨(d0, S0), none, t0, .success⟩ j s1 →
      (∀ v, -D ≤ s1.w.1 v) → j ≤ N := by
    intro j s1 hR
    induction hR with
    | refl => exact fun _ => Nat.zero_le _
    | @snoc j s s' hR hb ih =>
      intro hlow
      have hle : ∀ v, s'.w.1 v ≤ s.w.1 v := by
        obtain ⟨w1, c, t1, w2, tsq, hq, hup, ht, rfl⟩ := dcBody_cont hb
        obtain ⟨hq1, hu2, hw⟩ := ell1dF_step hq hup
        rw [hw]; exact cycleRatioCallF_le hfind hq1
      have hj := ih fun v => (hlow v).trans (hle v)
      by_contra hcon
      obtain rfl : j = N := by omega
      exact ratio_rounds_le hfl hu hu1 hs hγ hγ1 h hρ hfind hM hr hD0 hd0 hT h1 h2 hN hNu hR hb hlow
  rcases forRange_ok hf with ⟨s1, hi, hR, hb⟩ | ⟨hi, hR⟩
  · obtain ⟨w1, c, t1, w2, st, tsq, e1, e2, e3⟩ := dcBody_brk hb
    have hw2 : s.w = w2 := by rcases e3 with ⟨-, rfl⟩ | ⟨-, -, rfl⟩ <;> rfl
    obtain ⟨hq1, -, hw⟩ := ell1dF_step e1 e2
    have hle : ∀ v, w2.1 v ≤ s1.w.1 v := by rw [hw]; exact cycleRatioCallF_le hfind hq1
    rw [hw2] at hD
    have := key hR fun v => (hD v).trans (hle v)
    refine ⟨by dsimp only; omega, ?_⟩
    rcases e3 with ⟨hne, rfl⟩ | ⟨-, -, rfl⟩
    · exact hne
    · simp
  · have := key hR hD
    exfalso
    dsimp only at hi
    omega

/-- How far one call lowers the distances. -/
theorem cycleRatioCallF_low (hfl : RelErr u fl) (hu : 0 ≤ u) (hu1 : u ≤ 1 / 100) (h : RatioData E cost time ρ s0) (hρ : 0 ≤ ρ) {m : ℕ}
    (hdrop : FinderDrop u m E find) {T : α} (hT0 : 0 ≤ T) (hT : ∀ e ∈ E, time e ≤ T) {x : α} (hx : |x| ≤ 2 * M) (hM : 0 ≤ M) {t : WithBot α} {d d' : V → α}
    {c : α × α} {t1 : Option (WithBot α)} (hc : cycleRatioCallF fl sum find cost time x t d = .ok (d', c, t1)) {B : α} (hB : 0 ≤ B) (hd : ∀ v, -B ≤ d v) :
    ∀ v, -((1 + u) ^ m * (B + m * (103 / 100 * ((ρ + 2 * M) * T)))) ≤ d' v := by
  have hW : 0 ≤ 103 / 100 * ((ρ + 2 * M) * T) := by positivity
  have net : ∀ {d' c t1}, ratioNetF fl sum find cost time x d = .ok (d', c, t1) →
      ∀ v, -((1 + u) ^ m * (B + m * (103 / 100 * ((ρ + 2 * M) * T)))) ≤ d' v := by
    intro d' c t1 hnet
    unfold ratioNetF networkCallF at hnet
    cases hf : find d (fun e => ratioEvalF fl cost time e x) with
    | error e => rw [hf] at hnet; simp at hnet
    | ok r =>
      obtain ⟨d1, r⟩ := r
      have := hdrop _ _ _ _ hf B (103 / 100 * ((ρ + 2 * M) * T)) hB hW hd fun e he => by
        have k1 := (ratioEvalF_err hfl hu hu1 h he x).2
        have k2 : (ρ + |x|) * time e ≤ (ρ + 2 * M) * T :=
          mul_le_mul (by linarith) (hT e he) (h.time_pos he).le (by linarith)
        have := neg_abs_le (ratioEvalF fl cost time e x)
        linarith
      rw [hf] at hnet
      cases r <;> simp only [Except.ok.injEq, Prod.mk.injEq] at hnet <;> rw [← hnet.1] <;> exact this
  unfold cycleRatioCallF at hc
  split at hc
  · exact net hc
  · simp only at hc
    split_ifs at hc with h0
    · simp only [Except.ok.injEq, Prod.mk.injEq] at hc
      rw [← hc.1]
      intro v
      have h1 : (1 : α) ≤ (1 + u) ^ m := one_le_pow₀ (by linarith)
      have h2 : B ≤ (1 + u) ^ m * (B + m * (103 / 100 * ((ρ + 2 * M) * T))) := by
        have h3 : 0 ≤ (m : α) * (103 / 100 * ((ρ + 2 * M) * T)) := mul_nonneg (Nat.cast_nonneg _) hW
        have := mul_le_mul_of_nonneg_right h1 (add_nonneg hB h3)
        linarith
      linarith [hd v]
    · exact net hc

/-- The bound on the distances after `k` calls, each with at most `m` relaxations of weights above `-W`. -/
def distBound (u : α) (m : ℕ) (B W : α) (k : ℕ) : α := (1 + u) ^ (k * m) * (B + k * m * W)

theorem distBound_step (hu : 0 ≤ u) {m : ℕ} {B W : α} (hW : 0 ≤ W) (k : ℕ) :
    (1 + u) ^ m * (distBound u m B W k + m * W) ≤ distBound u m B W (k + 1) := by
  unfold distBound
  have h1 : (1 : α) ≤ (1 + u) ^ (k * m) := one_le_pow₀ (by linarith)
  have h2 := mul_le_mul_of_nonneg_right h1 (mul_nonneg (Nat.cast_nonneg (α := α) m) hW)
  have h3 : (0 : α) ≤ (1 + u) ^ m := by positivity
  rw [show (k + 1) * m = m + k * m by ring, pow_add, mul_assoc ((1 + u) ^ m)]
  refine mul_le_mul_of_nonneg_left ?_ h3
  push_cast
  rw [show B + (k + 1) * m * W = (B + k * m * W) + m * W by ring, mul_add]
  linarith

theorem distBound_mono (hu : 0 ≤ u) {m : ℕ} {B W : α} (hB : 0 ≤ B) (hW : 0 ≤ W) {j k : ℕ} (h : j ≤ k) : distBound u m B W j ≤ distBound u m B W k := by
  unfold distBound
  have hjk : (j : α) * m ≤ k * m := mul_le_mul_of_nonneg_right (by exact_mod_cast h) (Nat.cast_nonneg _)
  exact mul_le_mul (pow_le_pow_right₀ (by linarith) (Nat.mul_le_mul_right _ h)) (by have := mul_le_mul_of_nonneg_right hjk hW; linarith)
    (by positivity) (by positivity)

/-- **C129** (a priori).  With a finder that makes at most `m` relaxations per call, started at distances of at most `B` in absolute value, the bound
`D` can be computed beforehand: `D ≥ (1 + u)^(m(N + 1))·(B + m(N + 1)·W)` with `W = 1.03(ρ + 2M)T`.  A run that returns takes at most `N + 1` iterations. -/
theorem C129_apriori (hfl : RelErr u fl) (hu : 0 ≤ u) (hu1 : u ≤ 1 / 100) (hs : SumErr γ n sum) (hγ : 0 ≤ γ) (hγ1 : γ ≤ 1 / 100)
    (h : RatioData E cost time ρ s0) (hρ : 0 ≤ ρ) (hfind : FinderUpTo u n E find) {k : ℕ} (hdrop : FinderDrop u k E find) (hM : |S0.xc| + |S0.r| ≤ M)
    (hr : 0 ≤ S0.r) {m : Int} {w' : (V → α) × Ell1d α} {xb : Option α} {t : WithBot α} {info : CInfo}
    (hrun : cuttingPlaneDc (cycleRatioOracleF fl sum find cost time) ((Ell1d.spaceF fl).beside (V → α)) t0 ⟨m, tol⟩ (d0, S0) = .ok (w', xb, t, info))
    {B T gmax : α} (hB : 0 ≤ B) (hd0 : ∀ v, |d0 v| ≤ B) (hT0 : 0 ≤ T) (hT : ∀ e ∈ E, time e ≤ T) (h1 : 1 ≤ gmax) (h2 : 101 / 100 * (n * T) ≤ gmax) {N : ℕ}
    (hDD : distBound u k B (103 / 100 * ((ρ + 2 * M) * T)) (N + 1) ≤ D)
    (hN : (1 + 4 * u) * ((S0.r / 2 ^ N + 44 * ((N + 1) * ratioUnit u γ ρ s0 M D)) * gmax) ^ 2 < tol) (hNu : 20 * ((N + 1) * u) ≤ 1) (hm : (N : Int) < m) :
    info.numIters ≤ N + 1 ∧ info.status ≠ .success ∧ B ≤ D ∧ ∀ v, -D ≤ w'.1 v := by
  have hM0 : 0 ≤ M := (add_nonneg (abs_nonneg _) (abs_nonneg _)).trans hM
  have hW : 0 ≤ 103 / 100 * ((ρ + 2 * M) * T) := by positivity
  have hBD : ∀ j ≤ N + 1, distBound u k B (103 / 100 * ((ρ + 2 * M) * T)) j ≤ D := fun j hj => (distBound_mono hu hB hW hj).trans hDD
  have hB0 : distBound u k B (103 / 100 * ((ρ + 2 * M) * T)) 0 = B := by simp [distBound]
  have hBD0 : B ≤ D := hB0 ▸ hBD 0 (Nat.zero_le _)
  have hD0 : 0 ≤ D := hB.trans hBD0
  have hd0' : ∀ v, d0 v ≤ D := fun v => ((le_abs_self _).trans (hd0 v)).trans hBD0
  have hBn : ∀ j, 0 ≤ distBound u k B (103 / 100 * ((ρ + 2 * M) * T)) j := fun j => by unfold distBound; positivity
  have call : ∀ {j s w1 c t1 w2 st tsq}, j ≤ N →
      Rounds (dcBody (cycleRatioOracleF fl sum find cost time) ((Ell1d.spaceF fl).beside (V → α)) tol) 0 ⟨(d0, S0), none, t0, .success⟩ j s →
      (∀ v, -distBound u k B (103 / 100 * ((ρ + 2 * M) * T)) j ≤ s.w.1 v) →
      cycleRatioOracleF fl sum find cost time s.w.2.xc s.t s.w = .ok (w1, c, t1) → ((Ell1d.spaceF fl).beside (V → α)).update c w1 = .ok (w2, st, tsq) →
      ∀ v, -distBound u k B (103 / 100 * ((ρ + 2 * M) * T)) (j + 1) ≤ w2.1 v := by
    intro j s w1 c t1 w2 st tsq hj hR hlow hq hup
    obtain ⟨hq1, -, hw⟩ := ell1dF_step hq hup
    have hju : (j : α) * u ≤ N * u := mul_le_mul_of_nonneg_right (by exact_mod_cast hj) hu
    have hI := RatioInv.rounds hfl hu hu1 hs hγ hγ1 h hρ hfind hM hr hD0 hd0' hR (by linarith) fun v => by
      have := hBD j (by omega)
      have := hlow v
      linarith
    have hx : |s.w.2.xc| ≤ 2 * M := by
      have := hI.bound
      have h3 : (1 + 20 * (j * u)) * M ≤ 2 * M := mul_le_mul_of_nonneg_right (by linarith) hM0
      have := abs_nonneg s.w.2.r
      linarith
    intro v
    rw [hw]
    have := cycleRatioCallF_low hfl hu hu1 h hρ hdrop hT0 hT hx hM0 hq1 (hBn j) hlow v
    have := distBound_step (B := B) (m := k) hu hW j
    linarith
  have key : ∀ {j s1}, Rounds (dcBody (cycleRatioOracleF fl sum find cost time) ((Ell1d.spaceF fl).beside (V → α)) tol) 0 ⟨(d0, S0), none, t0, .success⟩ j s1 →
      j ≤ N ∧ ∀ v, -distBound u k B (103 / 100 * ((ρ + 2 * M) * T)) j ≤ s1.w.1 v := by
    intro j s1 hR
    induction hR with
    | refl => exact ⟨Nat.zero_le _, fun v => by rw [hB0]; have := neg_abs_le (d0 v); have := hd0 v; dsimp only; linarith⟩
    | @snoc j s s' hR hb ih =>
      obtain ⟨hj, hlow⟩ := ih
      have hlow' : ∀ v, -distBound u k B (103 / 100 * ((ρ + 2 * M) * T)) (j + 1) ≤ s'.w.1 v := by
        obtain ⟨w1, c, t1, w2, tsq, hq, hup, ht, rfl⟩ := dcBody_cont hb
        exact call hj hR hlow hq hup
      refine ⟨?_, hlow'⟩
      by_contra hcon
      obtain rfl : j = N := by omega
      refine ratio_rounds_le hfl hu hu1 hs hγ hγ1 h hρ hfind hM hr hD0 hd0' hT h1 h2 hN hNu hR hb fun v => ?_
      have := hBD _ le_rfl
      have := hlow' v
      linarith
  obtain ⟨s, i, hf, rfl, rfl, rfl, rfl⟩ := dc_ok hrun
  rcases forRange_ok hf with ⟨s1, hi, hR, hb⟩ | ⟨hi, hR⟩
  · obtain ⟨w1, c, t1, w2, st, tsq, e1, e2, e3⟩ := dcBody_brk hb
    have hw2 : s.w = w2 := by rcases e3 with ⟨-, rfl⟩ | ⟨-, -, rfl⟩ <;> rfl
    obtain ⟨hj, hlow⟩ := key hR
    refine ⟨by dsimp only; omega, ?_, hBD0, fun v => ?_⟩
    · rcases e3 with ⟨hne, rfl⟩ | ⟨-, -, rfl⟩
      · exact hne
      · simp
    · have := call hj hR hlow e1 e2 v
      have := hBD (i + 1) (by omega)
      rw [hw2]
      linarith
  · have := (key hR).1
    exfalso
    dsimp only at hi
    omega

omit [IsStrictOrderedRing α] in
/-- **C129** (exact operations): nothing changes, the model is that of C41 and C102. -/
theorem C129_exact (find : Finder V α) (cost time : V × V → α) (x : α) (t : WithBot α) (d : V → α) :
    cycleRatioCallF id List.sum find cost time x t d = cycleRatioCall find cost time x t d ∧
      leftSum id = (List.sum : List α → α) ∧ (∀ [DecidableEq V] [IsStrictOrderedRing α] (G : Graph V), repoFinderF (· + ·) G = (repoFinder G : Finder V α)) := by
  refine ⟨by cases t <;> rfl, ?_, ?_⟩
  · funext l
    simp only [leftSum, id]
    rw [← List.sum_eq_foldl]
  · intro _ _ G
    funext d w
    simp only [repoFinderF, repoFinder, C119_exact]
    rcases findNegCycleF (· + ·) G w (max G.nodes.length 1) d with _ | ⟨d', _ | _ | _⟩ <;> rfl

/-- **C129** (errors).  If the search raises, either `max_it ≤ 0` or it passes on what the finder raises. -/
theorem C129_raises {fl : α → α} {m : Int} {e : PyErr} (hfl : RelErr u fl) (hu : 0 ≤ u) (hu1 : u ≤ 1 / 100)
    (hrun : cuttingPlaneDc (cycleRatioOracleF fl sum find cost time) ((Ell1d.spaceF fl).beside (V → α)) t0 ⟨m, tol⟩ (d0, S0) = .error e) :
    (m ≤ 0 ∧ e = .unboundLocal) ∨ ∃ x d, find d (fun a => ratioEvalF fl cost time a x) = .error e := by
  have body : ∀ {i s}, dcBody (cycleRatioOracleF fl sum find cost time) ((Ell1d.spaceF fl).beside (V → α)) tol i s = .error e →
      ∃ x d, find d (fun a => ratioEvalF fl cost time a x) = .error e := by
    intro i s hb
    have net : ∀ {x d}, ratioNetF fl sum find cost time x d = .error e → ∃ x d, find d (fun a => ratioEvalF fl cost time a x) = .error e := by
      intro x d hn
      refine ⟨x, d, ?_⟩
      unfold ratioNetF networkCallF at hn
      cases hf : find d (fun e => ratioEvalF fl cost time e x) with
      | error e' => rw [hf] at hn; simpa using hn
      | ok r => obtain ⟨d1, _ | r⟩ := r <;> rw [hf] at hn <;> simp at hn
    unfold dcBody at hb
    simp only [cycleRatioOracleF, liftOracle] at hb
    cases hc : cycleRatioCallF fl sum find cost time (((Ell1d.spaceF fl).beside (V → α)).xc s.w) s.t s.w.1 with
    | error e' =>
      rw [hc] at hb
      obtain rfl : e' = e := by simpa using hb
      unfold cycleRatioCallF at hc
      split at hc
      · exact net hc
      · simp only at hc
        split_ifs at hc
        exact net hc
    | ok r =>
      obtain ⟨d1, c, t1⟩ := r
      obtain ⟨E', st, tsq, hk, -⟩ := C128_total (E := s.w.2) hfl hu hu1 c
      rw [hc] at hb
      simp only [Space.beside, Ell1d.spaceF, hk] at hb
      split_ifs at hb
  have loop : ∀ r i last s, forLoop (dcBody (cycleRatioOracleF fl sum find cost time) ((Ell1d.spaceF fl).beside (V → α)) tol) r i last s = .error e →
      ∃ x d, find d (fun a => ratioEvalF fl cost time a x) = .error e := by
    intro r
    induction r with
    | zero => intro i last s h; simp [forLoop] at h
    | succ r ih =>
      intro i last s h
      unfold forLoop at h
      split at h
      · rename_i hb
        rw [Except.error.inj h] at hb
        exact body hb
      · simp at h
      · exact ih _ _ _ h
  unfold cuttingPlaneDc forRange at hrun
  split at hrun
  · rename_i hb
    rw [Except.error.inj hrun] at hb
    exact .inr (loop _ _ _ _ hb)
  · rename_i s last hb
    cases last with
    | some i => simp [readVar] at hrun
    | none =>
      left
      refine ⟨?_, by simpa [readVar] using hrun.symm⟩
      by_contra hm
      obtain ⟨r, hr⟩ : ∃ r, m.toNat = r + 1 := ⟨m.toNat - 1, by omega⟩
      rcases forLoop_ok hb with ⟨j, s1, -, -, -, -, hl⟩ | ⟨-, hl⟩
      · simp at hl
      · dsimp only at hl
        rw [hr] at hl
        simp at hl

end run

/-! ### The finder of the repository meets the two contracts -/
section finder
variable [DecidableEq V] [Fintype V] [FloorRing α]

/-- **C129** `neg_cycle.tpy` with additions rounded to `p` bits finds up to rounding. -/
theorem C129_finder {G : Graph V} (hG : ∀ v, v ∈ G.nodes) {p : ℕ} {fl : α → α} (hfl : Nearest p fl) :
    FinderUpTo (1 / 2 ^ p) (Fintype.card V) G.edges (repoFinderF (fun a b => fl (a + b)) G) := by
  intro d w d' r hf
  have hcard : Fintype.card V ≤ max G.nodes.length 1 := by
    refine le_trans ?_ (le_max_left _ _)
    have h1 : G.nodes.toFinset = Finset.univ := by ext v; simp [hG v]
    rw [← Finset.card_univ, ← h1]
    exact G.nodes.toFinset_card_le
  obtain ⟨d1, r1, k1, k2, k3⟩ := C119_accuracy hG hfl w d _ hcard (by omega)
  simp only [repoFinderF, k1] at hf
  rcases k3 with ⟨rfl, k4, -⟩ | ⟨c, rfl, k4, k5, k6⟩ | ⟨rfl, -⟩
  · simp only [Except.ok.injEq, Prod.mk.injEq] at hf
    obtain ⟨rfl, rfl⟩ := hf
    refine ⟨k2, fun _ e he => ?_, fun c hc => by simp at hc⟩
    have := k4 e he
    simp only at this
    rw [one_div_mul_eq_div]
    linarith
  · obtain _ | ⟨e, c⟩ := c
    · exact absurd rfl k4.1
    · simp only [Except.ok.injEq, Prod.mk.injEq] at hf
      obtain ⟨rfl, rfl⟩ := hf
      refine ⟨k2, fun h => by simp at h, fun c' hc' => ?_⟩
      obtain rfl := Option.some.inj hc'
      refine ⟨k4, ?_, ?_⟩
      · have := k5.length_le_card
        simpa using this
      · simpa only [one_div_mul_eq_div] using k6
  · simp at hf

/-- **C129** the only thing it raises is `AssertionError`. -/
theorem C129_finder_raises {G : Graph V} (hG : ∀ v, v ∈ G.nodes) {p : ℕ} {fl : α → α} (hfl : Nearest p fl) {d : V → α} {w : V × V → α} {e : PyErr}
    (hf : repoFinderF (fun a b => fl (a + b)) G d w = .error e) : e = .assertion := by
  have hcard : Fintype.card V ≤ max G.nodes.length 1 := by
    refine le_trans ?_ (le_max_left _ _)
    have h1 : G.nodes.toFinset = Finset.univ := by ext v; simp [hG v]
    rw [← Finset.card_univ, ← h1]
    exact G.nodes.toFinset_card_le
  obtain ⟨d1, r1, k1, k2, k3⟩ := C119_accuracy hG hfl w d _ hcard (by omega)
  simp only [repoFinderF, k1] at hf
  rcases k3 with ⟨rfl, -⟩ | ⟨c, rfl, -⟩ | ⟨rfl, -⟩
  · simp at hf
  · cases c <;> simp at hf
  · simpa using hf.symm

omit [Fintype V] [FloorRing α] in
/-- **C129** a call makes at most `max(|V|, 1)·|E|` relaxations. -/
theorem C129_drop (G : Graph V) {u : α} (hu : 0 ≤ u) (hu1 : u ≤ 1) {fl : α → α} (hfl : RelErr u fl) :
    FinderDrop u (max G.nodes.length 1 * G.edges.length) G.edges (repoFinderF (fun a b => fl (a + b)) G) := by
  intro d w d' r hf B W hB hW hd hw
  have one : ∀ (s : NcSt V α × Bool) (e : V × V), e ∈ G.edges → ∀ C : α, 0 ≤ C → (∀ v, -C ≤ s.1.dist v) →
      ∀ v, -((1 + u) * (C + W)) ≤ (relaxEdgeF (fun a b => fl (a + b)) w s e).1.dist v := by
    intro s e he C hC hs v
    have hC' : C ≤ (1 + u) * (C + W) := by nlinarith
    unfold relaxEdgeF
    simp only
    split_ifs with hlt
    · simp only [Function.update_apply]
      split_ifs with hv
      · have h1 := (abs_le.1 (hfl (s.1.dist e.1 + w e))).1
        have h2 : -(C + W) ≤ s.1.dist e.1 + w e := by linarith [hs e.1, hw e he]
        rcases abs_cases (s.1.dist e.1 + w e) with ⟨h3, h4⟩ | ⟨h3, h4⟩
        · rw [h3] at h1
          have : 0 ≤ u * (s.1.dist e.1 + w e) := mul_nonneg hu h4
          have : 0 ≤ (1 + u) * (C + W) := by positivity
          have : u * (s.1.dist e.1 + w e) ≤ 1 * (s.1.dist e.1 + w e) := mul_le_mul_of_nonneg_right hu1 h4
          linarith
        · rw [h3] at h1
          have := mul_le_mul_of_nonneg_left h2 (show 0 ≤ 1 + u by linarith)
          linarith
      · linarith [hs v]
    · linarith [hs v]
  have hBn : ∀ n : ℕ, 0 ≤ (1 + u) ^ n * (B + n * W) := fun n => by positivity
  have step : ∀ n : ℕ, (1 + u) * ((1 + u) ^ n * (B + n * W) + W) ≤ (1 + u) ^ (n + 1) * (B + (n + 1 : ℕ) * W) := by
    intro n
    have h1 : (1 : α) ≤ (1 + u) ^ n := one_le_pow₀ (by linarith)
    have h2 := mul_le_mul_of_nonneg_right h1 hW
    rw [pow_succ', mul_assoc]
    refine mul_le_mul_of_nonneg_left ?_ (by linarith)
    push_cast
    rw [show B + (n + 1) * W = (B + n * W) + W by ring, mul_add]
    linarith
  have up : ∀ {j k : ℕ}, j ≤ k → (1 + u) ^ j * (B + j * W) ≤ (1 + u) ^ k * (B + k * W) := by
    intro j k h
    have hjk : (j : α) * W ≤ k * W := mul_le_mul_of_nonneg_right (by exact_mod_cast h) hW
    exact mul_le_mul (pow_le_pow_right₀ (by linarith) h) (by linarith) (by positivity) (by positivity)
  have pass : ∀ (l : List (V × V)), (∀ e ∈ l, e ∈ G.edges) → ∀ (n : ℕ) (s : NcSt V α × Bool), (∀ v, -((1 + u) ^ n * (B + n * W)) ≤ s.1.dist v) →
      ∀ v, -((1 + u) ^ (n + l.length) * (B + (n + l.length : ℕ) * W)) ≤ (l.foldl (relaxEdgeF (fun a b => fl (a + b)) w) s).1.dist v := by
    intro l
    induction l with
    | nil => intro _ n s hs; simpa using hs
    | cons e l ih =>
      intro hl n s hs
      have := ih (fun e' he' => hl e' (by simp [he'])) (n + 1) (relaxEdgeF (fun a b => fl (a + b)) w s e) fun v => by
        have h1 := one s e (hl e (by simp)) _ (hBn n) hs v
        have h2 := step n
        linarith
      rw [show n + 1 + l.length = n + (e :: l).length by simp; omega] at this
      exact this
  have loop : ∀ (k n : ℕ) (s : NcSt V α) p, (∀ v, -((1 + u) ^ n * (B + n * W)) ≤ s.dist v) → ncLoopF (fun a b => fl (a + b)) G w k s = some p →
      ∀ v, -((1 + u) ^ (n + k * G.edges.length) * (B + (n + k * G.edges.length : ℕ) * W)) ≤ p.1.dist v := by
    intro k
    induction k with
    | zero => intro n s p _ h; simp [ncLoopF] at h
    | succ k ih =>
      intro n s p hs h v
      have h1 := pass G.edges (fun _ h => h) n (s, false) hs
      have h2 : (1 + u) ^ (n + G.edges.length) * (B + (n + G.edges.length : ℕ) * W) ≤
          (1 + u) ^ (n + (k + 1) * G.edges.length) * (B + (n + (k + 1) * G.edges.length : ℕ) * W) := up (by rw [add_mul]; omega)
      have done : -((1 + u) ^ (n + (k + 1) * G.edges.length) * (B + (n + (k + 1) * G.edges.length : ℕ) * W)) ≤
          (relaxF (fun a b => fl (a + b)) G w s).1.dist v := by have := h1 v; unfold relaxF; linarith
      unfold ncLoopF at h
      simp only at h
      split_ifs at h
      · rw [← Option.some.inj h]; exact done
      · split at h
        · simp at h
        · have := ih (n + G.edges.length) _ p h1 h v
          rwa [show n + G.edges.length + k * G.edges.length = n + (k + 1) * G.edges.length by ring] at this
        · split at h
          · simp at h
          · rw [← Option.some.inj h]; exact done
          · rw [← Option.some.inj h]; exact done
          · split at h
            · simp at h
            · rw [← Option.some.inj h]; exact done
            · rw [← Option.some.inj h]; exact done
  have fin : ∀ {p}, findNegCycleF (fun a b => fl (a + b)) G w (max G.nodes.length 1) d = some p →
      ∀ v, -((1 + u) ^ (max G.nodes.length 1 * G.edges.length) * (B + (max G.nodes.length 1 * G.edges.length : ℕ) * W)) ≤ p.1 v := by
    intro p hp
    simp only [findNegCycleF, Option.map_eq_some_iff] at hp
    obtain ⟨q, hq, rfl⟩ := hp
    have := loop _ 0 _ q (by simpa using hd) hq
    simpa using this
  unfold repoFinderF at hf
  split at hf
  · simp at hf
  · simp at hf
  · rename_i h
    simp only [Except.ok.injEq, Prod.mk.injEq] at hf
    rw [← hf.1]
    exact fin h
  · rename_i h
    simp only [Except.ok.injEq, Prod.mk.injEq] at hf
    rw [← hf.1]
    exact fin h

end finder

/-! ### The two graphs of `tests/test_cycle_ratio.py` in double precision -/
section examples

theorem one_add_pow_le {u : α} (hu : 0 ≤ u) (hu1 : u ≤ 1) (k : ℕ) : (1 + u) ^ k * (1 - k * u) ≤ 1 := by
  have h1 : 1 - k * u ≤ (1 - u) ^ k := by
    have := one_add_mul_le_pow (a := -u) (by linarith) k
    rw [sub_eq_add_neg 1 u]
    linarith
  have h2 : (1 + u) ^ k * (1 - u) ^ k ≤ 1 := by
    rw [← mul_pow]
    have : u * u ≤ 1 * u := mul_le_mul_of_nonneg_right hu1 hu
    exact pow_le_one₀ (mul_nonneg (by linarith) (by linarith)) (by nlinarith)
  exact (mul_le_mul_of_nonneg_left h1 (by positivity)).trans h2

/-- A graph of at most 6 nodes with at most 60 relaxations per call, times 1, costs of at most 7, searched in doubles as the tests do. -/
theorem case_runF {W : Type _} {E : List (W × W)} {fl : ℚ → ℚ} (hfl : RelErr (1 / 2 ^ 53) fl) {find : Finder W ℚ} {n k : ℕ} (hn : n ≤ 6) (hk : k ≤ 60)
    (hfind : FinderUpTo (1 / 2 ^ 53) n E find) (hdrop : FinderDrop (1 / 2 ^ 53) k E find) {sum : List ℚ → ℚ} (hs : SumErr (10 / 2 ^ 53) n sum)
    {cost : W × W → ℚ} (hcost : ∀ e ∈ E, |cost e| ≤ 7) {m : ℚ} (hm : ∀ x, RatioFeasible E cost cycleTime x ↔ x ≤ m) (h1 : 0 ≤ m) (h2 : m ≤ 100)
    {w' : (W → ℚ) × Ell1d ℚ} {xb : Option ℚ} {t : WithBot ℚ} {info : CInfo}
    (hrun : cuttingPlaneDc (cycleRatioOracleF fl sum find cost cycleTime) ((Ell1d.spaceF fl).beside (W → ℚ)) ⊥ ⟨2000, 1 / 10 ^ 12⟩
      (fun _ => 0, ⟨100, 0⟩) = .ok (w', xb, t, info)) :
    info.numIters ≤ 32 ∧ info.feasible = true ∧ ∃ x : ℚ, xb = some x ∧ t = (x : WithBot ℚ) ∧ m - 3 / 10 ^ 6 ≤ x ∧ x ≤ m + 1 / 10 ^ 9 := by
  have hu : (0 : ℚ) ≤ 1 / 2 ^ 53 := by norm_num
  have hu1 : (1 : ℚ) / 2 ^ 53 ≤ 1 / 100 := by norm_num
  have hdata : RatioData E cost cycleTime 7 (1 : ℚ) := ⟨one_pos, le_rfl, fun _ _ => le_rfl, fun e he => by simpa [cycleTime] using hcost e he⟩
  have hM : |(⟨100, 0⟩ : Ell1d ℚ).xc| + |(⟨100, 0⟩ : Ell1d ℚ).r| ≤ 100 := by norm_num
  have hkQ : (k : ℚ) ≤ 60 := by exact_mod_cast hk
  have hnQ : (n : ℚ) ≤ 6 := by exact_mod_cast hn
  have hdb : distBound (1 / 2 ^ 53) k 0 (103 / 100 * ((7 + 2 * 100) * 1)) (31 + 1) ≤ (500000 : ℚ) := by
    have e1 := one_add_pow_le hu (by norm_num) (u := (1 : ℚ) / 2 ^ 53) ((31 + 1) * k)
    push_cast at e1
    have e2 : (9 : ℚ) / 10 ≤ 1 - (31 + 1) * k * (1 / 2 ^ 53) := by norm_num; linarith
    have e3 : (0 : ℚ) < (1 + 1 / 2 ^ 53) ^ ((31 + 1) * k) := by positivity
    have e4 := mul_le_mul_of_nonneg_left e2 e3.le
    have e5 : (1 + 1 / 2 ^ 53 : ℚ) ^ ((31 + 1) * k) ≤ 10 / 9 := by linarith
    unfold distBound
    push_cast
    calc _ ≤ (10 / 9 : ℚ) * (0 + (31 + 1) * 60 * (103 / 100 * ((7 + 2 * 100) * 1))) :=
          mul_le_mul e5 (by linarith) (by positivity) (by norm_num)
      _ ≤ _ := by norm_num
  obtain ⟨a1, a2, a3, a4⟩ := C129_apriori hfl hu hu1 hs (by norm_num) (by norm_num) hdata (by norm_num) hfind hdrop hM (by norm_num) hrun (B := 0) (T := 1)
    (gmax := 303 / 50) (N := 31) (D := 500000) le_rfl (by simp) zero_le_one (fun _ _ => le_rfl) (by norm_num) (by linarith) hdb
    (by norm_num [ratioUnit]) (by norm_num) (by norm_num)
  have hit : (info.numIters : ℚ) ≤ 32 := by exact_mod_cast a1
  obtain ⟨b1, b2⟩ := C129_run hfl hu hu1 hs (by norm_num) (by norm_num) hdata (by norm_num) hfind hM (by norm_num) hrun
    (by
      have := mul_le_mul_of_nonneg_right hit hu
      norm_num at this ⊢
      linarith) (D := 500000) (by norm_num) (by simp) a4
  set Δ : ℚ := ratioUnit (1 / 2 ^ 53) (10 / 2 ^ 53) 7 1 100 500000 with hΔ
  have hΔ1 : Δ ≤ 6 / 10 ^ 11 := by rw [hΔ]; norm_num [ratioUnit]
  have hΔ0 : 0 ≤ Δ := by rw [hΔ]; norm_num [ratioUnit]
  have hkΔ : (info.numIters : ℚ) * Δ ≤ 32 * (6 / 10 ^ 11) := mul_le_mul hit hΔ1 hΔ0 (by norm_num)
  have upper : ∀ y : ℚ, t ≤ (y : WithBot ℚ) → -100 ≤ y → m ≤ y + 3 / 10 ^ 6 := by
    intro y hy hy'
    obtain ⟨c1, c2, c3⟩ := b2 m (by constructor <;> norm_num <;> linarith) ((hm m).2 le_rfl) y hy (by norm_num; linarith)
    cases hst : info.status with
    | success => exact absurd hst a2
    | nosoln => have := c1 hst; linarith
    | noeffect => have := c2 hst; linarith
    | smallenough => have := c3 hst (102 / 10 ^ 8) (by norm_num) (by norm_num); linarith
  rcases b1 with ⟨-, rfl, -⟩ | ⟨x, rfl, rfl, -, hf, hx⟩
  · have := upper (-100) bot_le le_rfl
    norm_num at this
    linarith
  · refine ⟨a1, hf, x, rfl, rfl, ?_, ?_⟩
    · have := upper (max x (-100)) (by exact_mod_cast le_max_left _ _) (le_max_right _ _)
      rcases le_total x (-100) with h | h
      · rw [max_eq_right h] at this
        norm_num at this
        linarith
      · rw [max_eq_left h] at this
        linarith
    · have := (hm _).1 hx
      linarith

/-- The contracts for `sum`, left to right, in doubles. -/
theorem leftSum_six {fl : ℚ → ℚ} (hfl : RelErr (1 / 2 ^ 53) fl) {n : ℕ} (hn : n ≤ 6) : SumErr (10 / 2 ^ 53) n (leftSum fl) := by
  intro l hl
  refine (leftSum_err hfl (by norm_num) 6 l (hl.trans hn)).trans (mul_le_mul_of_nonneg_right (by norm_num) ?_)
  refine List.sum_nonneg fun x hx => ?_
  obtain ⟨y, -, rfl⟩ := List.mem_map.1 hx
  exact abs_nonneg y

/-- **C129** the first test graph, in doubles with any rounding to nearest, with `sum` adding from the left and with the finder of the repository: the search
either raises `AssertionError` or returns `9/5` up to `3·10⁻⁶` within 32 iterations. -/
theorem C129_case1 {fl : ℚ → ℚ} (hfl : Nearest 53 fl) :
    let run := cuttingPlaneDc (cycleRatioOracleF fl (leftSum fl) (repoFinderF (fun a b => fl (a + b)) cycleCase1) cycleCost1 cycleTime)
      ((Ell1d.spaceF fl).beside (Fin 6 → ℚ)) ⊥ ⟨2000, 1 / 10 ^ 12⟩ (fun _ => 0, ⟨100, 0⟩)
    run = .error .assertion ∨ ∃ w' info, ∃ x : ℚ, run = .ok (w', some x, (x : WithBot ℚ), info) ∧ info.numIters ≤ 32 ∧ info.feasible = true ∧
      9 / 5 - 3 / 10 ^ 6 ≤ x ∧ x ≤ 9 / 5 + 1 / 10 ^ 9 := by
  intro run
  cases hrun : run with
  | error e =>
    rcases C129_raises hfl.relErr (by norm_num) (by norm_num) hrun with ⟨h, -⟩ | ⟨x, d, h⟩
    · norm_num at h
    · rw [C129_finder_raises (by decide) hfl h]; exact .inl rfl
  | ok r =>
    obtain ⟨w', xb, t, info⟩ := r
    obtain ⟨h1, h2, x, rfl, rfl, h3, h4⟩ := case_runF hfl.relErr (by decide) (by decide) (C129_finder (by decide) hfl)
      (C129_drop _ (by norm_num) (by norm_num) hfl.relErr) (leftSum_six hfl.relErr (by decide))
      (fun e _ => by unfold cycleCost1; split_ifs <;> norm_num) C102_ratio1 (by norm_num) (by norm_num) hrun
    exact .inr ⟨w', info, x, rfl, h1, h2, h3, h4⟩

/-- **C129** the second test graph, likewise: `1` up to `3·10⁻⁶`. -/
theorem C129_case2 {fl : ℚ → ℚ} (hfl : Nearest 53 fl) :
    let run := cuttingPlaneDc (cycleRatioOracleF fl (leftSum fl) (repoFinderF (fun a b => fl (a + b)) cycleCase2) cycleCost2 cycleTime)
      ((Ell1d.spaceF fl).beside (Fin 3 → ℚ)) ⊥ ⟨2000, 1 / 10 ^ 12⟩ (fun _ => 0, ⟨100, 0⟩)
    run = .error .assertion ∨ ∃ w' info, ∃ x : ℚ, run = .ok (w', some x, (x : WithBot ℚ), info) ∧ info.numIters ≤ 32 ∧ info.feasible = true ∧
      1 - 3 / 10 ^ 6 ≤ x ∧ x ≤ 1 + 1 / 10 ^ 9 := by
  intro run
  cases hrun : run with
  | error e =>
    rcases C129_raises hfl.relErr (by norm_num) (by norm_num) hrun with ⟨h, -⟩ | ⟨x, d, h⟩
    · norm_num at h
    · rw [C129_finder_raises (by decide) hfl h]; exact .inl rfl
  | ok r =>
    obtain ⟨w', xb, t, info⟩ := r
    obtain ⟨h1, h2, x, rfl, rfl, h3, h4⟩ := case_runF hfl.relErr (by decide) (by decide) (C129_finder (by decide) hfl)
      (C129_drop _ (by norm_num) (by norm_num) hfl.relErr) (leftSum_six hfl.relErr (by decide))
      (fun e _ => by obtain ⟨i, j⟩ := e; fin_cases i <;> fin_cases j <;> norm_num [cycleCost2, abs_of_pos]) C102_ratio2 (by norm_num) (by norm_num) hrun
    exact .inr ⟨w', info, x, rfl, h1, h2, h3, h4⟩

/-- **C129** the search can indeed raise `AssertionError` in double precision: a circle of three edges with costs `-2^53, 2^53 - 1, 0.75` and times 1, searched on
`[-100, 100]` as the tests do, whatever `sum` does.  Its ratio is `-1/12`. -/
theorem C129_assertion {fl : ℚ → ℚ} (hfl : Nearest 53 fl) (sum : List ℚ → ℚ) :
    cuttingPlaneDc (cycleRatioOracleF fl sum (repoFinderF (fun a b => fl (a + b)) ncCircle) (ncWeights (-2 ^ 53) (2 ^ 53 - 1) (3 / 4)) cycleTime)
      ((Ell1d.spaceF fl).beside (Fin 3 → ℚ)) ⊥ ⟨2000, 1 / 10 ^ 12⟩ (![0, 0, 0], ⟨100, 0⟩) = .error .assertion ∧
    ∀ x, RatioFeasible ncCircle.edges (ncWeights (-2 ^ 53) (2 ^ 53 - 1) (3 / 4)) cycleTime x ↔ x ≤ -1 / 12 := by
  constructor
  · obtain ⟨d, hd, -⟩ := C119_assertion_fails hfl
    have hw : (fun e => ratioEvalF fl (ncWeights (-2 ^ 53) (2 ^ 53 - 1) (3 / 4)) cycleTime e 0) = ncWeights (-2 ^ 53) (2 ^ 53 - 1) (3 / 4) := by
      funext e
      have h0 : fl 0 = 0 := hfl.rounding.exact 0 ⟨0, 0, by norm_num, by norm_num⟩
      simp only [ratioEvalF, cycleTime, mul_zero, h0, sub_zero]
      unfold ncWeights
      apply hfl.rounding.exact
      split_ifs
      · exact ⟨-1, 53, by norm_num, by norm_num⟩
      · exact ⟨2 ^ 53 - 1, 0, by norm_num, by norm_num⟩
      · exact ⟨3, -2, by norm_num, by norm_num⟩
    have hf : repoFinderF (fun a b => fl (a + b)) ncCircle ![0, 0, 0]
        (fun e => ratioEvalF fl (ncWeights (-2 ^ 53) (2 ^ 53 - 1) (3 / 4)) cycleTime e 0) = .error .assertion := by
      rw [hw]
      simp only [repoFinderF, show max ncCircle.nodes.length 1 = 3 from rfl, hd]
    have hb : ∀ i, dcBody (cycleRatioOracleF fl sum (repoFinderF (fun a b => fl (a + b)) ncCircle) (ncWeights (-2 ^ 53) (2 ^ 53 - 1) (3 / 4)) cycleTime)
        ((Ell1d.spaceF fl).beside (Fin 3 → ℚ)) (1 / 10 ^ 12) i ⟨(![0, 0, 0], ⟨100, 0⟩), none, ⊥, .success⟩ = .error .assertion := by
      intro i
      have hc : cycleRatioCallF fl sum (repoFinderF (fun a b => fl (a + b)) ncCircle) (ncWeights (-2 ^ 53) (2 ^ 53 - 1) (3 / 4)) cycleTime 0 ⊥ ![0, 0, 0] =
          .error .assertion := by
        simp only [cycleRatioCallF, ratioNetF, networkCallF, hf]
      simp only [dcBody, cycleRatioOracleF, liftOracle, Space.beside, Ell1d.spaceF, hc]
    unfold cuttingPlaneDc forRange
    rw [show (⟨2000, 1 / 10 ^ 12⟩ : Options ℚ).maxIt.toNat = 1999 + 1 from rfl]
    simp only [forLoop, hb]
  · intro x
    constructor
    · rintro ⟨p, hp⟩
      simp [Potential, ncCircle, ncWeights, cycleTime] at hp
      obtain ⟨h1, h2, h3⟩ := hp
      linarith
    · intro hx
      refine ratio_mono (fun e _ => zero_le_one) hx ⟨![0, -2 ^ 53 + 1 / 12, -5 / 6], ?_⟩
      simp [Potential, ncCircle, ncWeights]
      norm_num

/-- The hypotheses of `C129_run` and `C129_stops` can be met: with exact operations the run on the first test graph returns (C102). -/
example : ∃ w' r info, cuttingPlaneDc (cycleRatioOracleF id List.sum (repoFinder cycleCase1) cycleCost1 cycleTime) ((Ell1d.spaceF id).beside (Fin 6 → ℚ)) ⊥
    ⟨2000, 1 / 10 ^ 12⟩ (fun _ => 0, Ell1d.init (-100) 100) = .ok (w', some r, (r : WithBot ℚ), info) := by
  obtain ⟨w', r, info, h, -⟩ := C102_test_cycle_ratio (α := ℚ) (C41_repoFinder (by decide)) fun _ => 0
  have h1 : cycleRatioOracleF id List.sum (repoFinder cycleCase1) cycleCost1 cycleTime = cycleRatioOracle (α := ℚ) (repoFinder cycleCase1) cycleCost1 cycleTime := by
    funext x t
    simp only [cycleRatioOracleF, cycleRatioOracle]
    rw [show cycleRatioCallF id List.sum (repoFinder cycleCase1) cycleCost1 cycleTime x t = cycleRatioCall (repoFinder cycleCase1) cycleCost1 cycleTime x t from
      funext fun d => (C129_exact _ _ _ x t d).1]
  have h2 : (Ell1d.spaceF id).beside (Fin 6 → ℚ) = Ell1d.space (Fin 6 → ℚ) ℚ := by
    simp only [Space.beside, Ell1d.spaceF, Ell1d.space, C128_exact, Space.mk.injEq, true_and]
    funext c w
    rcases update c w.2 with _ | ⟨_, _, _⟩ <;> rfl
  rw [h1, h2]
  exact ⟨w', r, info, h⟩

/-- The other hypotheses, with exact operations. -/
example : RelErr 0 (id : ℚ → ℚ) ∧ SumErr 0 6 (List.sum : List ℚ → ℚ) ∧ RatioData cycleCase1.edges cycleCost1 cycleTime 5 (1 : ℚ) ∧
    FinderUpTo (1 / 2 ^ 53) 6 cycleCase1.edges (repoFinderF (fun a b => ieee 53 (a + b)) cycleCase1 : Finder (Fin 6) ℚ) :=
  ⟨fun x => by simp, fun l _ => by simp, ⟨one_pos, le_rfl, fun _ _ => le_rfl, fun e _ => by simp only [cycleTime, cycleCost1]; split_ifs <;> norm_num⟩,
    C129_finder (by decide) (ieee_nearest (by norm_num))⟩

end examples
end Verif
