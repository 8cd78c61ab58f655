import Verif.Model.CycleCase
import Verif.Props.Network

/-! # C102: accuracy of the cycle ratio search, and the runs of `tests/test_cycle_ratio.py` -/
namespace Verif
variable {V α : Type _} [Field α] [LinearOrder α] [IsStrictOrderedRing α]

theorem Walk.mem {E : List (V × V)} {u v : V} {l : List (V × V)} (h : Walk E u v l) : ∀ e ∈ l, e ∈ E := by
  induction h with
  | nil => simp
  | cons h1 _ ih => intro e he; rcases List.mem_cons.1 he with rfl | he; exacts [h1, ih e he]

theorem sum_ge {time : V × V → α} {s0 : α} (h0 : 0 ≤ s0) {l : List (V × V)} (hne : l ≠ []) (h : ∀ e ∈ l, s0 ≤ time e) :
    s0 ≤ (l.map time).sum := by
  cases l with
  | nil => exact absurd rfl hne
  | cons e l =>
    rw [List.map_cons, List.sum_cons]
    have h1 := h e (by simp)
    have h2 : 0 ≤ (l.map time).sum := List.sum_nonneg fun x hx => by
      obtain ⟨e', he', rfl⟩ := List.mem_map.1 hx
      exact h0.trans (h e' (by simp [he']))
    linarith

/-- If every edge takes at least `s0 ≤ 1`, every cut has slope at least `s0`. -/
theorem ratio_slope {E : List (V × V)} {find : Finder V α} (hfind : FinderOK E find) {cost time : V × V → α} {s0 : α} (h0 : 0 ≤ s0)
    (h1 : s0 ≤ 1) (htime : ∀ e ∈ E, s0 ≤ time e) {x : α} {t : WithBot α} {u u' : V → α} {cut : α × α} {t1 : Option (WithBot α)}
    (h : cycleRatioCall find cost time x t u = .ok (u', cut, t1)) : s0 ≤ |cut.1| := by
  have net : ∀ {u' cut t1}, ratioNet find cost time x u = .ok (u', cut, t1) → s0 ≤ |cut.1| := by
    intro u' cut t1 h
    unfold ratioNet networkCall at h
    obtain ⟨d', r, e1, -, e2⟩ := hfind u (fun e => ratioEval cost time e x)
    rw [e1] at h
    cases r with
    | none =>
      simp only [Except.ok.injEq, Prod.mk.injEq] at h
      rw [← h.2.1]; simpa using h1
    | some c =>
      simp only [Except.ok.injEq, Prod.mk.injEq] at h
      obtain ⟨⟨hne, v, hv⟩, -⟩ := e2 c rfl
      have : s0 ≤ (c.map time).sum := sum_ge h0 (by simpa using hne) fun e he => htime e (hv.mem e (by simpa using he))
      have e : -(c.map fun e => ratioGrad time e x).sum = (c.map time).sum := by
        clear hv hne h this e1 e2
        induction c with
        | nil => simp
        | cons a c ih => simp only [List.map_cons, List.sum_cons, ← ih, ratioGrad]; ring
      rw [← h.2.1]
      simp only
      rw [e]
      exact this.trans (le_abs_self _)
  unfold cycleRatioCall at h
  split at h
  · exact net h
  · simp only at h
    split_ifs at h with h2
    · simp only [Except.ok.injEq, Prod.mk.injEq] at h
      rw [← h.2.1]; simpa using h1
    · exact net h

/-- When the run ends, the interval is short or there is no solution. -/
theorem ratio_width {E : List (V × V)} {find : Finder V α} (hfind : FinderOK E find) {cost time : V × V → α} {s0 ε : α} (h0 : 0 < s0)
    (h1 : s0 ≤ 1) (htime : ∀ e ∈ E, s0 ≤ time e) {t0 : WithBot α} {o : Options α} (hε : 0 < ε) (htol : o.tol ≤ (s0 * ε) ^ 2)
    {S0 : Ell1d α} (hr : 0 ≤ S0.r) (hmax : 2 * S0.r < ε * 2 ^ o.maxIt.toNat) {u : V → α} {w' xb t info}
    (h : cuttingPlaneDc (cycleRatioOracle find cost time) (Ell1d.space (V → α) α) t0 o (u, S0) = .ok (w', xb, t, info)) :
    2 * w'.2.r < ε ∨ info.status = .nosoln := by
  obtain ⟨s, i, hf, rfl, -, -, rfl⟩ := dc_ok h
  have hI0 : CrInv E cost time t0 S0 0 (⟨(u, S0), none, t0, .success⟩ : DcSt ((V → α) × Ell1d α) α (WithBot α)) :=
    ⟨hr, by simp, fun _ h => h, fun z hz _ _ => hz, .inl ⟨rfl, rfl⟩⟩
  have hrounds : ∀ {j s1}, Rounds (dcBody (cycleRatioOracle find cost time) (Ell1d.space (V → α) α) o.tol) 0
      ⟨(u, S0), none, t0, .success⟩ j s1 → CrInv E cost time t0 S0 j s1 := by
    intro j s1 hR
    refine Rounds.inv (fun j s1 => CrInv E cost time t0 S0 j s1) hI0 ?_ hR
    rintro j s s' hI hb
    obtain ⟨w1, c, t1, w2, tsq, h1, h2, -, rfl⟩ := dcBody_cont hb
    exact (crStep hfind hI h1 h2).1 rfl
  rcases forRange_ok hf with ⟨s1, -, hR, hb⟩ | ⟨hm, hR⟩
  · have hI := hrounds hR
    obtain ⟨w1, c, t1, w2, st, tsq, e1, e2, e3⟩ := dcBody_brk hb
    obtain ⟨k1, k2, k3, k4⟩ := crStep hfind hI e1 e2
    rcases e3 with ⟨hne, rfl⟩ | ⟨rfl, hts, rfl⟩
    · right; cases st <;> simp_all
    · left
      obtain ⟨q1, q2⟩ := liftOracle_ok e1
      obtain ⟨hu', -⟩ := ell1d_space_update_ok e2
      have hs := ratio_slope hfind h0.le h1 htime q1
      rw [q2] at hu'
      obtain ⟨E', st', e4⟩ := C26_ell1d_total s1.w.2 c
      rw [e4] at hu'
      simp only [Except.ok.injEq, Prod.mk.injEq] at hu'
      obtain ⟨hE, hst, ht⟩ := hu'
      have h4 : |s1.w.2.r * c.1| < |s0 * ε| := by
        rw [← sq_lt_sq, ht]; exact hts.trans_le htol
      rw [abs_mul, abs_of_nonneg hI.r, abs_of_pos (mul_pos h0 hε)] at h4
      have h5 : s1.w.2.r < ε := by
        by_contra hcon
        have := mul_le_mul (not_lt.1 hcon) hs h0.le hI.r
        linarith
      obtain ⟨u', cut, t1', f1, -, -, f4, -⟩ := C42_cycle_ratio_oracle hfind cost time s1.w.2.xc s1.t s1.w.1
      have hq : cycleRatioCall find cost time s1.w.2.xc s1.t s1.w.1 = .ok (w1.1, c, t1) := q1
      rw [hq] at f1
      simp only [Except.ok.injEq, Prod.mk.injEq] at f1
      rw [← f1.2.1] at f4
      have h6 := (C28_ell1d_halves hI.r f4 e4).1 hst
      simp only
      rw [hE] at h6
      linarith
  · left
    have hI := hrounds hR
    have hi : i + 1 = o.maxIt.toNat := by omega
    have h2 := hI.half
    rw [hi, le_div_iff₀ (by positivity)] at h2
    have h3 : (0 : α) < 2 ^ o.maxIt.toNat := by positivity
    by_contra hcon
    have := mul_le_mul_of_nonneg_right (not_lt.1 hcon) h3.le
    linarith

/-- **C102** (accuracy).  Every edge takes time at least `s0` with `0 < s0 ≤ 1`; `tol ≤ (s0·ε)²`, `2R < ε·2^max_it`; two feasible ratios
`ε` apart in the interval, both at least `t0`.  Then the run returns a feasible ratio better than `t0`, and no feasible ratio of the
interval exceeds it by `ε`. -/
theorem C102_cycle_ratio_accuracy {E : List (V × V)} {find : Finder V α} (hfind : FinderOK E find) {cost time : V × V → α} {s0 ε : α}
    (h0 : 0 < s0) (h1 : s0 ≤ 1) (htime : ∀ e ∈ E, s0 ≤ time e) {t0 : WithBot α} {o : Options α} (hε : 0 < ε) (ho : 0 < o.maxIt)
    (htol : o.tol ≤ (s0 * ε) ^ 2) {S0 : Ell1d α} (hr : 0 ≤ S0.r) (hmax : 2 * S0.r < ε * 2 ^ o.maxIt.toNat) {a b : α} (ha : a ∈ S0.pts)
    (hb : b ∈ S0.pts) (hab : a + ε ≤ b) (ha0 : t0 ≤ (a : WithBot α)) (hfa : RatioFeasible E cost time a)
    (hfb : RatioFeasible E cost time b) (u : V → α) :
    ∃ w' r info, cuttingPlaneDc (cycleRatioOracle find cost time) (Ell1d.space (V → α) α) t0 o (u, S0) =
      .ok (w', some r, (r : WithBot α), info) ∧ info.feasible = true ∧ t0 < (r : WithBot α) ∧ RatioFeasible E cost time r ∧
      r ∈ S0.pts ∧ ∀ z ∈ S0.pts, RatioFeasible E cost time z → z < r + ε := by
  obtain ⟨w', xb, t, info, hrun, -, -, -, hkeep, hcase⟩ := C42_cycle_ratio_end_to_end hfind cost time t0 o ho u S0 hr
  have hw := ratio_width hfind h0 h1 htime hε htol hr hmax hrun
  rcases hcase with ⟨rfl, rfl, -, hno⟩ | ⟨r, rfl, rfl, c1, c2, c3, c4, c5, -⟩
  · exfalso
    rcases hw with hw | hw
    · have ka := hkeep a ha hfa ha0
      have kb := hkeep b hb hfb (ha0.trans (WithBot.coe_le_coe.2 (by linarith)))
      linarith [ka.1, kb.2]
    · exact absurd ha0 (not_le.2 (hno hw a ha hfa))
  · refine ⟨w', r, info, hrun, c1, c3, c4, c5, fun z hz hfz => ?_⟩
    have hw := hw.resolve_right c2
    rcases le_or_gt z r with h | h
    · linarith
    · have k1 := hkeep z hz hfz (WithBot.coe_le_coe.2 h.le)
      have k2 := hkeep r c5 c4 le_rfl
      linarith [k1.2, k2.1]

/-- Fewer is easier: below a feasible ratio every ratio is feasible when times are nonnegative. -/
theorem ratio_mono {E : List (V × V)} {cost time : V × V → α} (ht : ∀ e ∈ E, 0 ≤ time e) {x y : α} (h : x ≤ y)
    (hy : RatioFeasible E cost time y) : RatioFeasible E cost time x := by
  obtain ⟨p, hp⟩ := hy
  refine ⟨p, fun e he => (hp e he).trans ?_⟩
  have := mul_le_mul_of_nonneg_left h (ht e he)
  simp only
  linarith

/-- **C102** the feasible ratios of the first test graph are those up to `9/5`. -/
theorem C102_ratio1 (x : α) : RatioFeasible cycleCase1.edges cycleCost1 cycleTime x ↔ x ≤ 9 / 5 := by
  constructor
  · rintro ⟨p, hp⟩
    simp [Potential, cycleCase1, cycleCost1, cycleTime] at hp
    obtain ⟨h1, h2, h3, h4, h5, -⟩ := hp
    linarith
  · intro hx
    refine ratio_mono (fun e _ => zero_le_one) hx ⟨![0, -4 / 5, 12 / 5, 8 / 5, 4 / 5, 16 / 5], ?_⟩
    simp [Potential, cycleCase1, cycleCost1]
    norm_num [cycleTime]

/-- **C102** the feasible ratios of the second test graph are those up to `1`. -/
theorem C102_ratio2 (x : α) : RatioFeasible cycleCase2.edges cycleCost2 cycleTime x ↔ x ≤ 1 := by
  constructor
  · rintro ⟨p, hp⟩
    simp [Potential, cycleCase2, cycleCost2, cycleTime] at hp
    obtain ⟨h1, h2, h3, h4, h5, h6⟩ := hp
    linarith
  · intro hx
    refine ratio_mono (fun e _ => zero_le_one) hx ⟨![0, 2, 3], ?_⟩
    simp [Potential, cycleCase2, cycleCost2]
    norm_num [cycleTime]

theorem case_run {W : Type _} {E : List (W × W)} {find : Finder W α} (hfind : FinderOK E find) {cost : W × W → α} {m : α}
    (hm : ∀ x, RatioFeasible E cost cycleTime x ↔ x ≤ m) (h1 : 0 ≤ m) (h2 : m ≤ 100) (u : W → α) :
    ∃ w' r info, cuttingPlaneDc (cycleRatioOracle find cost cycleTime) (Ell1d.space (W → α) α) ⊥ ⟨2000, 1 / 10 ^ 12⟩
      (u, Ell1d.init (-100) 100) = .ok (w', some r, (r : WithBot α), info) ∧ info.feasible = true ∧ m - 1 / 10 ^ 6 < r ∧ r ≤ m := by
  obtain ⟨w', r, info, e1, e2, -, e3, -, e5⟩ := C102_cycle_ratio_accuracy (s0 := 1) (ε := 1 / 10 ^ 6) (t0 := ⊥) (o := ⟨2000, 1 / 10 ^ 12⟩)
    (time := cycleTime) (cost := cost) hfind one_pos le_rfl (fun _ _ => le_rfl) (by positivity) (by norm_num) (by norm_num)
    (S0 := Ell1d.init (-100) 100) (by norm_num [Ell1d.init]) (by
      have h : (200 : α) < 1 / 10 ^ 6 * 2 ^ 28 := by norm_num
      have h' : (2 : α) ^ 28 ≤ 2 ^ (2000 : ℤ).toNat := pow_le_pow_right₀ (by norm_num) (by decide)
      have h'' := mul_le_mul_of_nonneg_left h' (show (0 : α) ≤ 1 / 10 ^ 6 by positivity)
      simp only [Ell1d.init]
      linarith)
    (a := m - 1) (b := m) (by constructor <;> simp only [Ell1d.init] <;> linarith) (by constructor <;> simp only [Ell1d.init] <;> linarith)
    (by have : (1 : α) / 10 ^ 6 ≤ 1 := by norm_num
        linarith) bot_le ((hm _).2 (by linarith)) ((hm _).2 le_rfl) u
  have := e5 m (by constructor <;> simp only [Ell1d.init] <;> linarith) ((hm _).2 le_rfl)
  exact ⟨w', r, info, e1, e2, by linarith, (hm r).1 e3⟩

/-- **C102** `test_cycle_ratio` with every finder that meets its contract and every start `dist`: the run returns, is feasible and
`9/5 - 10⁻⁶ < r ≤ 9/5`. -/
theorem C102_test_cycle_ratio {find : Finder (Fin 6) α} (hfind : FinderOK cycleCase1.edges find) (u : Fin 6 → α) :
    ∃ w' r info, cuttingPlaneDc (cycleRatioOracle find cycleCost1 cycleTime) (Ell1d.space (Fin 6 → α) α) ⊥ ⟨2000, 1 / 10 ^ 12⟩
      (u, Ell1d.init (-100) 100) = .ok (w', some r, (r : WithBot α), info) ∧ info.feasible = true ∧
      9 / 5 - 1 / 10 ^ 6 < r ∧ r ≤ 9 / 5 :=
  case_run hfind C102_ratio1 (by norm_num) (by norm_num) u

/-- **C102** `test_cycle_ratio_timing`: `1 - 10⁻⁶ < r ≤ 1`. -/
theorem C102_test_cycle_ratio_timing {find : Finder (Fin 3) α} (hfind : FinderOK cycleCase2.edges find) (u : Fin 3 → α) :
    ∃ w' r info, cuttingPlaneDc (cycleRatioOracle find cycleCost2 cycleTime) (Ell1d.space (Fin 3 → α) α) ⊥ ⟨2000, 1 / 10 ^ 12⟩
      (u, Ell1d.init (-100) 100) = .ok (w', some r, (r : WithBot α), info) ∧ info.feasible = true ∧ 1 - 1 / 10 ^ 6 < r ∧ r ≤ 1 :=
  case_run hfind C102_ratio2 (by norm_num) (by norm_num) u

/-- The in-repository finder qualifies. -/
example : FinderOK (α := ℚ) cycleCase1.edges (repoFinder cycleCase1) ∧ FinderOK (α := ℚ) cycleCase2.edges (repoFinder cycleCase2) :=
  ⟨C41_repoFinder (by decide), C41_repoFinder (by decide)⟩

end Verif
