import Verif.Props.Ell1d
import Verif.Props.Q
import Mathlib.Tactic

/-! # Concrete runs meeting the hypotheses of C01-C10, C26-C28, C68 -/
namespace Verif.Examples

/-- Feasibility oracle for `2 ≤ x ≤ 3` with deep cuts. -/
def feasO (x : ℚ) (w : Unit) : Except PyErr (Unit × Option (ℚ × ℚ)) :=
  if x < 2 then .ok (w, some (-1, 2 - x)) else if 3 < x then .ok (w, some (1, x - 3))
  else .ok (w, none)

/-- Three rounds on `[0, 16]`, then acceptance at 5/2. -/
example : cuttingPlaneFeas (fun x => liftOracle (feasO x)) (Ell1d.space Unit ℚ) ⟨2000, 1 / 10⟩
    ((), Ell1d.init 0 16) = .ok (((), ⟨1 / 2, 5 / 2⟩), ⟨true, 3, .success⟩) := by
  with_unfolding_all rfl

/-- Exhaustion: `feasible = False`, status `success`, all rounds performed. -/
example : cuttingPlaneFeas (fun x => liftOracle (feasO x)) (Ell1d.space Unit ℚ) ⟨2, 1 / 10⟩
    ((), Ell1d.init 0 16) = .ok (((), ⟨1 / 2, 5 / 2⟩), ⟨false, 2, .success⟩) := by
  with_unfolding_all rfl

/-- `nosoln` on `[4, 6]`. -/
example : cuttingPlaneFeas (fun x => liftOracle (feasO x)) (Ell1d.space Unit ℚ) ⟨2000, 1 / 10⟩
    ((), Ell1d.init 4 6) = .ok (((), ⟨1, 5⟩), ⟨false, 1, .nosoln⟩) := by
  with_unfolding_all rfl

theorem feasO_valid (x : ℚ) (u u' : Unit) (c : ℚ × ℚ) (h : feasO x u = .ok (u', some c)) :
    c ≠ (0, 0) ∧ (1 : ℚ) ≤ |c.1| ∧ |c.1| ≤ 1 ∧ 0 ≤ c.2 ∧
      ∀ z : ℚ, 2 ≤ z → z ≤ 3 → z ∈ halfLine x c := by
  unfold feasO at h
  split_ifs at h with h1 h2 <;> simp only [Except.ok.injEq, Prod.mk.injEq, Option.some.injEq,
    reduceCtorEq, and_false] at h
  · obtain ⟨-, rfl⟩ := h
    refine ⟨by simp, by simp, by simp, by linarith, fun z h1 h2 => ?_⟩
    show -1 * (z - x) + (2 - x) ≤ 0
    linarith
  · obtain ⟨-, rfl⟩ := h
    refine ⟨by simp, by simp, by simp, by linarith, fun z h1 h2 => ?_⟩
    show 1 * (z - x) + (x - 3) ≤ 0
    linarith

/-- C04 applies to that run: its hypotheses hold for `K = [2, 3]`. -/
example : ∀ p : ℚ, 2 ≤ p → p ≤ 3 → p ∉ (Ell1d.init (4 : ℚ) 6).pts := by
  intro p h1 h2
  have hrun : cuttingPlaneFeas (fun x => liftOracle (feasO x)) (Ell1d.space Unit ℚ) ⟨2000, 1 / 10⟩
    ((), Ell1d.init 4 6) = .ok (((), ⟨1, 5⟩), ⟨false, 1, .nosoln⟩) := by with_unfolding_all rfl
  refine (C04_feas_certificate {z : ℚ | 2 ≤ z ∧ z ≤ 3} (C26_ell1d_sound Unit)
    (fun x => liftOracle_frame (feasO x)) ?_ (by norm_num [Ell1d.init]) hrun).2.2 rfl p ⟨h1, h2⟩
  rintro u u' c - hq z ⟨hz1, hz2⟩
  have := feasO_valid _ _ _ _ (liftOracle_ok hq).1
  exact ⟨this.1, this.2.2.2.2 z hz1 hz2⟩

/-- C28 applies: feasibility is guaranteed on `[0, 16]` with `N = 6` halvings. -/
example (w' : Unit × Ell1d ℚ) (info : CInfo)
    (h : cuttingPlaneFeas (fun x => liftOracle (feasO x)) (Ell1d.space Unit ℚ) ⟨7, 1 / 10⟩
      ((), Ell1d.init 0 16) = .ok (w', info)) : info.feasible = true ∧ info.numIters ≤ 7 := by
  have := C28_feas_ell1d (gmax := 1) (N := 6) (by norm_num [Ell1d.init])
    (fun x u u' c hc => ⟨(feasO_valid x u u' c hc).2.2.2.1, (feasO_valid x u u' c hc).2.2.1⟩)
    (by norm_num [Ell1d.init]) (by norm_num) h
  refine ⟨this.2.2 {z : ℚ | 2 ≤ z ∧ z ≤ 3} 1 2 3 (by norm_num) (by norm_num) ?_ (by norm_num) ?_,
    this.1⟩
  · intro x h1 h2
    exact ⟨⟨h1, h2⟩, by constructor <;> norm_num [Ell1d.init] <;> linarith⟩
  · intro x u u' c hc
    exact ⟨(feasO_valid x u u' c hc).2.1, fun z hz => (feasO_valid x u u' c hc).2.2.2.2 z hz.1 hz.2⟩

/-- Optimisation oracle: maximise `x` subject to `x ≤ 3`. -/
def dcO (x t : ℚ) (w : Unit) : Except PyErr (Unit × (ℚ × ℚ) × Option ℚ) :=
  if 3 < x then .ok (w, (1, x - 3), none)
  else if x ≤ t then .ok (w, (-1, t - x), none)
  else .ok (w, (-1, 0), some x)

example : cuttingPlaneDc (fun x t => liftOracle (dcO x t)) (Ell1d.space Unit ℚ) 0 ⟨4, 1 / 10⟩
    ((), Ell1d.init 0 16) =
    .ok (((), ⟨3 / 16, 45 / 16⟩), some (21 / 8), 21 / 8, ⟨true, 4, .success⟩) := by
  with_unfolding_all rfl

theorem dcO_valid (x t : ℚ) (u u' : Unit) (c : ℚ × ℚ) (t1 : Option ℚ)
    (h : dcO x t u = .ok (u', c, t1)) :
    (∀ t', t1 = some t' → t < t') ∧ ∀ z, (z ≤ 3 ∧ t1.getD t < z) → c ≠ (0, 0) ∧ z ∈ halfLine x c := by
  unfold dcO at h
  split_ifs at h with h1 h2 <;> simp only [Except.ok.injEq, Prod.mk.injEq] at h <;>
    obtain ⟨-, rfl, rfl⟩ := h
  · refine ⟨by simp, fun z hz => ⟨by simp, ?_⟩⟩
    show 1 * (z - x) + (x - 3) ≤ 0
    linarith [hz.1]
  · refine ⟨by simp, fun z hz => ⟨by simp, ?_⟩⟩
    show -1 * (z - x) + (t - x) ≤ 0
    have := hz.2; simp at this; linarith
  · refine ⟨?_, fun z hz => ⟨by simp, ?_⟩⟩
    · rintro t' ht; simp at ht; subst ht; linarith
    · show -1 * (z - x) + 0 ≤ 0
      have := hz.2; simp at this; linarith

/-- C06 and C07 apply to the run above. -/
example : ∀ z : ℚ, z ≤ 3 → 21 / 8 < z → 0 ≤ z → z ∈ (⟨3 / 16, 45 / 16⟩ : Ell1d ℚ).pts := by
  intro z h1 h2 h3
  have hrun : cuttingPlaneDc (fun x t => liftOracle (dcO x t)) (Ell1d.space Unit ℚ) 0 ⟨4, 1 / 10⟩
    ((), Ell1d.init 0 16) =
    .ok (((), ⟨3 / 16, 45 / 16⟩), some (21 / 8), 21 / 8, ⟨true, 4, .success⟩) := by
    with_unfolding_all rfl
  refine (C07_dc_certificate (fun t => {z : ℚ | z ≤ 3 ∧ t < z}) (C26_ell1d_sound Unit)
    (fun x t => liftOracle_frame (dcO x t)) ?_ ?_ (by norm_num [Ell1d.init]) hrun).1 z ⟨h1, h2⟩ ?_
  · rintro x s u u' c t' hq z ⟨hz1, hz2⟩
    have := (dcO_valid _ _ _ _ _ _ (liftOracle_ok hq).1).1 t' rfl
    exact ⟨hz1, by linarith⟩
  · rintro s u u' c t1 - hq z hz
    exact (dcO_valid _ _ _ _ _ _ (liftOracle_ok hq).1).2 z hz
  · constructor <;> norm_num [Ell1d.init] <;> linarith

/-- A discrete oracle with alternatives: the first answer is a useless cut announcing an alternative,
the retry gives a real one. -/
def qO (x t : ℚ) (retry : Bool) (n : ℕ) : Except PyErr (ℕ × (ℚ × ℚ) × ℚ × Option ℚ × Bool) :=
  if retry then .ok (n + 1, (1, 0), 7, if t < x then some x else none, false)
  else .ok (n, (1, -100), 5, none, true)

/-- Six oracle calls, three of them with `retry = True` (counted by the oracle itself). -/
example : cuttingPlaneQ (fun x t r => liftOracle (qO x t r)) (fun x0 _ => x0) (Ell1d.space ℕ ℚ) 0
    ⟨6, 1 / 1000⟩ (0, Ell1d.init 0 16) =
    .ok ((3, ⟨1, 1⟩), some 7, 8, ⟨true, 6, .success⟩) := by
  with_unfolding_all rfl

end Verif.Examples
