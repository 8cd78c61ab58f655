import Verif.Model.Problem
import Verif.Props.DriverExamples
import Mathlib.Tactic

/-! # C15: the attributes of a `Problem` after any history of solves -/
namespace Verif

/-- What one run of the driver returned. -/
structure DcResult (X T : Type _) where
  xBest : Option X
  t : T
  info : CInfo

section
variable {W X C α T : Type _} [LT α] [DecidableLT α] [DecidableEq T]
  {Ω : X → T → W → Except PyErr (W × C × Option T)} {S : Space W X C α} {o : Options α}

/-- Specification of a history: `cutting_plane_dc` was run once per element of the list of initial
values, each run starting from the world the previous one left. -/
inductive Runs (Ω : X → T → W → Except PyErr (W × C × Option T)) (S : Space W X C α) (o : Options α) :
    W → List T → List (DcResult X T) → W → Prop
  | nil (w) : Runs Ω S o w [] [] w
  | snoc {w ts rs w1 t w2 x t' i} : Runs Ω S o w ts rs w1 →
      cuttingPlaneDc Ω S t o w1 = .ok (w2, x, t', i) → Runs Ω S o w (ts ++ [t]) (rs ++ [⟨x, t', i⟩]) w2

/-- The most recent feasible result of a history. -/
def LastFeasible (rs : List (DcResult X T)) (r : Option (DcResult X T)) : Prop :=
  match r with
  | none => ∀ q ∈ rs, q.info.feasible = false
  | some r => ∃ pre post, rs = pre ++ r :: post ∧ r.info.feasible = true ∧
      ∀ q ∈ post, q.info.feasible = false

/-- The code run on a history of calls `prob.solve(t)`; collects the returned values. -/
def solveAll (Ω : X → T → W → Except PyErr (W × C × Option T)) (S : Space W X C α) (o : Options α) :
    List T → PState X T → W → Except PyErr (W × PState X T × List (Option T))
  | [], p, w => .ok (w, p, [])
  | t :: ts, p, w =>
    match solve Ω S o t p w with
    | .error e => .error e
    | .ok (w1, p1, v) =>
      match solveAll Ω S o ts p1 w1 with
      | .error e => .error e
      | .ok (w2, p2, vs) => .ok (w2, p2, v :: vs)

theorem solveAll_snoc (ts : List T) (t : T) (p : PState X T) (w : W) :
    solveAll Ω S o (ts ++ [t]) p w =
      match solveAll Ω S o ts p w with
      | .error e => .error e
      | .ok (w1, p1, vs) =>
        match solve Ω S o t p1 w1 with
        | .error e => .error e
        | .ok (w2, p2, v) => .ok (w2, p2, vs ++ [v]) := by
  induction ts generalizing p w with
  | nil =>
    simp only [List.nil_append, solveAll]
  | cons a ts ih =>
    simp only [List.cons_append, solveAll]
    rcases solve Ω S o a p w with e | ⟨w1, p1, v⟩
    · rfl
    · simp only [ih]
      rcases solveAll Ω S o ts p1 w1 with e | ⟨w2, p2, vs⟩
      · rfl
      · rcases hs : solve Ω S o t p2 w2 with e | ⟨w3, p3, v3⟩ <;> simp [hs]

/-- What `C15` says about the attributes after the driver results `rs`. -/
structure Reflects (rs : List (DcResult X T)) (p : PState X T) : Prop where
  value : ∃ r, LastFeasible rs r ∧ p.optimValue = r.map (·.t) ∧ p.optimVar = r.bind (·.xBest)
  status : p.status = rs.getLast?.map fun r =>
    if r.info.feasible = false then .infeasible
    else if r.info.status = .smallenough then .optimal else .feasible
  iters : p.numIters = rs.getLast?.map (·.info.numIters)

omit [LT α] [DecidableLT α] [DecidableEq T] in
theorem reflects_fresh : Reflects ([] : List (DcResult X T)) (PState.fresh X T) :=
  ⟨⟨none, by simp [LastFeasible], rfl, rfl⟩, rfl, rfl⟩

theorem solve_reflects {rs : List (DcResult X T)} {p p' : PState X T} {w w' : W} {t : T} {v : Option T}
    (h : Reflects rs p) (hs : solve Ω S o t p w = .ok (w', p', v)) :
    ∃ r : DcResult X T, cuttingPlaneDc Ω S t o w = .ok (w', r.xBest, r.t, r.info) ∧
      Reflects (rs ++ [r]) p' ∧ v = p'.optimValue := by
  unfold solve at hs
  rcases hd : cuttingPlaneDc Ω S t o w with e | ⟨w1, xb, fb, info⟩ <;> rw [hd] at hs
  · simp at hs
  simp only [Except.ok.injEq, Prod.mk.injEq] at hs
  obtain ⟨rfl, rfl, rfl⟩ := hs
  refine ⟨⟨xb, fb, info⟩, rfl, ?_, rfl⟩
  rcases hf : info.feasible
  · obtain ⟨⟨r, hr, h1, h2⟩, -, -⟩ := h
    refine ⟨⟨r, ?_, by simpa [hf] using h1, by simpa [hf] using h2⟩, by simp [hf], by simp⟩
    cases r with
    | none =>
      intro q hq
      rcases List.mem_append.1 hq with hq | hq
      · exact hr q hq
      · rw [List.mem_singleton.1 hq]; exact hf
    | some r =>
      obtain ⟨pre, post, rfl, hr1, hr2⟩ := hr
      refine ⟨pre, post ++ [⟨xb, fb, info⟩], by simp, hr1, fun q hq => ?_⟩
      rcases List.mem_append.1 hq with hq | hq
      · exact hr2 q hq
      · rw [List.mem_singleton.1 hq]; exact hf
  · exact ⟨⟨some ⟨xb, fb, info⟩, ⟨rs, [], by simp, hf, by simp⟩, by simp, by simp⟩,
      by simp [hf], by simp⟩

/-- **C15**, for every oracle, space, options and every history of `solve` calls on a fresh `Problem`:
the calls return normally exactly when the corresponding chain of driver runs does; afterwards
`status` and `num_iters` are those of the last run, `optim_value`/`optim_var` those of the most recent
*feasible* run, and each call returned the value of the most recent feasible run up to it. -/
theorem C15_problem_history (ts : List T) {w w' : W} {p : PState X T} {vs : List (Option T)}
    (h : solveAll Ω S o ts (PState.fresh X T) w = .ok (w', p, vs)) :
    ∃ rs, Runs Ω S o w ts rs w' ∧ Reflects rs p ∧ vs.length = ts.length ∧
      ∀ k (hk : k < vs.length), ∃ r, LastFeasible (rs.take (k + 1)) r ∧ vs[k] = r.map (·.t) := by
  induction ts using List.reverseRecOn generalizing w' p vs with
  | nil =>
    simp only [solveAll, Except.ok.injEq, Prod.mk.injEq] at h
    obtain ⟨rfl, rfl, rfl⟩ := h
    exact ⟨[], .nil _, reflects_fresh, rfl, by simp⟩
  | append_singleton ts t ih =>
    rw [solveAll_snoc] at h
    rcases h1 : solveAll Ω S o ts (PState.fresh X T) w with e | ⟨w1, p1, vs1⟩ <;> rw [h1] at h
    · simp at h
    rcases h2 : solve Ω S o t p1 w1 with e | ⟨w2, p2, v⟩ <;> simp only [h2] at h
    · simp at h
    simp only [Except.ok.injEq, Prod.mk.injEq] at h
    obtain ⟨rfl, rfl, rfl⟩ := h
    obtain ⟨rs, hr, hrefl, hlen, hv⟩ := ih h1
    obtain ⟨r, hd, hrefl', hv'⟩ := solve_reflects hrefl h2
    have hrl : rs.length = ts.length := by
      clear * - hr
      induction hr with
      | nil => rfl
      | snoc _ _ ih => simp [ih]
    refine ⟨rs ++ [r], hr.snoc hd, hrefl', by simp [hlen], fun k hk => ?_⟩
    rcases Nat.lt_or_ge k vs1.length with hk1 | hk1
    · obtain ⟨q, hq1, hq2⟩ := hv k hk1
      refine ⟨q, ?_, ?_⟩
      · rwa [List.take_append_of_le_length (by omega)]
      · rw [List.getElem_append_left hk1]; exact hq2
    · have hk2 : k = vs1.length := by simp at hk; omega
      subst hk2
      obtain ⟨q, hq1, hq2, -⟩ := hrefl'.value
      refine ⟨q, ?_, ?_⟩
      · rw [List.take_of_length_le (by simp; omega)]; exact hq1
      · simp [hv', hq2]

/-- The converse half: if the chain of driver runs returns, so does the history of solves. -/
theorem C15_problem_runs {ts : List T} {w w' : W} {rs : List (DcResult X T)}
    (h : Runs Ω S o w ts rs w') :
    ∃ p vs, solveAll Ω S o ts (PState.fresh X T) w = .ok (w', p, vs) ∧ Reflects rs p := by
  induction h with
  | nil => exact ⟨_, _, rfl, reflects_fresh⟩
  | @snoc ts rs w1 t w2 x t' i _ hd ih =>
    obtain ⟨p, vs, h1, h2⟩ := ih
    have h3 : ∃ p2 v, solve Ω S o t p w1 = .ok (w2, p2, v) := by
      simp only [solve, hd]; exact ⟨_, _, rfl⟩
    obtain ⟨p2, v, h3⟩ := h3
    obtain ⟨r, hr1, hr2, -⟩ := solve_reflects h2 h3
    rw [hd] at hr1
    simp only [Except.ok.injEq, Prod.mk.injEq, true_and] at hr1
    obtain ⟨rfl, rfl, rfl⟩ := hr1
    exact ⟨p2, vs ++ [v], by simp [solveAll_snoc, h1, h3], hr2⟩

end

/-- The stale value, for every problem: an infeasible solve reports `infeasible` and still returns, and
still stores, whatever the previous solves left. -/
theorem C15_problem_stale {W X C α T : Type _} [LT α] [DecidableLT α] [DecidableEq T]
    {Ω : X → T → W → Except PyErr (W × C × Option T)} {S : Space W X C α} {o : Options α} {t : T}
    {p : PState X T} {w w' : W} {xb : Option X} {fb : T} {info : CInfo}
    (hd : cuttingPlaneDc Ω S t o w = .ok (w', xb, fb, info)) (hf : info.feasible = false) :
    ∃ p', solve Ω S o t p w = .ok (w', p', p.optimValue) ∧ p'.status = some .infeasible ∧
      p'.optimVar = p.optimVar := by
  simp [solve, hd, hf]

namespace Examples

/-- Two solves of "maximise x ≤ 3" on `[0, 16]`: the first finds 21/8, the second starts from the
target 10, is infeasible, and returns the stale 21/8. -/
example : (solveAll (fun x t => liftOracle (dcO x t)) (Ell1d.space Unit ℚ) ⟨4, 1 / 10⟩ [0, 10]
    (PState.fresh ℚ ℚ) ((), Ell1d.init 0 16)).toOption.map
      (fun r => (r.2.1.status, r.2.1.optimValue, r.2.2)) =
    some (some .infeasible, some (21 / 8), [some (21 / 8), some (21 / 8)]) := by
  with_unfolding_all rfl

end Examples
end Verif
