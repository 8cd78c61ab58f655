import Verif.Props.EllSolve

/-! # C99: runs on an `ell` raise nothing, except after an exactly tangent cut -/
namespace Verif
open Matrix Ell
variable {n : ℕ} {W T : Type _} {E : Ell n} {g : Fin n → ℝ} {β : ℝ}

/-- A zero shape is a point. -/
theorem Ell.pts_of_zero (h : ∀ y, E.kappa * (y ⬝ᵥ E.Q *ᵥ y) = 0) : E.pts = {E.xc} := by
  ext x
  constructor
  · intro hx
    have h1 : ((x - E.xc) ⬝ᵥ (x - E.xc)) ^ 2 ≤ 0 := by have := hx (x - E.xc); rwa [h] at this
    have h2 : (x - E.xc) ⬝ᵥ (x - E.xc) = 0 := pow_eq_zero_iff (two_ne_zero) |>.1 (le_antisymm h1 (sq_nonneg _))
    rw [dotProduct_self_eq_zero] at h2
    exact sub_eq_zero.1 h2
  · rintro rfl
    intro y
    simp [h]

/-- On a proper ellipsoid a deep or central cut raises nothing; afterwards the ellipsoid is proper or a single point. -/
theorem Ell.update_deep_total (hE : E.Proper) (hg : g ≠ 0) (hβ : 0 ≤ β) :
    ∃ E' st tsq, update (g, .scalar β) E = .ok (E', st, tsq) ∧ E'.WF ∧
      (E'.Proper ∨ E'.pts = {E'.xc} ∧ β = √(E.kappa * (g ⬝ᵥ E.Q *ᵥ g))) := by
  have hn' : (2 : ℝ) ≤ n := by exact_mod_cast hE.dim
  have hpos : 0 < g ⬝ᵥ E.Q *ᵥ g := (pd_iff.1 hE.pd).2 g hg
  have ht : 0 < E.kappa * (g ⬝ᵥ E.Q *ᵥ g) := mul_pos hE.kappa hpos
  have hτ := Real.sqrt_pos.2 ht
  cases hu : update (g, .scalar β) E with
  | error e =>
    rw [C20_ell_deep_fails_iff hE hg] at hu
    have : 0 ≤ (n : ℝ) * β := mul_nonneg (by linarith) hβ
    linarith [hu.1]
  | ok r =>
    obtain ⟨E', st, tsq⟩ := r
    refine ⟨E', st, tsq, rfl, update_wf hE.wf hu, ?_⟩
    rcases lt_trichotomy β (√(E.kappa * (g ⬝ᵥ E.Q *ᵥ g))) with h | h | h
    · exact .inl (C20_ell_proper hE hg (b := .scalar β) h hu)
    · obtain ⟨htsq, ⟨-, rfl⟩ | ⟨rfl, h0, ρ, σ, δ, hc, rfl⟩⟩ := update_ok hE.wf hu
      · exact .inl hE
      · right
        refine ⟨?_, h⟩
        have hδ : δ = 0 := by
          cases hc with
          | scalar hd =>
            generalize hr : Calc.accept ρ σ δ = r at hd
            cases hd with
            | central h1 => rw [h1] at h; exact absurd h hτ.ne
            | deep =>
              simp only [Calc.accept.injEq] at hr
              rw [hr.2.2, h, htsq, ← mul_div_assoc, Real.mul_self_sqrt ht.le, div_self ht.ne', sub_self, mul_zero]
            | nosoln => simp at hr
            | noeffect => simp at hr
        subst hδ
        apply pts_of_zero
        intro y
        unfold after
        split_ifs <;> simp
    · obtain ⟨htsq, ⟨-, rfl⟩ | ⟨rfl, h0, ρ, σ, δ, hc, rfl⟩⟩ := update_ok hE.wf hu
      · exact .inl hE
      · exfalso
        rw [← htsq] at h
        cases hc with
        | scalar hd =>
          generalize hr : Calc.accept ρ σ δ = r at hd
          cases hd with
          | central h1 => rw [h1] at h; exact absurd h (not_lt.2 (Real.sqrt_nonneg _))
          | deep h1 => exact absurd h (not_lt.2 h1)
          | nosoln => simp at hr
          | noeffect => simp at hr

/-- On a single point every deep or central cut ends the run (`nosoln`, or `tsq = 0`) or divides by zero. -/
theorem Ell.update_flat (hE : E.WF) (hp : E.pts = {E.xc}) (hβ : 0 ≤ β) :
    update (g, .scalar β) E = .error .zeroDivision ∨
    ∃ E' st tsq, update (g, .scalar β) E = .ok (E', st, tsq) ∧ (st ≠ .success ∨ tsq = 0) := by
  have ht : E.kappa * (g ⬝ᵥ E.Q *ᵥ g) = 0 := by
    by_contra h
    have hpos : 0 < E.kappa * (g ⬝ᵥ E.Q *ᵥ g) := lt_of_le_of_ne (tsq_nonneg hE g) (Ne.symm h)
    -- the width of a point is zero
    obtain ⟨⟨x, hx, h1⟩, -⟩ : IsGreatest ((fun x => (g ⬝ᵥ (x - E.xc)) ^ 2) '' E.pts) (E.kappa * (g ⬝ᵥ E.Q *ᵥ g)) := by
      have hu : ∃ E', update (g, .scalar (√(E.kappa * (g ⬝ᵥ E.Q *ᵥ g)) + 1)) E =
          .ok (E', .nosoln, E.kappa * (g ⬝ᵥ E.Q *ᵥ g)) := by
        refine ⟨E, ?_⟩
        have hs : pySqrt (E.kappa * (g ⬝ᵥ E.Q *ᵥ g)) = .ok (√(E.kappa * (g ⬝ᵥ E.Q *ᵥ g))) := pySqrt_ok.2 ⟨hpos.le, rfl⟩
        simp [update, calcLl, calcDc, hs]
      obtain ⟨E', hu⟩ := hu
      exact C23_ell_tsq hE hu
    rw [hp] at hx
    obtain rfl := hx
    simp at h1
    exact h (by rcases h1 with h1 | h1 <;> simp [h1])
  have hs : pySqrt (0 : ℝ) = .ok 0 := by rw [pySqrt_ok]; simp
  rcases hβ.eq_or_lt with rfl | hb
  · simp only [update, calcLl, calcDc, ht, hs]
    simp only [sub_self, lt_irrefl, if_false, if_true, calcCc]
    by_cases h0 : g ⬝ᵥ E.Q *ᵥ g = 0
    · left; simp [pyDiv, h0]
    · right
      by_cases hd : E.noDefer <;> simp [pyDiv, h0, hd]
  · right
    simp only [update, calcLl, calcDc, ht, hs]
    simp [hb]

/-- Loops whose body may raise in some states. -/
theorem forLoop_total_or {σ : Type _} {body : Nat → σ → Except PyErr (Step σ)} (I Bad : Nat → σ → Prop) (e : PyErr)
    (hb : ∀ i s, I i s → (body i s = .error e ∧ Bad i s) ∨ ∃ st, body i s = .ok st ∧ ∀ s', st = .cont s' → I (i + 1) s') :
    ∀ r i last s, I i s → (∃ res, forLoop body r i last s = .ok res) ∨
      (forLoop body r i last s = .error e ∧ ∃ j s', j < i + r ∧ Bad j s') := by
  intro r
  induction r with
  | zero => intro i last s _; exact .inl ⟨_, rfl⟩
  | succ r ih =>
    intro i last s hs
    rcases hb i s hs with ⟨h1, h2⟩ | ⟨st, hst, hI⟩
    · exact .inr ⟨by simp only [forLoop, h1], i, s, by omega, h2⟩
    cases st with
    | cont s' =>
      simp only [forLoop, hst]
      rcases ih (i + 1) (some i) s' (hI _ rfl) with h | ⟨h, j, s2, h1, h2⟩
      · exact .inl h
      · exact .inr ⟨h, j, s2, by omega, h2⟩
    | brk s' => simp only [forLoop, hst]; exact .inl ⟨_, rfl⟩

/-- What is asked of the oracle: it answers, with a nonzero gradient and `β ≥ 0`. -/
def Answers (Inv : W → Prop) (Ω : (Fin n → ℝ) → T → W → Except PyErr (W × ((Fin n → ℝ) × Beta) × Option T)) : Prop :=
  ∀ x t w, Inv w → ∃ w' g β t1, Ω x t w = .ok (w', (g, .scalar β), t1) ∧ Inv w' ∧ 0 ≤ β ∧ g ≠ 0

/-- The same for states and levels satisfying `Inv`. -/
def AnswersAt (Inv : W → T → Prop) (Ω : (Fin n → ℝ) → T → W → Except PyErr (W × ((Fin n → ℝ) × Beta) × Option T)) : Prop :=
  ∀ x t w, Inv w t → ∃ w' g β t1, Ω x t w = .ok (w', (g, .scalar β), t1) ∧ Inv w' (t1.getD t) ∧ 0 ≤ β ∧ g ≠ 0

/-- **C99** `cutting_plane_dc` on an `ell`, `max_it ≥ 1`, `tol > 0`, any oracle that answers with nonzero gradients and `β ≥ 0`
in all states and levels of an invariant:
the run returns, or raises `ZeroDivisionError` in a round in which the ellipsoid had shrunk to a single point; the round before,
the cut was exactly tangent (`β = τ`).  So in particular no run raises while anything besides one point is left. -/
theorem C99_dc_total_levels [DecidableEq T] {Inv : W → T → Prop}
    {Ω : (Fin n → ℝ) → T → W → Except PyErr (W × ((Fin n → ℝ) × Beta) × Option T)} (hΩ : AnswersAt Inv Ω) {E₀ : Ell n}
    (hE : E₀.Proper) {o : Options ℝ} (hmax : 1 ≤ o.maxIt) (htol : 0 < o.tol) {w₀ : W} {t0 : T} (hw₀ : Inv w₀ t0) :
    (∃ r, cuttingPlaneDc (fun x t => liftOracle (Ω x t)) (Ell.space W n) t0 o (w₀, E₀) = .ok r) ∨
    (cuttingPlaneDc (fun x t => liftOracle (Ω x t)) (Ell.space W n) t0 o (w₀, E₀) = .error .zeroDivision ∧
      ∃ (k : ℕ) (s s' : DcSt (W × Ell n) (Fin n → ℝ) T) (w1 : W) (g : Fin n → ℝ) (t1 : Option T), ((k + 1 : ℕ) : ℤ) < o.maxIt ∧
        Rounds (dcBody (fun x t => liftOracle (Ω x t)) (Ell.space W n) o.tol) 0 ⟨(w₀, E₀), none, t0, .success⟩ k s ∧
        dcBody (fun x t => liftOracle (Ω x t)) (Ell.space W n) o.tol k s = .ok (.cont s') ∧ s.w.2.Proper ∧
        Ω s.w.2.xc s.t s.w.1 = .ok (w1, (g, .scalar √(s.w.2.kappa * (g ⬝ᵥ s.w.2.Q *ᵥ g))), t1) ∧
        s'.w.2.pts = {s'.w.2.xc}) := by
  set body := dcBody (fun x t => liftOracle (Ω x t)) (Ell.space W n) o.tol with hbody
  set s0 : DcSt (W × Ell n) (Fin n → ℝ) T := ⟨(w₀, E₀), none, t0, .success⟩ with hs0
  -- the last round was exactly tangent
  let Tan (j : ℕ) (s' : DcSt (W × Ell n) (Fin n → ℝ) T) : Prop := ∃ k s w1 g t1, j = k + 1 ∧ Rounds body 0 s0 k s ∧
    body k s = .ok (.cont s') ∧ s.w.2.Proper ∧
    Ω s.w.2.xc s.t s.w.1 = .ok (w1, (g, .scalar √(s.w.2.kappa * (g ⬝ᵥ s.w.2.Q *ᵥ g))), t1) ∧ s'.w.2.pts = {s'.w.2.xc}
  let I (i : ℕ) (s : DcSt (W × Ell n) (Fin n → ℝ) T) : Prop :=
    Rounds body 0 s0 i s ∧ Inv s.w.1 s.t ∧ s.w.2.WF ∧ (s.w.2.Proper ∨ Tan i s)
  have key := forLoop_total_or (body := body) I Tan .zeroDivision (by
    rintro i s ⟨hr, hw, hWF, hP⟩
    obtain ⟨w1, g, β, t1, hq, hw1, hβ, hg⟩ := hΩ s.w.2.xc s.t s.w.1 hw
    have hlq : liftOracle (Ω s.w.2.xc s.t) s.w = .ok ((w1, s.w.2), (g, .scalar β), t1) := by simp only [liftOracle, hq]
    rcases hP with hP | hT
    · obtain ⟨E', st, tsq, hu, hWF', hE'⟩ := Ell.update_deep_total hP hg hβ
      have hsu : (Ell.space W n).update (g, .scalar β) (w1, s.w.2) = .ok ((w1, E'), st, tsq) := by
        simp only [Ell.space, hu]
      right
      by_cases h1 : st ≠ .success
      · refine ⟨.brk { dcAfter (Ell.space W n) s (w1, s.w.2) t1 with w := (w1, E'), status := st }, ?_, by simp⟩
        simp only [hbody, dcBody]
        have : (Ell.space W n).xc s.w = s.w.2.xc := rfl
        rw [this, hlq]
        simp only [hsu, if_pos h1]
        rfl
      · by_cases h2 : tsq < o.tol
        · refine ⟨.brk { dcAfter (Ell.space W n) s (w1, s.w.2) t1 with w := (w1, E'), status := .smallenough }, ?_, by simp⟩
          simp only [hbody, dcBody]
          have : (Ell.space W n).xc s.w = s.w.2.xc := rfl
          rw [this, hlq]
          simp only [hsu, if_neg h1, if_pos h2]
          rfl
        · have hc : body i s = .ok (.cont { dcAfter (Ell.space W n) s (w1, s.w.2) t1 with w := (w1, E') }) := by
            simp only [hbody, dcBody]
            have : (Ell.space W n).xc s.w = s.w.2.xc := rfl
            rw [this, hlq]
            simp only [hsu, if_neg h1, if_neg h2]
            rfl
          refine ⟨_, hc, ?_⟩
          intro s' hs'
          simp only [Step.cont.injEq] at hs'
          subst hs'
          refine ⟨.snoc hr hc, by cases t1 <;> exact hw1, hWF', ?_⟩
          rcases hE' with hE' | ⟨hE', hτ⟩
          · exact .inl hE'
          · exact .inr ⟨i, s, w1, g, t1, rfl, hr, hc, hP, by rw [hq, ← hτ], hE'⟩
    · obtain ⟨-, -, -, -, -, -, -, -, -, -, hpt⟩ := id hT
      rcases Ell.update_flat (g := g) hWF hpt hβ with hu | ⟨E', st, tsq, hu, hst⟩
      · left
        refine ⟨?_, hT⟩
        have hsu : (Ell.space W n).update (g, .scalar β) (w1, s.w.2) = .error .zeroDivision := by
          simp only [Ell.space, hu]
        simp only [hbody, dcBody]
        have : (Ell.space W n).xc s.w = s.w.2.xc := rfl
        rw [this, hlq]
        simp only [hsu]
      · right
        have hsu : (Ell.space W n).update (g, .scalar β) (w1, s.w.2) = .ok ((w1, E'), st, tsq) := by
          simp only [Ell.space, hu]
        by_cases h1 : st ≠ .success
        · refine ⟨.brk { dcAfter (Ell.space W n) s (w1, s.w.2) t1 with w := (w1, E'), status := st }, ?_, by simp⟩
          simp only [hbody, dcBody]
          have : (Ell.space W n).xc s.w = s.w.2.xc := rfl
          rw [this, hlq]
          simp only [hsu, if_pos h1]
          rfl
        · have h2 : tsq < o.tol := by rcases hst with h | h <;> [exact absurd h h1; rwa [h]]
          refine ⟨.brk { dcAfter (Ell.space W n) s (w1, s.w.2) t1 with w := (w1, E'), status := .smallenough }, ?_, by simp⟩
          simp only [hbody, dcBody]
          have : (Ell.space W n).xc s.w = s.w.2.xc := rfl
          rw [this, hlq]
          simp only [hsu, if_neg h1, if_pos h2]
          rfl) o.maxIt.toNat 0 none s0 ⟨.refl, hw₀, hE.wf, .inl hE⟩
  rcases key with ⟨⟨s, last⟩, hres⟩ | ⟨herr, j, s', hj, k, s, w1, g, t1, rfl, h1, h2, h3, h4, h5⟩
  · left
    have hne : last ≠ none := by
      rintro rfl
      rcases forLoop_ok hres with ⟨_, _, _, _, _, _, hl⟩ | ⟨_, hl⟩
      · simp at hl
      · split at hl
        · omega
        · simp at hl
    obtain ⟨l, rfl⟩ := Option.ne_none_iff_exists'.1 hne
    refine ⟨(s.w, s.xBest, s.t, ⟨decide (s.t ≠ t0), l + 1, s.status⟩), ?_⟩
    simp only [cuttingPlaneDc, forRange, ← hbody, ← hs0, hres, readVar]
  · right
    refine ⟨by simp only [cuttingPlaneDc, forRange, ← hbody, ← hs0, herr], k, s, s', w1, g, t1, by omega, h1, h2, h3, h4, h5⟩

/-- **C99** `cutting_plane_dc` on an `ell`, `max_it ≥ 1`, `tol > 0`, any oracle that answers with nonzero gradients and `β ≥ 0`:
the run returns, or raises `ZeroDivisionError` in a round in which the ellipsoid had shrunk to a single point; the round before,
the cut was exactly tangent (`β = τ`).  So in particular no run raises while anything besides one point is left. -/
theorem C99_dc_total [DecidableEq T] {Inv : W → Prop}
    {Ω : (Fin n → ℝ) → T → W → Except PyErr (W × ((Fin n → ℝ) × Beta) × Option T)} (hΩ : Answers Inv Ω) {E₀ : Ell n}
    (hE : E₀.Proper) {o : Options ℝ} (hmax : 1 ≤ o.maxIt) (htol : 0 < o.tol) {w₀ : W} (hw₀ : Inv w₀) (t0 : T) :
    (∃ r, cuttingPlaneDc (fun x t => liftOracle (Ω x t)) (Ell.space W n) t0 o (w₀, E₀) = .ok r) ∨
    (cuttingPlaneDc (fun x t => liftOracle (Ω x t)) (Ell.space W n) t0 o (w₀, E₀) = .error .zeroDivision ∧
      ∃ (k : ℕ) (s s' : DcSt (W × Ell n) (Fin n → ℝ) T) (w1 : W) (g : Fin n → ℝ) (t1 : Option T), ((k + 1 : ℕ) : ℤ) < o.maxIt ∧
        Rounds (dcBody (fun x t => liftOracle (Ω x t)) (Ell.space W n) o.tol) 0 ⟨(w₀, E₀), none, t0, .success⟩ k s ∧
        dcBody (fun x t => liftOracle (Ω x t)) (Ell.space W n) o.tol k s = .ok (.cont s') ∧ s.w.2.Proper ∧
        Ω s.w.2.xc s.t s.w.1 = .ok (w1, (g, .scalar √(s.w.2.kappa * (g ⬝ᵥ s.w.2.Q *ᵥ g))), t1) ∧
        s'.w.2.pts = {s'.w.2.xc}) := by
  exact C99_dc_total_levels (Inv := fun w _ => Inv w) (fun x t w hw => hΩ x t w hw) hE hmax htol hw₀

/-- The same for feasibility oracles: `None`, or a cut with a nonzero gradient and `β ≥ 0`. -/
def AnswersF (Inv : W → Prop) (Ω : (Fin n → ℝ) → W → Except PyErr (W × Option ((Fin n → ℝ) × Beta))) : Prop :=
  ∀ x w, Inv w → ∃ w' a, Ω x w = .ok (w', a) ∧ Inv w' ∧ ∀ c, a = some c → ∃ g β, c = (g, .scalar β) ∧ 0 ≤ β ∧ g ≠ 0

/-- **C99** `cutting_plane_feas` on an `ell`: the run returns, or divides by zero in a round in which the ellipsoid is a single
point after an exactly tangent cut. -/
theorem C99_feas_total {Inv : W → Prop} {Ω : (Fin n → ℝ) → W → Except PyErr (W × Option ((Fin n → ℝ) × Beta))}
    (hΩ : AnswersF Inv Ω) {E₀ : Ell n} (hE : E₀.Proper) {o : Options ℝ} (hmax : 1 ≤ o.maxIt) (htol : 0 < o.tol) {w₀ : W}
    (hw₀ : Inv w₀) :
    (∃ r, cuttingPlaneFeas (fun x => liftOracle (Ω x)) (Ell.space W n) o (w₀, E₀) = .ok r) ∨
    (cuttingPlaneFeas (fun x => liftOracle (Ω x)) (Ell.space W n) o (w₀, E₀) = .error .zeroDivision ∧
      ∃ (k : ℕ) (s s' : FeasSt (W × Ell n)) (w1 : W) (g : Fin n → ℝ), ((k + 1 : ℕ) : ℤ) < o.maxIt ∧
        Rounds (feasBody (fun x => liftOracle (Ω x)) (Ell.space W n) o.tol) 0 ⟨(w₀, E₀), false, .success⟩ k s ∧
        feasBody (fun x => liftOracle (Ω x)) (Ell.space W n) o.tol k s = .ok (.cont s') ∧ s.w.2.Proper ∧
        Ω s.w.2.xc s.w.1 = .ok (w1, some (g, .scalar √(s.w.2.kappa * (g ⬝ᵥ s.w.2.Q *ᵥ g)))) ∧
        s'.w.2.pts = {s'.w.2.xc}) := by
  set body := feasBody (fun x => liftOracle (Ω x)) (Ell.space W n) o.tol with hbody
  set s0 : FeasSt (W × Ell n) := ⟨(w₀, E₀), false, .success⟩ with hs0
  let Tan (j : ℕ) (s' : FeasSt (W × Ell n)) : Prop := ∃ k s w1 g, j = k + 1 ∧ Rounds body 0 s0 k s ∧
    body k s = .ok (.cont s') ∧ s.w.2.Proper ∧
    Ω s.w.2.xc s.w.1 = .ok (w1, some (g, .scalar √(s.w.2.kappa * (g ⬝ᵥ s.w.2.Q *ᵥ g)))) ∧ s'.w.2.pts = {s'.w.2.xc}
  let I (i : ℕ) (s : FeasSt (W × Ell n)) : Prop :=
    Rounds body 0 s0 i s ∧ Inv s.w.1 ∧ s.w.2.WF ∧ (s.w.2.Proper ∨ Tan i s)
  have key := forLoop_total_or (body := body) I Tan .zeroDivision (by
    rintro i s ⟨hr, hw, hWF, hP⟩
    obtain ⟨w1, a, hq, hw1, ha⟩ := hΩ s.w.2.xc s.w.1 hw
    have hlq : liftOracle (Ω s.w.2.xc) s.w = .ok ((w1, s.w.2), a) := by simp only [liftOracle, hq]
    have hxc : (Ell.space W n).xc s.w = s.w.2.xc := rfl
    cases a with
    | none =>
      refine .inr ⟨.brk { s with w := (w1, s.w.2), feasible := true }, ?_, by simp⟩
      simp only [hbody, feasBody]
      rw [hxc, hlq]
    | some c =>
      obtain ⟨g, β, rfl, hβ, hg⟩ := ha _ rfl
      rcases hP with hP | hT
      · obtain ⟨E', st, tsq, hu, hWF', hE'⟩ := Ell.update_deep_total hP hg hβ
        have hsu : (Ell.space W n).update (g, .scalar β) (w1, s.w.2) = .ok ((w1, E'), st, tsq) := by
          simp only [Ell.space, hu]
        right
        by_cases h1 : st ≠ .success
        · refine ⟨.brk { s with w := (w1, E'), status := st }, ?_, by simp⟩
          simp only [hbody, feasBody]
          rw [hxc, hlq]
          simp only [hsu, if_pos h1]
        · by_cases h2 : tsq < o.tol
          · refine ⟨.brk { s with w := (w1, E'), status := .smallenough }, ?_, by simp⟩
            simp only [hbody, feasBody]
            rw [hxc, hlq]
            simp only [hsu, if_neg h1, if_pos h2]
          · have hc : body i s = .ok (.cont { s with w := (w1, E') }) := by
              simp only [hbody, feasBody]
              rw [hxc, hlq]
              simp only [hsu, if_neg h1, if_neg h2]
            refine ⟨_, hc, ?_⟩
            intro s' hs'
            simp only [Step.cont.injEq] at hs'
            subst hs'
            refine ⟨.snoc hr hc, hw1, hWF', ?_⟩
            rcases hE' with hE' | ⟨hE', hτ⟩
            · exact .inl hE'
            · exact .inr ⟨i, s, w1, g, rfl, hr, hc, hP, by rw [hq, ← hτ], hE'⟩
      · obtain ⟨-, -, -, -, -, -, -, -, -, hpt⟩ := id hT
        rcases Ell.update_flat (g := g) hWF hpt hβ with hu | ⟨E', st, tsq, hu, hst⟩
        · left
          refine ⟨?_, hT⟩
          have hsu : (Ell.space W n).update (g, .scalar β) (w1, s.w.2) = .error .zeroDivision := by
            simp only [Ell.space, hu]
          simp only [hbody, feasBody]
          rw [hxc, hlq]
          simp only [hsu]
        · right
          have hsu : (Ell.space W n).update (g, .scalar β) (w1, s.w.2) = .ok ((w1, E'), st, tsq) := by
            simp only [Ell.space, hu]
          by_cases h1 : st ≠ .success
          · refine ⟨.brk { s with w := (w1, E'), status := st }, ?_, by simp⟩
            simp only [hbody, feasBody]
            rw [hxc, hlq]
            simp only [hsu, if_pos h1]
          · have h2 : tsq < o.tol := by rcases hst with h | h <;> [exact absurd h h1; rwa [h]]
            refine ⟨.brk { s with w := (w1, E'), status := .smallenough }, ?_, by simp⟩
            simp only [hbody, feasBody]
            rw [hxc, hlq]
            simp only [hsu, if_neg h1, if_pos h2]) o.maxIt.toNat 0 none s0 ⟨.refl, hw₀, hE.wf, .inl hE⟩
  rcases key with ⟨⟨s, last⟩, hres⟩ | ⟨herr, j, s', hj, k, s, w1, g, rfl, h1, h2, h3, h4, h5⟩
  · left
    have hne : last ≠ none := by
      rintro rfl
      rcases forLoop_ok hres with ⟨_, _, _, _, _, _, hl⟩ | ⟨_, hl⟩
      · simp at hl
      · split at hl
        · omega
        · simp at hl
    obtain ⟨l, rfl⟩ := Option.ne_none_iff_exists'.1 hne
    refine ⟨(s.w, ⟨s.feasible, l + 1, s.status⟩), ?_⟩
    simp only [cuttingPlaneFeas, forRange, ← hbody, ← hs0, hres, readVar]
  · right
    refine ⟨by simp only [cuttingPlaneFeas, forRange, ← hbody, ← hs0, herr], k, s, s', w1, g, by omega, h1, h2, h3, h4, h5⟩

/-- A user oracle for `x₀ ≤ -1` over the plane: a deep cut as long as `x₀ ≥ -1`. -/
noncomputable def edgeOracle (x : Fin 2 → ℝ) (w : Unit) : Except PyErr (Unit × Option ((Fin 2 → ℝ) × Beta)) :=
  if 0 ≤ x 0 + 1 then .ok (w, some (![1, 0], .scalar (x 0 + 1))) else .ok (w, none)

theorem edgeOracle_answers : AnswersF (fun _ => True) edgeOracle := by
  intro x w _
  unfold edgeOracle
  split_ifs with h
  · exact ⟨_, _, rfl, trivial, by rintro c ⟨rfl⟩; exact ⟨_, _, rfl, h, fun h0 => by simpa using congrFun h0 0⟩⟩
  · exact ⟨_, _, rfl, trivial, by simp⟩

/-- **C99** the exception is real: on the unit disc the first cut of `edgeOracle` touches the disc at `(-1, 0)`, and the
second divides by zero. -/
theorem C99_tangent_raises {o : Options ℝ} (hmax : 2 ≤ o.maxIt) (htol : o.tol ≤ 1) :
    ∃ E₀ : Ell 2, Ell.init (.scalar 1) 0 = .ok E₀ ∧
      cuttingPlaneFeas (fun x => liftOracle (edgeOracle x)) (Ell.space Unit 2) o ((), E₀) = .error .zeroDivision := by
  refine ⟨⟨true, false, 0, 1, 1⟩, by simp [Ell.init, c1?, pyDiv]; norm_num, ?_⟩
  obtain ⟨m, hm⟩ : ∃ m : ℕ, o.maxIt.toNat = m + 2 := ⟨o.maxIt.toNat - 2, by omega⟩
  have hs : pySqrt (1 : ℝ) = .ok 1 := by rw [pySqrt_ok]; simp
  have hs0 : pySqrt (0 : ℝ) = .ok 0 := by rw [pySqrt_ok]; simp
  have u1 : update (![1, 0], .scalar 1) (⟨true, false, 0, 1, 1⟩ : Ell 2) =
      .ok (⟨true, false, ![-1, 0], !![0, 0; 0, 1], 0⟩, .success, 1) := by
    have e1 : (![1, 0] : Fin 2 → ℝ) ⬝ᵥ ![1, 0] = 1 := by simp [dotProduct, Fin.sum_univ_two]
    have e2 : (1 : Matrix (Fin 2) (Fin 2) ℝ) *ᵥ (![1, 0] : Fin 2 → ℝ) = ![1, 0] := by simp
    simp only [update, calcLl, calcDc, e1, e2, mul_one, hs, pyDiv]
    norm_num
    simp only [bind, Except.bind, Except.ok.injEq, Prod.mk.injEq, Ell.mk.injEq, true_and, and_true]
    ext i j; fin_cases i <;> fin_cases j <;> simp
  have u2 : update (![1, 0], .scalar 0) (⟨true, false, ![-1, 0], !![0, 0; 0, 1], 0⟩ : Ell 2) = .error .zeroDivision := by
    have e1 : (![1, 0] : Fin 2 → ℝ) ⬝ᵥ (!![0, 0; 0, 1] : Matrix (Fin 2) (Fin 2) ℝ) *ᵥ ![1, 0] = 0 := by
      simp [dotProduct, Fin.sum_univ_two, Matrix.mulVec]
    simp only [update, calcLl, calcDc, e1, zero_mul, hs0, pyDiv, calcCc]
    norm_num
  have q1 : edgeOracle 0 () = .ok ((), some (![1, 0], .scalar 1)) := by simp [edgeOracle]
  have q2 : edgeOracle ![-1, 0] () = .ok ((), some (![1, 0], .scalar 0)) := by simp [edgeOracle]
  have ht : ¬ (1 : ℝ) < o.tol := not_lt.2 htol
  simp only [cuttingPlaneFeas, forRange, hm, forLoop, feasBody, liftOracle, Ell.space, q1, u1, ht, q2, u2, if_false, ne_eq,
    not_true_eq_false]

end Verif
