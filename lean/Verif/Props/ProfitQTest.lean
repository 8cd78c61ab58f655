import Verif.Props.ProfitTest
import Verif.Props.Q

/-! # C105: runs of the discrete profit oracle -/
namespace Verif
open Matrix Ell

section
variable {p A k : ℝ} {a v : Fin 2 → ℝ}

/-- `profit_q_oracle` as the `Omega` of `cutting_plane_q`. -/
noncomputable def qOmega (y : Fin 2 → ℝ) (t : ℝ) (retry : Bool) (o : ProfitQ) :
    Except PyErr (ProfitQ × ((Fin 2 → ℝ) × Beta) × (Fin 2 → ℝ) × Option ℝ × Bool) :=
  (ProfitQ.call y t retry o).map fun r => (r.1, scalarCut r.2.1, r.2.2)

/-- The quantities are positive integers. -/
def IntPt (z : Fin 2 → ℝ) : Prop := ∀ i, ∃ m : ℕ, 1 ≤ m ∧ qty z i = m

/-- What one call of the oracle does. -/
theorem qOmega_answer (hpA : 0 < p * A) (hk : 0 < k) (hv : ∀ i, 0 < v i) {o : ProfitQ} (ho : o.P = Profit.init p A k a v)
    (hyd : ∀ z, o.yd = some z → IntPt z) (y : Fin 2 → ℝ) {t : ℝ} (ht : 0 ≤ t) (retry : Bool) (hr : retry = true → o.yd.isSome) :
    ∃ o' cut yd t1 more, qOmega y t retry o = .ok (o', cut, yd, t1, more) ∧ o'.P = Profit.init p A k a v ∧ o'.yd = some yd ∧ IntPt yd ∧
      (retry = false → yd = fun i => Real.log (ProfitQ.roundPt y i)) ∧
      ∀ s, t1 = some s ↔ s = profit p A a v (qty yd) ∧ qty yd 0 ≤ k ∧ t < profit p A a v (qty yd) := by
  obtain ⟨o', cut, yd, t1, h1, h2, h3, h4, h5, h6⟩ := C47_profit_q_point (a := a) hpA hk hv o ho y ht retry hr
  refine ⟨o', scalarCut cut, yd, t1, !retry, by simp [qOmega, h1, Except.map], h3.trans ho, h2, ?_, ?_, h6⟩
  · cases retry with
    | true => exact hyd _ (h4 rfl)
    | false =>
      intro i
      obtain ⟨m, m1, m2, -⟩ := h5 rfl i
      exact ⟨m, m1, m2⟩
  · rintro rfl
    unfold ProfitQ.call at h1
    simp only [Bool.false_eq_true, if_false] at h1
    split at h1
    · simp at h1
    · simp only [Except.ok.injEq, Prod.mk.injEq] at h1
      exact h1.2.2.1.symm

/-- **C105** every run of `cutting_plane_q(profit_q_oracle(...), E, t0)`, `t0 ≥ 0`, that returns: nothing was found and `t = t0`, or the
returned quantities are positive integers within the limit with profit `t > t0`.  `feasible` tells which.  The value is at least the
profit at the rounded initial centre if that is within the limit. -/
theorem C105_q_verdict (hpA : 0 < p * A) (hk : 0 < k) (hv : ∀ i, 0 < v i) {E₀ E : Ell 2} {o : Options ℝ} {t0 t : ℝ} (ht0 : 0 ≤ t0)
    {xb : Option (Fin 2 → ℝ)} {info : CInfo} {w : ProfitQ}
    (hrun : cuttingPlaneQ (fun y t r => liftOracle (qOmega y t r)) (fun x _ => x) (Ell.space ProfitQ 2) t0 o
      (ProfitQ.init p A k a v, E₀) = .ok ((w, E), xb, t, info)) :
    ((xb = none ∧ t = t0 ∧ info.feasible = false) ∨
      ∃ z, xb = some z ∧ IntPt z ∧ qty z 0 ≤ k ∧ t = profit p A a v (qty z) ∧ t0 < t ∧ info.feasible = true) ∧
    (ProfitQ.roundPt E₀.xc 0 ≤ k → profit p A a v (ProfitQ.roundPt E₀.xc) ≤ t) := by
  obtain ⟨s, i, hf, -, rfl, rfl, rfl⟩ := q_ok hrun
  let Good (s : QSt (ProfitQ × Ell 2) (Fin 2 → ℝ) ℝ) : Prop :=
    ((s.xBest = none ∧ s.t = t0) ∨ ∃ z, s.xBest = some z ∧ IntPt z ∧ qty z 0 ≤ k ∧ s.t = profit p A a v (qty z) ∧ t0 < s.t)
  let First (s : QSt (ProfitQ × Ell 2) (Fin 2 → ℝ) ℝ) : Prop :=
    ProfitQ.roundPt E₀.xc 0 ≤ k → profit p A a v (ProfitQ.roundPt E₀.xc) ≤ s.t
  let I (j : ℕ) (s : QSt (ProfitQ × Ell 2) (Fin 2 → ℝ) ℝ) : Prop :=
    Good s ∧ s.w.1.P = Profit.init p A k a v ∧ (∀ z, s.w.1.yd = some z → IntPt z) ∧
      ((j = 0 ∧ s = ⟨(ProfitQ.init p A k a v, E₀), none, t0, .nosoln⟩) ∨ (s.w.1.yd.isSome ∧ First s))
  have hpos : ∀ s, Good s → 0 ≤ s.t := by
    rintro s (⟨-, h⟩ | ⟨-, -, -, -, -, h⟩) <;> linarith
  -- one call
  have step : ∀ j s, I j s → ∀ w1 c x0 t1 alt, liftOracle (qOmega ((Ell.space ProfitQ 2).xc s.w) s.t (decide (s.status = .noeffect))) s.w =
      .ok (w1, c, x0, t1, alt) → w1.1.P = Profit.init p A k a v ∧ w1.1.yd = some x0 ∧ IntPt x0 ∧
        Good (qAfter (fun x _ => x) s w1 x0 t1) ∧ First (qAfter (fun x _ => x) s w1 x0 t1) := by
    rintro j s ⟨hg, hP, hyd, hj⟩ w1 c x0 t1 alt hq
    have hr : decide (s.status = .noeffect) = true → s.w.1.yd.isSome := by
      intro h
      rcases hj with ⟨-, rfl⟩ | ⟨h1, -⟩
      · simp at h
      · exact h1
    obtain ⟨o', cut, yd, t1', more, e1, e2, e3, e4, e5, e6⟩ := qOmega_answer hpA hk hv hP hyd ((Ell.space ProfitQ 2).xc s.w) (hpos s hg) _ hr
    simp only [liftOracle, e1, Except.ok.injEq, Prod.mk.injEq] at hq
    obtain ⟨rfl, -, rfl, rfl, -⟩ := hq
    refine ⟨e2, e3, e4, ?_, ?_⟩
    · cases t1' with
      | none => exact hg
      | some s' =>
        obtain ⟨d1, d2, d3⟩ := (e6 s').1 rfl
        refine .inr ⟨yd, rfl, e4, d2, d1, ?_⟩
        change t0 < s'
        rw [← d1] at d3
        rcases hg with ⟨-, h⟩ | ⟨-, -, -, -, -, h⟩ <;> linarith
    · intro hlim
      rcases hj with ⟨-, rfl⟩ | ⟨-, hfi⟩
      · have hx : yd = fun i => Real.log (ProfitQ.roundPt E₀.xc i) := e5 (by simp)
        have hq : qty yd = ProfitQ.roundPt E₀.xc := by
          funext i
          obtain ⟨m, m1, m2, -⟩ := roundPt_spec E₀.xc i
          have : 0 < ProfitQ.roundPt E₀.xc i := by rw [m2]; exact_mod_cast m1
          rw [hx, qty, Real.exp_log this]
        rw [hq] at e6
        cases t1' with
        | none =>
          by_contra hcon
          have := (e6 _).2 ⟨rfl, hlim, not_le.1 hcon⟩
          simp at this
        | some s' => exact ((e6 s').1 rfl).1.ge
      · refine (hfi hlim).trans ?_
        cases t1' with
        | none => exact le_rfl
        | some s' =>
          obtain ⟨d1, -, d3⟩ := (e6 s').1 rfl
          rw [← d1] at d3
          exact d3.le
  have key : ∀ {j s1}, Rounds (qBody (fun y t r => liftOracle (qOmega y t r)) (fun x _ => x) (Ell.space ProfitQ 2) o.tol) 0
      ⟨(ProfitQ.init p A k a v, E₀), none, t0, .nosoln⟩ j s1 → I j s1 := by
    intro j s1 hr
    refine Rounds.inv I ⟨.inl ⟨rfl, rfl⟩, rfl, by simp [ProfitQ.init], .inl ⟨rfl, rfl⟩⟩ ?_ hr
    intro j s s' hI hb
    obtain ⟨w1, c, x0, t1, alt, w2, st, tsq, hq, hu, ⟨he, -⟩ | ⟨_, he, _⟩⟩ := qBody_ok hb
    · simp only [Step.cont.injEq] at he
      subst he
      obtain ⟨s1, s2, s3, s4, s5⟩ := step _ _ hI _ _ _ _ _ hq
      obtain ⟨E', -, rfl⟩ : ∃ E' : Ell 2, True ∧ w2 = (w1.1, E') := by
        simp only [Ell.space] at hu
        split at hu
        · simp at hu
        · simp only [Except.ok.injEq, Prod.mk.injEq] at hu
          exact ⟨_, trivial, hu.1.symm⟩
      refine ⟨s4, s1, fun z hz => ?_, .inr ⟨by change w1.1.yd.isSome; simp [s2], s5⟩⟩
      change w1.1.yd = some z at hz
      rw [s2] at hz
      exact Option.some.inj hz ▸ s3
    · simp at he
  have fin : Good s ∧ First s := by
    rcases forRange_ok hf with ⟨s1, hi, hr, hb⟩ | ⟨hi, hr⟩
    · obtain ⟨w1, c, x0, t1, alt, w2, st, tsq, hq, hu, ⟨he, _⟩ | ⟨st', he, hcase⟩⟩ := qBody_ok hb
      · simp at he
      · simp only [Step.brk.injEq] at he
        subst he
        obtain ⟨-, -, -, s4, s5⟩ := step _ _ (key hr) _ _ _ _ _ hq
        exact ⟨s4, s5⟩
    · obtain ⟨h1, -, -, h2⟩ := key hr
      rcases h2 with ⟨h2, -⟩ | ⟨-, h2⟩
      · omega
      · exact ⟨h1, h2⟩
  refine ⟨?_, fin.2⟩
  rcases fin.1 with ⟨h1, h2⟩ | ⟨z, h1, h2, h3, h4, h5⟩
  · exact .inl ⟨h1, h2, by simp [h2]⟩
  · exact .inr ⟨z, h1, h2, h3, h4, h5, by simpa using h5.ne'⟩

end

/-- **C105** `test_profit_q`: every run that returns is feasible; the returned quantities are positive integers with `x₁ ≤ 30`, `t` is
their profit, and `755 ≤ t < 3404.8`, whatever the options. -/
theorem C105_test_profit_q {E₀ E : Ell 2} (hinit : Ell.init (.diag fun _ => 100) 0 = .ok E₀) {o : Options ℝ} {t : ℝ}
    {xb : Option (Fin 2 → ℝ)} {info : CInfo} {w : ProfitQ}
    (hrun : cuttingPlaneQ (fun y t r => liftOracle (qOmega y t r)) (fun x _ => x) (Ell.space ProfitQ 2) 0 o
      (ProfitQ.init 20 40 30.5 ![0.1, 0.4] ![10, 35], E₀) = .ok ((w, E), xb, t, info)) :
    info.feasible = true ∧ (∃ z, xb = some z ∧ (∃ m₁ m₂ : ℕ, 1 ≤ m₁ ∧ m₁ ≤ 30 ∧ 1 ≤ m₂ ∧ qty z 0 = m₁ ∧ qty z 1 = m₂) ∧
      t = profit 20 40 ![0.1, 0.4] ![10, 35] (qty z)) ∧ 755 ≤ t ∧ t < 3404.8 := by
  have hv : ∀ i, 0 < (![10, 35] : Fin 2 → ℝ) i := by intro i; fin_cases i <;> norm_num
  have hx : E₀.xc = 0 := (C24_ell_init_diag le_rfl (fun _ => by norm_num) hinit).2.1
  obtain ⟨h1, h2⟩ := C105_q_verdict (by norm_num) (by norm_num) hv le_rfl hrun
  have hround : ∀ i, ProfitQ.roundPt E₀.xc i = 1 := by
    intro i
    have : npRound (Real.exp (E₀.xc i)) = 1 := by
      rw [hx, Pi.zero_apply, Real.exp_zero]
      exact npRound_eq (by norm_num) (by norm_num)
    rw [roundPt_of this (by norm_num)]; norm_num
  have h755 : 755 ≤ t := by
    have := h2 (by rw [hround]; norm_num)
    simp only [profit, hround, Real.one_rpow, cons_val_zero, cons_val_one] at this
    linarith
  rcases h1 with ⟨-, rfl, -⟩ | ⟨z, e1, e2, e3, e4, -, e6⟩
  · norm_num at h755
  obtain ⟨ly, -, hYhi, hopt, -⟩ := profit_test_opt
  have htop := hopt z e3
  rw [← e4] at htop
  obtain ⟨m₁, a1, a2⟩ := e2 0
  obtain ⟨m₂, b1, b2⟩ := e2 1
  refine ⟨e6, ⟨z, e1, ⟨m₁, m₂, a1, ?_, b1, a2, b2⟩, e4⟩, h755, ?_⟩
  · rw [a2] at e3
    have : (m₁ : ℝ) < 31 := by linarith
    have : m₁ < 31 := by exact_mod_cast this
    omega
  · norm_num at htop hYhi ⊢
    linarith

/-- The first call at `x = (2.6, 1)`. -/
theorem q_call_wrong : ProfitQ.call ![Real.log 2.6, 0] 0 false (ProfitQ.init 100 1 2.5 0 1) =
    .ok (⟨some ![Real.log 3, 0], Profit.init 100 1 2.5 0 1⟩, (![1, 0], Real.log 3 - Real.log 2.5 + (Real.log 3 - Real.log 2.6)),
      ![Real.log 3, 0], none, true) := by
  have hr0 : ProfitQ.roundPt ![Real.log 2.6, 0] 0 = 3 := by
    have h : npRound (Real.exp (![Real.log 2.6, 0] 0)) = 3 := by
      rw [cons_val_zero, Real.exp_log (by norm_num)]
      exact npRound_eq (by norm_num) (by norm_num)
    rw [roundPt_of h (by norm_num)]; norm_num
  have hr1 : ProfitQ.roundPt ![Real.log 2.6, 0] 1 = 1 := by
    have h : npRound (Real.exp (![Real.log 2.6, 0] 1)) = 1 := by
      rw [show ![Real.log 2.6, 0] 1 = 0 from rfl, Real.exp_zero]
      exact npRound_eq (by norm_num) (by norm_num)
    rw [roundPt_of h (by norm_num)]; norm_num
  have hyd : (fun i => Real.log (ProfitQ.roundPt ![Real.log 2.6, 0] i)) = ![Real.log 3, 0] := by
    funext i; fin_cases i
    · simp only [Fin.zero_eta, hr0, cons_val_zero]
    · simp only [Fin.mk_one, hr1, Real.log_one]; rfl
  have hc : 0 < ![Real.log 3, 0] 0 - Real.log 2.5 := by
    simp only [cons_val_zero, sub_pos]
    exact Real.log_lt_log (by norm_num) (by norm_num)
  have hcall : (Profit.init 100 1 2.5 0 1).call ![Real.log 3, 0] 0 = .ok ((![1, 0], Real.log 3 - Real.log 2.5), none) := if_pos hc
  simp only [ProfitQ.call, ProfitQ.init, Bool.false_eq_true, if_false, hyd, hcall, Bool.not_false, dot2, cons_val_zero, cons_val_one,
    Pi.sub_apply]
  simp

/-- **C105** (finding).  The wrong shift of the cut (C47) makes whole runs fail: `p A = 100`, `k = 2.5`, `a = (0, 0)`, `v = (1, 1)`,
`ell(0.09, (log 2.6, 0))`, start level 0: for all options the run ends in the first iteration with `nosoln` and `feasible = False`, although
the initial disc contains the quantities `(2, 1)`, within the limit and with profit `97`. -/
theorem C105_q_run_wrong {o : Options ℝ} (ho : 1 ≤ o.maxIt) {E₀ : Ell 2} (hinit : Ell.init (.scalar 0.09) ![Real.log 2.6, 0] = .ok E₀) :
    (∃ w, cuttingPlaneQ (fun y t r => liftOracle (qOmega y t r)) (fun x _ => x) (Ell.space ProfitQ 2) 0 o
      (ProfitQ.init 100 1 2.5 0 1, E₀) = .ok (w, none, 0, ⟨false, 1, .nosoln⟩)) ∧
    ∃ z ∈ E₀.pts, qty z 0 = 2 ∧ qty z 1 = 1 ∧ (2 : ℝ) ≤ 2.5 ∧ profit 100 1 0 1 (qty z) = 97 := by
  have hsq : √(0.09 : ℝ) = 0.3 := by rw [show (0.09 : ℝ) = 0.3 ^ 2 by norm_num, Real.sqrt_sq (by norm_num)]
  have hpts : E₀.pts = euclBall ![Real.log 2.6, 0] 0.3 :=
    (init_bound (r := 1) le_rfl (R := 0.3) (by rw [show (0.3 : ℝ) ^ 2 = 0.09 by norm_num]; exact hinit)).2.1
  have hE : E₀ = ⟨true, false, ![Real.log 2.6, 0], 1, 0.09⟩ := by
    unfold Ell.init at hinit
    split at hinit
    · simp at hinit
    simp only [Except.ok.injEq] at hinit
    exact hinit.symm
  have hβ : 0.3 < Real.log 3 - Real.log 2.5 + (Real.log 3 - Real.log 2.6) := by
    have h1 : Real.exp 0.3 < 9 / 6.5 := by
      have h2 : Real.exp 0.1 ≤ 10 / 9 := by
        have h3 := Real.add_one_le_exp (-(0.1 : ℝ))
        have h4 : Real.exp 0.1 * Real.exp (-0.1) = 1 := by rw [← Real.exp_add]; simp
        have h5 := Real.exp_pos 0.1
        nlinarith
      have h6 : Real.exp 0.3 = Real.exp 0.1 ^ 3 := by rw [← Real.exp_nat_mul]; norm_num
      rw [h6]
      refine (pow_le_pow_left₀ (Real.exp_pos _).le h2 3).trans_lt ?_
      norm_num
    have h7 : 0.3 < Real.log (9 / 6.5) := (Real.lt_log_iff_exp_lt (by norm_num)).2 h1
    have h8 : Real.log (9 / 6.5) = Real.log 3 - Real.log 2.5 + (Real.log 3 - Real.log 2.6) := by
      rw [← Real.log_div (by norm_num) (by norm_num), ← Real.log_div (by norm_num) (by norm_num),
        ← Real.log_mul (by norm_num) (by norm_num)]
      norm_num
    linarith
  refine ⟨?_, ![Real.log 2, 0], ?_, ?_, ?_, by norm_num, ?_⟩
  · obtain ⟨m, hm⟩ : ∃ m, o.maxIt.toNat = m + 1 := ⟨o.maxIt.toNat - 1, by omega⟩
    have hu : Ell.update (![1, 0], .scalar (Real.log 3 - Real.log 2.5 + (Real.log 3 - Real.log 2.6))) E₀ = .ok (E₀, .nosoln, 0.09) := by
      have hg : (![1, 0] : Fin 2 → ℝ) ⬝ᵥ E₀.Q *ᵥ ![1, 0] = 1 := by rw [hE]; simp
      have hk : E₀.kappa = 0.09 := by rw [hE]
      have hs : pySqrt (0.09 : ℝ) = .ok 0.3 := by rw [pySqrt_ok]; exact ⟨by norm_num, hsq.symm⟩
      simp only [Ell.update, calcLl, calcDc, hg, hk, mul_one, hs]
      simp [hβ]
    have hq : liftOracle (qOmega E₀.xc 0 false) (ProfitQ.init 100 1 2.5 0 1, E₀) =
        .ok ((⟨some ![Real.log 3, 0], Profit.init 100 1 2.5 0 1⟩, E₀),
          (![1, 0], .scalar (Real.log 3 - Real.log 2.5 + (Real.log 3 - Real.log 2.6))), ![Real.log 3, 0], none, true) := by
      have hx : E₀.xc = ![Real.log 2.6, 0] := by rw [hE]
      simp only [liftOracle, qOmega, hx, q_call_wrong, Except.map, scalarCut]
    refine ⟨(⟨some ![Real.log 3, 0], Profit.init 100 1 2.5 0 1⟩, E₀), ?_⟩
    simp only [cuttingPlaneQ, forRange, hm, forLoop, qBody]
    have hd : decide (CUTStatus.nosoln = CUTStatus.noeffect) = false := by decide
    have hsx : (Ell.space ProfitQ 2).xc (ProfitQ.init 100 1 2.5 0 1, E₀) = E₀.xc := rfl
    rw [hd, hsx, hq]
    simp [Ell.space, hu, readVar]
  · rw [hpts]
    simp only [euclBall, Set.mem_ofPred_eq, Fin.sum_univ_two, cons_val_zero, cons_val_one]
    have h1 : Real.log 2.6 - Real.log 2 ≤ 0.3 := by
      rw [← Real.log_div (by norm_num) (by norm_num), Real.log_le_iff_le_exp (by norm_num)]
      have := Real.add_one_le_exp (0.3 : ℝ)
      norm_num at this ⊢
      linarith
    have h2 : Real.log 2 ≤ Real.log 2.6 := Real.log_le_log (by norm_num) (by norm_num)
    nlinarith
  · simp [qty, Real.exp_log]
  · simp [qty]
  · simp only [profit, qty, cons_val_zero, cons_val_one, Pi.zero_apply, Pi.one_apply, Real.rpow_zero, Real.exp_zero]
    rw [Real.exp_log (by norm_num)]; norm_num

/-- The start exists. -/
example : ∃ E₀ : Ell 2, Ell.init (.scalar 0.09) ![Real.log 2.6, 0] = .ok E₀ := by
  unfold Ell.init c1? pyDiv; norm_num

end Verif
