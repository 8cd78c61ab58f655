import Verif.Model.ProfitQFloat
import Verif.Props.ProfitFloatRun
import Verif.Props.ProfitQTest

/-!
# C150: discrete profit maximization with every operation rounded

`cutting_plane_q(profit_q_oracle(...), S, t0)` for any search space `S`.
-/
namespace Verif
open Matrix Ell FloatSpec

/-- `profit_q_oracle` with rounding as the `Omega` of `cutting_plane_q`. -/
noncomputable def qOmegaF (fl ln ex : ℝ → ℝ) (dot : (Fin 2 → ℝ) → (Fin 2 → ℝ) → ℝ) (y : Fin 2 → ℝ) (t : ℝ) (retry : Bool) (o : ProfitQ) :
    Except PyErr (ProfitQ × ((Fin 2 → ℝ) × Beta) × (Fin 2 → ℝ) × Option ℝ × Bool) :=
  (ProfitQ.callF fl ln ex dot y t retry o).map fun r => (r.1, scalarCut r.2.1, r.2.2)

/-- `z` holds the computed logarithms of the positive integers `m`. -/
def LnOf (ln : ℝ → ℝ) (m : Fin 2 → ℕ) (z : Fin 2 → ℝ) : Prop := ∀ i, 1 ≤ m i ∧ z i = ln (m i)

/-- What the user wants of a reported pair `(z, s)`: `z` holds the computed logarithms of positive integer quantities that are within the limit and have the profit `s`, both up to `ν`. -/
def QFound (ln : ℝ → ℝ) (p A k : ℝ) (a v : Fin 2 → ℝ) (ν : ℝ) (z : Fin 2 → ℝ) (s : ℝ) : Prop :=
  ∃ m : Fin 2 → ℕ, LnOf ln m z ∧ (m 0 : ℝ) ≤ k * Real.exp ν ∧ |s - profit p A a v (fun i => (m i : ℝ))| ≤ ν

section
variable {fl ln ex : ℝ → ℝ} {dot : (Fin 2 → ℝ) → (Fin 2 → ℝ) → ℝ} {ζ : ℝ} {p A k : ℝ} {a v : Fin 2 → ℝ} {R T : ℝ}

/-- The states that `profit_q_oracle` can be in when the integers met so far have logarithms up to `R`. -/
def QInv (fl ln : ℝ → ℝ) (p A k : ℝ) (a v : Fin 2 → ℝ) (R : ℝ) (o : ProfitQ) : Prop :=
  o.P = Profit.initF fl ln p A k a v ∧ ∀ z, o.yd = some z → ∃ m, LnOf ln m z ∧ ∀ i, Real.log (m i) ≤ R

theorem roundPtF_spec (hζ : ζ ≤ 1 / 100) (hex : ExpErr ζ ex) (y : Fin 2 → ℝ) (i : Fin 2) :
    ∃ m : ℕ, 1 ≤ m ∧ ProfitQ.roundPtF ex y i = m ∧ (∀ m' : ℕ, 1 ≤ m' → |(m : ℝ) - ex (y i)| ≤ |(m' : ℝ) - ex (y i)|) ∧
      ∀ R, 0 ≤ R → y i ≤ R → Real.log m ≤ R + 1 := by
  have hp := Real.exp_pos (y i)
  have he := abs_le.1 (hex (y i))
  have hs := mul_le_mul_of_nonneg_right hζ hp.le
  have hpos : 0 < ex (y i) := by linarith
  have e1 : Real.exp (Real.log (ex (y i))) = ex (y i) := Real.exp_log hpos
  obtain ⟨m, m1, m2, m3⟩ := roundPt_spec (fun j => Real.log (ex (y j))) i
  simp only [qty, e1] at m3
  refine ⟨m, m1, ?_, m3, fun R hR hy => ?_⟩
  · rw [← m2]
    simp only [ProfitQ.roundPtF, ProfitQ.roundPt, e1]
  · have hm : (m : ℝ) ≤ 1 + ex (y i) := by
      by_contra hcon
      push Not at hcon
      have q0 : (1 : ℝ) < m := by linarith
      have q1 : 2 ≤ m := by exact_mod_cast q0
      have q2 := m3 (m - 1) (by omega)
      rw [Nat.cast_sub m1, Nat.cast_one, abs_of_pos (by linarith), abs_of_pos (by linarith)] at q2
      linarith
    have e2 : (2 : ℝ) ≤ Real.exp 1 - 0.7 := by have := Real.exp_one_gt_d9; norm_num at this ⊢; linarith
    have e3 : Real.exp (y i) ≤ Real.exp R := Real.exp_le_exp.2 hy
    have e4 : 1 ≤ Real.exp R := Real.one_le_exp hR
    have e5 := mul_le_mul_of_nonneg_left e2 (Real.exp_pos R).le
    rw [Real.log_le_iff_le_exp (by exact_mod_cast m1), Real.exp_add]
    norm_num at e5
    linarith

/-- The computed logarithms of integers are in the box. -/
theorem lnOf_box (h0 : 0 ≤ ζ) (hζ : ζ ≤ 1 / 100) (hln : LogErr ζ ln) {m : Fin 2 → ℕ} {z : Fin 2 → ℝ} (hz : LnOf ln m z) (hm : ∀ i, Real.log (m i) ≤ R) (i : Fin 2) :
    |z i| ≤ 2 * R ∧ |z i - Real.log (m i)| ≤ ζ * R := by
  obtain ⟨h1, h2⟩ := hz i
  have h3 : (1 : ℝ) ≤ m i := by exact_mod_cast h1
  have h4 : 0 ≤ Real.log (m i) := Real.log_nonneg h3
  have h5 := hln (m i) (by linarith)
  rw [← h2, abs_of_nonneg h4] at h5
  have h6 : |z i - Real.log (m i)| ≤ ζ * R := h5.trans (mul_le_mul_of_nonneg_left (hm i) h0)
  have h7 : ζ * R ≤ 1 / 100 * R := mul_le_mul_of_nonneg_right hζ (h4.trans (hm i))
  refine ⟨?_, h6⟩
  have h8 := abs_le.1 h6
  have h9 := hm i
  rw [abs_le]
  constructor <;> linarith

/-- From the computed logarithms to the integers themselves. -/
theorem lnOf_profit (hpA : 0 < p * A) (hv : ∀ i, 0 < v i) (h0 : 0 ≤ ζ) (hζ : ζ ≤ 1 / 100) (hln : LogErr ζ ln) {m : Fin 2 → ℕ} {z : Fin 2 → ℝ} (hz : LnOf ln m z)
    (hm : ∀ i, Real.log (m i) ≤ R) (hR : 0 ≤ R) (hs : ζ * (R * (1 + ∑ i, |a i|)) ≤ 1) :
    (m 0 : ℝ) ≤ qty z 0 * Real.exp (ζ * R) ∧ qty z 0 ≤ m 0 * Real.exp (ζ * R) ∧
      |profit p A a v (qty z) - profit p A a v (fun i => (m i : ℝ))| ≤ 2 * (ζ * (R * (1 + ∑ i, |a i|))) * (revHi p A a (2 * R) + costHi Unc.none v (2 * R)) := by
  have hbox := fun i => lnOf_box h0 hζ hln hz hm i
  have hmp : ∀ i, (0 : ℝ) < m i := fun i => by exact_mod_cast (hz i).1
  set y' : Fin 2 → ℝ := fun i => Real.log (m i) with hy'
  have hq : (fun i => (m i : ℝ)) = qty y' := by funext i; rw [qty, hy', Real.exp_log (hmp i)]
  have ha0 : 0 ≤ ∑ i, |a i| := Finset.sum_nonneg fun _ _ => abs_nonneg _
  set η := ζ * (R * (1 + ∑ i, |a i|)) with hη
  have hη0 : 0 ≤ ζ * R := mul_nonneg h0 hR
  have hη1 : ζ * R ≤ η := by
    have := mul_nonneg hη0 ha0
    rw [hη]; linarith
  have hη2 : ζ * R * ∑ i, |a i| ≤ η := by rw [hη]; linarith
  have hfac : ∀ x, |x| ≤ η → |Real.exp x - 1| ≤ 2 * η := fun x hx => (Real.abs_exp_sub_one_le (hx.trans hs)).trans (by linarith)
  have hm0 : (m 0 : ℝ) = Real.exp (y' 0) := (Real.exp_log (hmp 0)).symm
  refine ⟨?_, ?_, ?_⟩
  · rw [hm0, qty, ← Real.exp_add, Real.exp_le_exp]
    linarith [(abs_le.1 (hbox 0).2).1]
  · rw [hm0, qty, ← Real.exp_add, Real.exp_le_exp]
    linarith [(abs_le.1 (hbox 0).2).2]
  rw [hq]
  have hprof : ∀ x, profit p A a v (qty x) = Real.exp (Real.log (p * A) + a ⬝ᵥ x) - v 0 * Real.exp (x 0) - v 1 * Real.exp (x 1) := fun x => by
    rw [cobb_eq hpA, profit]; rfl
  have hrev : |Real.exp (Real.log (p * A) + a ⬝ᵥ z) - Real.exp (Real.log (p * A) + a ⬝ᵥ y')| ≤ 2 * η * revHi p A a (2 * R) := by
    have e1 : Real.exp (Real.log (p * A) + a ⬝ᵥ y') = Real.exp (Real.log (p * A) + a ⬝ᵥ z) * Real.exp (a ⬝ᵥ (y' - z)) := by
      rw [← Real.exp_add, dotProduct_sub]; congr 1; ring
    have e2 : |a ⬝ᵥ (y' - z)| ≤ η := by
      refine le_trans ?_ hη2
      rw [Finset.mul_sum]
      refine (Finset.abs_sum_le_sum_abs _ _).trans (Finset.sum_le_sum fun i _ => ?_)
      rw [abs_mul, mul_comm]
      refine mul_le_mul_of_nonneg_right ?_ (abs_nonneg _)
      rw [Pi.sub_apply, abs_sub_comm]
      exact (hbox i).2
    have e3 : Real.exp (Real.log (p * A) + a ⬝ᵥ z) ≤ revHi p A a (2 * R) := by
      rw [Real.exp_add, Real.exp_log hpA, revHi]
      refine mul_le_mul_of_nonneg_left (Real.exp_le_exp.2 (Finset.sum_le_sum fun i _ => ?_)) hpA.le
      refine (le_abs_self _).trans ?_
      rw [abs_mul]
      exact mul_le_mul_of_nonneg_left (hbox i).1 (abs_nonneg _)
    rw [e1, show ∀ x y : ℝ, x - x * y = -(x * (y - 1)) by intros; ring, abs_neg, abs_mul, abs_of_pos (Real.exp_pos _), mul_comm]
    exact mul_le_mul (hfac _ e2) e3 (Real.exp_pos _).le (by linarith)
  have hcost : ∀ i, |v i * Real.exp (z i) - v i * Real.exp (y' i)| ≤ 2 * η * (v i * Real.exp (2 * R)) := fun i => by
    have e1 : Real.exp (y' i) = Real.exp (z i) * Real.exp (y' i - z i) := by rw [← Real.exp_add]; congr 1; ring
    have e2 : |y' i - z i| ≤ η := by rw [abs_sub_comm]; exact (hbox i).2.trans hη1
    have e3 : v i * Real.exp (z i) ≤ v i * Real.exp (2 * R) := mul_le_mul_of_nonneg_left (Real.exp_le_exp.2 ((le_abs_self _).trans (hbox i).1)) (hv i).le
    rw [e1, show ∀ w x y : ℝ, w * x - w * (x * y) = -(w * x * (y - 1)) by intros; ring, abs_neg, abs_mul, abs_of_pos (mul_pos (hv i) (Real.exp_pos _)), mul_comm]
    exact mul_le_mul (hfac _ e2) e3 (mul_pos (hv i) (Real.exp_pos _)).le (by linarith)
  have hc : costHi Unc.none v (2 * R) = v 0 * Real.exp (2 * R) + v 1 * Real.exp (2 * R) := by simp [costHi, Unc.none, Fin.sum_univ_two]
  rw [hprof, hprof, hc]
  have c0 := abs_le.1 (hcost 0)
  have c1 := abs_le.1 (hcost 1)
  have c2 := abs_le.1 hrev
  generalize Real.exp (Real.log (p * A) + a ⬝ᵥ z) = X at *
  generalize Real.exp (Real.log (p * A) + a ⬝ᵥ y') = Y at *
  rw [abs_le]
  constructor <;> linarith

/-- The shift of the cut. -/
theorem shift_err (h0 : 0 ≤ ζ) (hζ : ζ ≤ 1 / 100) (hfl : RelErr ζ fl) (hdot : VecDotErr ζ dot) (g x : Fin 2 → ℝ) (h : ℝ) :
    |fl (h + dot g fun i => fl (x i)) - (h + g ⬝ᵥ x)| ≤ 4 * ζ * (|h| + ∑ i, |g i * x i|) := by
  set S := ∑ i, |g i * x i| with hS
  have hS0 : 0 ≤ S := Finset.sum_nonneg fun _ _ => abs_nonneg _
  have e1 : |g ⬝ᵥ (fun i => fl (x i)) - g ⬝ᵥ x| ≤ ζ * S := by
    rw [← dotProduct_sub, hS, Finset.mul_sum]
    refine (Finset.abs_sum_le_sum_abs _ _).trans (Finset.sum_le_sum fun i _ => ?_)
    rw [abs_mul, abs_mul, mul_left_comm]
    exact mul_le_mul_of_nonneg_left (hfl _) (abs_nonneg _)
  have e2 : ∑ i, |g i * fl (x i)| ≤ (1 + ζ) * S := by
    rw [hS, Finset.mul_sum]
    refine Finset.sum_le_sum fun i _ => ?_
    rw [abs_mul, abs_mul, mul_left_comm]
    refine mul_le_mul_of_nonneg_left ?_ (abs_nonneg _)
    have := hfl (x i)
    have := abs_sub_abs_le_abs_sub (fl (x i)) (x i)
    linarith
  have e3 := (hdot g fun i => fl (x i)).trans (mul_le_mul_of_nonneg_left e2 h0)
  set d := dot g fun i => fl (x i) with hd
  have e4 : |g ⬝ᵥ x| ≤ S := Finset.abs_sum_le_sum_abs _ _
  have hζS : ζ * (ζ * S) ≤ 1 / 100 * (ζ * S) := mul_le_mul_of_nonneg_right hζ (by positivity)
  have hζS' : ζ * S ≤ 1 / 100 * S := mul_le_mul_of_nonneg_right hζ hS0
  have e5 : |d - g ⬝ᵥ x| ≤ (2 + 1 / 100) * (ζ * S) := by
    have := abs_sub_le d (g ⬝ᵥ fun i => fl (x i)) (g ⬝ᵥ x)
    linarith
  have e6 : |h + d| ≤ |h| + (1 + 1 / 10) * S := by
    have a1 := abs_add_le h d
    have a2 := abs_sub_abs_le_abs_sub d (g ⬝ᵥ x)
    linarith
  have e7 := (hfl (h + d)).trans (mul_le_mul_of_nonneg_left e6 h0)
  have e8 : |fl (h + d) - (h + g ⬝ᵥ x)| ≤ |fl (h + d) - (h + d)| + |d - g ⬝ᵥ x| := by
    refine (abs_sub_le _ (h + d) _).trans (le_of_eq ?_)
    rw [show h + d - (h + g ⬝ᵥ x) = d - g ⬝ᵥ x by ring]
  have hζh : 0 ≤ ζ * |h| := by positivity
  have hζS0 : 0 ≤ ζ * S := by positivity
  linarith

/-- **C150** (one call).  Every operation rounded: in the box, and for a level that is not negative beyond the error, `profit_q_oracle` answers.  The evaluation point holds the computed
logarithms of positive integers, on a first try the integers nearest to the computed exponentials, on a retry those of the previous call, whatever `y` is.  The reported value is that of
`profit_oracle` at this point (C136), the flag is `not retry`, and the
cut of `profit_oracle` is shifted by `g'(yd - y)` (which has the wrong sign, C47) up to rounding. -/
theorem C150_call (hp : 0 < p) (hA : 0 < A) (hk : 0 < k) (hv : ∀ i, 0 < v i) (hR : 0 ≤ R) (h0 : 0 ≤ ζ) (hfl : RelErr ζ fl) (hln : LogErr ζ ln) (hex : ExpErr ζ ex)
    (hdot : VecDotErr ζ dot) {ζ' M t : ℝ} (hζ' : ζ ≤ ζ') (hM : ζ' * M ≤ 1 / 100) (hM1 : 1 ≤ M) {o : ProfitQ} (ho : QInv fl ln p A k a v (R + 1) o) {y : Fin 2 → ℝ} (hy : ∀ i, |y i| ≤ R)
    (retry : Bool) (hr : retry = true → o.yd.isSome)
    (hS : ∀ z : Fin 2 → ℝ, (∀ i, |z i| ≤ 2 * (R + 1)) → ProfitSizes Unc.none p A k a v z t M ∧ -(ζ' * Unc.none.cost v z) ≤ t) :
    ∃ o' g h h' yd t1 m, ProfitQ.callF fl ln ex dot y t retry o = .ok (o', (g, h'), yd, t1, !retry) ∧ QInv fl ln p A k a v (R + 1) o' ∧ o'.yd = some yd ∧ LnOf ln m yd ∧
      (∀ i, Real.log (m i) ≤ R + 1) ∧ (retry = true → o.yd = some yd) ∧
      (retry = false → ∀ i, ∀ m' : ℕ, 1 ≤ m' → |(m i : ℝ) - ex (y i)| ≤ |(m' : ℝ) - ex (y i)|) ∧
      (Profit.initF fl ln p A k a v).callF fl ln ex dot yd t = .ok ((g, h), t1) ∧ ProfitAnswer Unc.none p A k a v yd t (ζ' * M) (g, h) t1 ∧
      |h' - (h + g ⬝ᵥ (yd - y))| ≤ 4 * ζ * (|h| + ∑ i, |g i * (yd i - y i)|) := by
  have hζ0 : 0 ≤ ζ' := h0.trans hζ'
  have hζ1 : ζ ≤ 1 / 100 := by
    have := le_mul_of_one_le_right hζ0 hM1
    linarith
  obtain ⟨ho1, ho2⟩ := ho
  -- the point
  obtain ⟨o1, yd, m, e1, e2, e3, e4, e5, e6, e7⟩ : ∃ o1 yd m, (if retry then o else ⟨some fun i => ln (ProfitQ.roundPtF ex y i), o.P⟩ : ProfitQ) = o1 ∧ o1.yd = some yd ∧ o1.P = o.P ∧ LnOf ln m yd ∧
      (∀ i, Real.log (m i) ≤ R + 1) ∧ (retry = true → o.yd = some yd) ∧
      (retry = false → ∀ i, ∀ m' : ℕ, 1 ≤ m' → |(m i : ℝ) - ex (y i)| ≤ |(m' : ℝ) - ex (y i)|) := by
    cases retry with
    | true =>
      obtain ⟨z, hz⟩ := Option.isSome_iff_exists.1 (hr rfl)
      obtain ⟨m, m1, m2⟩ := ho2 z hz
      exact ⟨o, z, m, by simp, hz, rfl, m1, m2, fun _ => hz, fun h => by simp at h⟩
    | false =>
      choose m m1 m2 m3 m4 using fun i => roundPtF_spec hζ1 hex y i
      refine ⟨_, fun i => ln (ProfitQ.roundPtF ex y i), m, rfl, by simp, by simp, fun i => ⟨m1 i, by simp only [m2]⟩, fun i => m4 i R hR ((le_abs_self _).trans (hy i)), fun h => by simp at h, fun _ => m3⟩
  obtain ⟨s1, s2⟩ := hS yd fun i => (lnOf_box h0 hζ1 hln e4 e5 i).1
  obtain ⟨⟨g, h⟩, t1, c1, c2⟩ := C136_profit (a := a) hp hA hk hv hζ0 hM
    (fun x => (hfl x).trans (mul_le_mul_of_nonneg_right hζ' (abs_nonneg _))) (fun x hx => (hln x hx).trans (mul_le_mul_of_nonneg_right hζ' (abs_nonneg _)))
    (fun x => (hex x).trans (mul_le_mul_of_nonneg_right hζ' (Real.exp_pos _).le))
    (fun x y => (hdot x y).trans (mul_le_mul_of_nonneg_right hζ' (Finset.sum_nonneg fun _ _ => abs_nonneg _))) s1 s2
  refine ⟨o1, g, h, fl (h + dot g fun i => fl (yd i - y i)), yd, t1, m, ?_, ⟨e3.trans ho1, fun z hz => ?_⟩, e2, e4, e5, e6, e7, c1, c2, shift_err h0 hζ1 hfl hdot g (yd - y) h⟩
  · have c1' : o1.P.callF fl ln ex dot yd t = .ok ((g, h), t1) := by rw [e3, ho1]; exact c1
    simp only [ProfitQ.callF, e1, e2, c1']
  · rw [e2] at hz
    obtain rfl := Option.some.inj hz
    exact ⟨m, e4, e5⟩

/-! ### Runs -/

variable {t0 : ℝ}

/-- **C150** (runs).  For all data, all bounds `R` on the centres, all `max_it` and all `ν > 0` there is a precision from which on, every operation of the oracle rounded, every run of
`cutting_plane_q` with `profit_q_oracle` on whatever search space with centres bounded by `R` has the following property if it returns.  Either nothing was found and `t = t0`, or the point returned holds
the computed logarithms of positive integer quantities within the limit, of profit `t`, both up to `ν`.  In either case `t` is at least `t0 - ν`, and at least `profit - ν` for the positive integers nearest to the
computed exponentials of the initial centre if these are unique and within the limit by a factor `exp (-ν)`. -/
theorem C150_run (hp : 0 < p) (hA : 0 < A) (hk : 0 < k) (hv : ∀ i, 0 < v i) (hR : 0 ≤ R) (ht0 : 0 ≤ t0) (N : ℕ) {ν : ℝ} (hν : 0 < ν) :
    ∃ ζ₀, 0 < ζ₀ ∧ ∀ ζ, 0 ≤ ζ → ζ ≤ ζ₀ → ∀ fl ln ex dot, RelErr ζ fl → LogErr ζ ln → ExpErr ζ ex → VecDotErr ζ dot →
      ∀ {V : Type _} (S : Space V (Fin 2 → ℝ) ((Fin 2 → ℝ) × Beta) ℝ) (tol : ℝ) (v₀ : V),
      (∀ j s, j < N → Rounds (qBody (fun y t r => liftOracle (qOmegaF fl ln ex dot y t r)) (fun x _ => x) (S.beside ProfitQ) tol) 0
        ⟨(ProfitQ.initF fl ln p A k a v, v₀), none, t0, .nosoln⟩ j s → ∀ i, |S.xc s.w.2 i| ≤ R) →
      ∀ w xb t info, cuttingPlaneQ (fun y t r => liftOracle (qOmegaF fl ln ex dot y t r)) (fun x _ => x) (S.beside ProfitQ) t0 ⟨N, tol⟩
        (ProfitQ.initF fl ln p A k a v, v₀) = .ok (w, xb, t, info) →
      t0 - ν ≤ t ∧ ((xb = none ∧ t = t0) ∨ ∃ z, xb = some z ∧ QFound ln p A k a v ν z t) ∧
      ∀ m : Fin 2 → ℕ, (∀ i, 1 ≤ m i ∧ ∀ q : ℕ, 1 ≤ q → q ≠ m i → |(m i : ℝ) - ex (S.xc v₀ i)| < |(q : ℝ) - ex (S.xc v₀ i)|) → (m 0 : ℝ) ≤ k * Real.exp (-ν) → profit p A a v (fun i => (m i : ℝ)) - ν ≤ t := by
  set R₁ := R + 1 with hR₁
  set Rb := 2 * R₁ with hRb
  have hR₁0 : 0 ≤ R₁ := by linarith
  have hRb0 : 0 ≤ Rb := by linarith
  have hpA : 0 < p * A := mul_pos hp hA
  set T := max t0 (2 * revHi p A a Rb + costHi Unc.none v Rb) with hT
  have hT2 : 2 * revHi p A a Rb + costHi Unc.none v Rb ≤ T := le_max_right _ _
  have ht0T : t0 ≤ T := le_max_left _ _
  have hT0 : 0 ≤ T := ht0.trans ht0T
  have z1 : (0 : ℝ) ≤ Unc.none.e1 := le_rfl
  have z2 : (0 : ℝ) ≤ Unc.none.e2 := le_rfl
  have z3 : (0 : ℝ) ≤ Unc.none.e3 := le_rfl
  have z5 : (0 : ℝ) ≤ Unc.none.e5 := le_rfl
  have z3' : Unc.none.e3 < p := hp
  have z4' : Unc.none.e4 < k := hk
  have hcost : 0 < costLo Unc.none v Rb ∧ _ := cost_box (e := Unc.none) z5 hv (y := 0) (R := Rb) (fun i => by simpa using hRb0)
  have hcH : 0 ≤ costHi Unc.none v Rb := hcost.1.le.trans (hcost.2.1.trans hcost.2.2)
  set δ := min 1 (ν / (8 * (T + costHi Unc.none v Rb + 1))) with hδ
  have hδ0 : 0 < δ := lt_min one_pos (by positivity)
  have hδ1 : δ ≤ 1 := min_le_left _ _
  have hδ2 : δ * (8 * (T + costHi Unc.none v Rb + 1)) ≤ ν := by
    have := min_le_right 1 (ν / (8 * (T + costHi Unc.none v Rb + 1)))
    rwa [← hδ, le_div_iff₀ (by positivity)] at this
  have hδ3 : 0 ≤ δ * (T + costHi Unc.none v Rb) := by positivity
  obtain ⟨ζ1, hζ1, hz1⟩ := prec_exists (e := Unc.none) (p := p) (A := A) (k := k) (a := a) (v := v) Rb T (δ := δ) (ν := ν / 8) hδ0 (by linarith) N
  have hs0 : 0 ≤ ∑ i, |a i| := Finset.sum_nonneg fun _ _ => abs_nonneg _
  set c := R₁ * (1 + ∑ i, |a i|) with hc
  have hc0 : 0 ≤ c := by positivity
  have hcR : R₁ ≤ c := by have := mul_nonneg hR₁0 hs0; rw [hc]; linarith
  have hrev : 0 ≤ revHi p A a Rb := mul_nonneg hpA.le (Real.exp_pos _).le
  set d := 1 + ν⁻¹ * 4 * (1 + revHi p A a Rb + costHi Unc.none v Rb) with hd
  have hd1 : 1 ≤ d := by
    have : 0 ≤ ν⁻¹ * 4 * (1 + revHi p A a Rb + costHi Unc.none v Rb) := by positivity
    linarith
  refine ⟨min ζ1 (1 / ((c + 1) * d)), lt_min hζ1 (by positivity), fun ζ h0 hζ fl ln ex dot hfl hln hex hdot V S tol v₀ hbox w xb t info hrun => ?_⟩
  have hprec := hz1 ζ h0 (hζ.trans (min_le_left _ _))
  have hcd : ζ * c * d ≤ 1 := by
    have h1 := hζ.trans (min_le_right _ _)
    rw [le_div_iff₀ (by positivity)] at h1
    have h2 : 0 ≤ ζ * d := by positivity
    linarith
  have hζc : 0 ≤ ζ * c := by positivity
  have hc1 : ζ * c ≤ 1 := (le_mul_of_one_le_right hζc hd1).trans hcd
  have hc2 : ζ * c * (4 * (1 + revHi p A a Rb + costHi Unc.none v Rb)) ≤ ν := by
    have h1 : ζ * c * (ν⁻¹ * 4 * (1 + revHi p A a Rb + costHi Unc.none v Rb)) ≤ 1 := by rw [hd] at hcd; linarith
    have h2 := mul_le_mul_of_nonneg_right h1 hν.le
    rw [one_mul] at h2
    refine le_trans (le_of_eq ?_) h2
    field_simp
  have hζcx : 0 ≤ ζ * c * (revHi p A a Rb + costHi Unc.none v Rb) := mul_nonneg hζc (by linarith)
  obtain ⟨m1, g1, -⟩ := boxΓ_one (p := p) (A := A) (k := k) (a := a) (e := Unc.none) z1 z2 z5 hv hRb0 hT0
  set Γ := boxΓ Unc.none p A k a v Rb T with hΓ
  set M := boxM Unc.none p A k a v Rb T with hM
  have hζ100 : ζ ≤ 1 / 100 := by
    have h1 : ζ ≤ ζ * Γ ^ N := le_mul_of_one_le_right h0 (one_le_pow₀ g1)
    have h2 : ζ * Γ ^ N ≤ ζ * Γ ^ N * M := le_mul_of_one_le_right (h0.trans h1) m1
    exact h1.trans (h2.trans hprec.small)
  have hΩ := answers_profit (a := a) hp hA hk hv h0 hfl hln hex hdot
  obtain ⟨s, i, hf, -, rfl, rfl, -⟩ := q_ok hrun
  -- one call
  let Best : Option (Fin 2 → ℝ) → ℝ → Prop := fun xb t => (xb = none ∧ t = t0) ∨ ∃ z, xb = some z ∧ QFound ln p A k a v ν z t
  let First : ℕ → ℝ → Prop := fun j t => ∀ m : Fin 2 → ℕ, (∀ i, 1 ≤ m i ∧ ∀ q : ℕ, 1 ≤ q → q ≠ m i → |(m i : ℝ) - ex (S.xc v₀ i)| < |(q : ℝ) - ex (S.xc v₀ i)|) → (m 0 : ℝ) ≤ k * Real.exp (-ν) →
    profit p A a v (fun i => (m i : ℝ)) - 3 / 4 * ν ≤ t + ζ * Γ ^ j * costLo Unc.none v Rb
  let I : ℕ → QSt (ProfitQ × V) (Fin 2 → ℝ) ℝ → Prop := fun j s => j ≤ N →
    (Rounds (qBody (fun y t r => liftOracle (qOmegaF fl ln ex dot y t r)) (fun x _ => x) (S.beside ProfitQ) tol) 0
        ⟨(ProfitQ.initF fl ln p A k a v, v₀), none, t0, .nosoln⟩ j s) ∧ QInv fl ln p A k a v R₁ s.w.1 ∧ (s.status = .noeffect → s.w.1.yd.isSome) ∧
      t0 - ζ * Γ ^ j * costLo Unc.none v Rb ≤ s.t ∧ s.t ≤ T ∧ Best s.xBest s.t ∧ (0 < j → First j s.t)
  have step : ∀ j s, j < N → I j s → ∀ w1 c x0 t1 alt, liftOracle (qOmegaF fl ln ex dot ((S.beside ProfitQ).xc s.w) s.t (decide (s.status = .noeffect))) s.w =
      .ok (w1, c, x0, t1, alt) → QInv fl ln p A k a v R₁ w1.1 ∧ w1.1.yd.isSome ∧
        t0 - ζ * Γ ^ (j + 1) * costLo Unc.none v Rb ≤ (qAfter (fun x _ => x) s w1 x0 t1).t ∧ (qAfter (fun x _ => x) s w1 x0 t1).t ≤ T ∧
        Best (qAfter (fun x _ => x) s w1 x0 t1).xBest (qAfter (fun x _ => x) s w1 x0 t1).t ∧ First (j + 1) (qAfter (fun x _ => x) s w1 x0 t1).t := by
    intro j s hj hI w1 cc x0 t1 alt hq
    obtain ⟨hr, hinv, hst, hlow, hup, hbest, hfirst⟩ := hI hj.le
    have hy := hbox j s hj hr
    have hpj := prec_mono hA z1 z2 z3 z3' z5 hv hRb0 hT0 h0 hj.le hprec
    have hzj : ζ ≤ ζ * Γ ^ j := le_mul_of_one_le_right h0 (one_le_pow₀ g1)
    have hlow' : -(ζ * Γ ^ j * costLo Unc.none v Rb) ≤ s.t := by linarith
    obtain ⟨o', g, h, h', yd, t1', m, e1, e2, e3, e4, e5, -, e7, e8, -, -⟩ := C150_call (a := a) (R := R) hp hA hk hv hR h0 hfl hln hex hdot hzj hpj.small m1 hinv
      (y := S.xc s.w.2) hy (decide (s.status = .noeffect)) (fun h => hst (of_decide_eq_true h)) (t := s.t) (fun z hz => by
        refine ⟨box_sizes (p := p) (A := A) (k := k) (a := a) (e := Unc.none) z1 z2 z5 hv hRb0 hT0 hz hup, le_trans (neg_le_neg ?_) hlow'⟩
        exact mul_le_mul_of_nonneg_left (cost_box (e := Unc.none) z5 hv hz).2.1 (h0.trans hzj))
    obtain ⟨u', cut, t1'', k1, -, k3, k4, k5⟩ := profit_step hA z1 z2 z3 z3' z5 hv hRb0 hT0 hΩ h0 hpj.small hT2 (y := yd)
      (fun i => (lnOf_box h0 hζ100 hln e4 e5 i).1) hup hlow' (w := ()) trivial
    rw [profitOmegaF, e8] at k1
    simp only [Except.map, Except.ok.injEq, Prod.mk.injEq] at k1
    obtain ⟨-, -, rfl⟩ := k1
    obtain ⟨q1, q2⟩ := liftOracle_eq hq
    change qOmegaF fl ln ex dot (S.xc s.w.2) s.t _ _ = _ at q1
    simp only [qOmegaF, e1, Except.map, Except.ok.injEq, Prod.mk.injEq] at q1
    obtain ⟨q3, -, rfl, rfl, -⟩ := q1
    have et : (qAfter (fun x _ => x) s w1 yd t1').t = t1'.getD s.t := by cases t1' <;> rfl
    obtain ⟨l1, l2, l3⟩ := lnOf_profit (a := a) hpA hv h0 hζ100 hln e4 e5 hR₁0 hc1
    have hbx : ∀ i, |yd i| ≤ Rb := fun i => (lnOf_box h0 hζ100 hln e4 e5 i).1
    have hζR : ζ * R₁ ≤ ν / 4 := by
      have := mul_le_mul_of_nonneg_left hcR h0
      linarith
    have hval : ∀ s', t1' = some s' → QFound ln p A k a v (5 / 8 * ν) yd s' ∧ |s' - profit p A a v (fun i => (m i : ℝ))| ≤ 5 / 8 * ν := by
      rintro s' rfl
      obtain ⟨f1, w', f2, f3⟩ := answer_found hA z1 z2 z3 z3' z5 hv hRb0 hT0 h0 z4' hpj hbx k3 rfl
      have hw' : w' = profit p A a v (qty yd) := by
        have hG : ∀ r, Guaranteed Unc.none p A a v (qty yd) r ↔ r ≤ profit p A a v (qty yd) := fun r => guaranteed_none
        exact le_antisymm ((hG w').1 ((f2 w').2 le_rfl)) ((f2 _).1 ((hG _).2 le_rfl))
      have f6 : |s' - profit p A a v (fun i => (m i : ℝ))| ≤ 5 / 8 * ν := by
        rw [hw'] at f3
        have f5 := abs_sub_le s' (profit p A a v (qty yd)) (profit p A a v fun i => (m i : ℝ))
        linarith
      refine ⟨⟨m, e4, ?_, f6⟩, f6⟩
      have f4 := f1 k (by simp [Unc.none])
      refine l1.trans ((mul_le_mul_of_nonneg_right f4 (Real.exp_pos _).le).trans ?_)
      rw [mul_assoc, ← Real.exp_add]
      exact mul_le_mul_of_nonneg_left (Real.exp_le_exp.2 (by linarith)) hk.le
    refine ⟨q3 ▸ e2, by rw [← q3, e3]; rfl, ?_, ?_, ?_, ?_⟩
    · rw [et]; linarith
    · rw [et]; exact k4
    · cases t1' with
      | none => exact hbest
      | some s' =>
        obtain ⟨⟨m', f1, f2, f3⟩, -⟩ := hval s' rfl
        exact .inr ⟨yd, rfl, m', f1, f2.trans (mul_le_mul_of_nonneg_left (Real.exp_le_exp.2 (by linarith)) hk.le), f3.trans (by linarith)⟩
    · rw [et]
      intro m' hm' hlim
      rcases Nat.eq_zero_or_pos j with rfl | hj0
      · obtain rfl : s = ⟨(ProfitQ.initF fl ln p A k a v, v₀), none, t0, .nosoln⟩ := by
          cases hr
          rfl
        have hmm : m' = m := by
          funext i
          have d1 := e7 rfl i (m' i) (hm' i).1
          by_contra hne
          exact absurd ((hm' i).2 (m i) (e4 i).1 (Ne.symm hne)) (not_lt.2 d1)
        subst hmm
        have hpos : 0 ≤ ζ * Γ ^ (0 + 1) * costLo Unc.none v Rb := mul_nonneg (mul_nonneg h0 (by positivity)) hcost.1.le
        cases t1' with
        | some s' =>
          have := (abs_le.1 (hval s' rfl).2).1
          refine le_trans ?_ (le_add_of_nonneg_right hpos)
          change _ ≤ s'
          generalize profit p A a v (fun i => (m' i : ℝ)) = X at *
          linarith
        | none =>
          refine le_trans ?_ (le_add_of_nonneg_right hpos)
          change _ ≤ t0
          obtain ⟨c1, c2, c3⟩ := cost_box (e := Unc.none) z5 hv hbx
          have hcst : Unc.none.cost v yd = v 0 * qty yd 0 + v 1 * qty yd 1 := by simp [Unc.cost, Unc.none, Fin.sum_univ_two]
          have hx20 : 20 * (ζ * Γ ^ 0 * M) < δ := by
            have r1 := hpj.room
            have r2 : 0 ≤ ζ * Γ ^ 0 * M := mul_nonneg (mul_nonneg h0 (by positivity)) (by linarith)
            have r3 : 0 ≤ ∑ i, (1 + (|a i| + Unc.none.elas i)) * (2 * Rb) := Finset.sum_nonneg fun i _ => by
              have : Unc.none.elas i = 0 := by fin_cases i <;> simp [Unc.elas, Unc.none]
              rw [this]; positivity
            have r4 := mul_nonneg r2 r3
            change 62 * (ζ * Γ ^ 0 * M) * _ ≤ δ at r1
            rcases r2.eq_or_lt with r5 | r5
            · rw [← r5]; linarith
            · linarith
          have hno : ¬ ProfitRoom Unc.none p A k a v (max t0 0) yd δ := fun hroom => by
            have := k3.hit δ hx20 hroom
            simp at this
          rw [max_eq_left ht0] at hno
          have hlim' : qty yd 0 * Real.exp δ ≤ k := by
            have b1 := l2.trans (mul_le_mul_of_nonneg_right hlim (Real.exp_pos _).le)
            have b2 := mul_le_mul_of_nonneg_right b1 (Real.exp_pos δ).le
            refine b2.trans ?_
            rw [mul_assoc, mul_assoc, ← Real.exp_add, ← Real.exp_add]
            have b3 : Real.exp (-ν + (ζ * R₁ + δ)) ≤ 1 := Real.exp_le_one_iff.2 (by
              have := hδ3
              linarith)
            have := mul_le_mul_of_nonneg_left b3 hk.le
            linarith
          have hlow2 : p * (A * qty yd 0 ^ a 0 * qty yd 1 ^ a 1) < (t0 + Unc.none.cost v yd) * Real.exp δ := by
            by_contra hcon
            push Not at hcon
            refine hno ⟨fun k' hk' => ?_, fun p' a' v' hw => ?_⟩
            · have : k' = k := by
                have : |k' - k| ≤ 0 := hk'
                have := abs_nonpos_iff.1 this
                linarith
              rw [this]; exact hlim'
            · obtain ⟨w1, w2, w3, w4⟩ := hw
              have w1 : a' 0 = a 0 := by have : |a' 0 - a 0| ≤ 0 := w1; linarith [abs_nonpos_iff.1 this]
              have w2 : a' 1 = a 1 := by have : |a' 1 - a 1| ≤ 0 := w2; linarith [abs_nonpos_iff.1 this]
              have w3 : p' = p := by have : |p' - p| ≤ 0 := w3; linarith [abs_nonpos_iff.1 this]
              have w4 : ∀ i, v' i = v i := fun i => by have : |v' i - v i| ≤ 0 := w4 i; linarith [abs_nonpos_iff.1 this]
              rw [w1, w2, w3, w4, w4, ← hcst]
              exact hcon
          have hexp : Real.exp δ - 1 ≤ 2 * δ := by
            have := (Real.abs_exp_sub_one_le (x := δ) (by rw [abs_of_pos hδ0]; exact hδ1))
            rw [abs_of_pos hδ0] at this
            exact (le_abs_self _).trans this
          have hprod : (t0 + Unc.none.cost v yd) * (Real.exp δ - 1) ≤ (T + costHi Unc.none v Rb) * (2 * δ) :=
            mul_le_mul (by linarith) hexp (by linarith [Real.one_le_exp hδ0.le]) (by linarith)
          have hpr : profit p A a v (qty yd) = p * (A * qty yd 0 ^ a 0 * qty yd 1 ^ a 1) - Unc.none.cost v yd := by rw [hcst, profit]; ring
          have := (abs_le.1 l3).1
          generalize profit p A a v (fun i => (m' i : ℝ)) = X at *
          linarith
      · have := hfirst hj0 m' hm' hlim
        linarith
  have hI : ∀ {j s}, Rounds (qBody (fun y t r => liftOracle (qOmegaF fl ln ex dot y t r)) (fun x _ => x) (S.beside ProfitQ) tol) 0
      ⟨(ProfitQ.initF fl ln p A k a v, v₀), none, t0, .nosoln⟩ j s → I j s := by
    intro j s hr
    refine Rounds.inv I ?_ ?_ hr
    · intro _
      refine ⟨.refl, ⟨rfl, fun z hz => by simp [ProfitQ.initF] at hz⟩, fun h => by simp at h, ?_, ht0T, .inl ⟨rfl, rfl⟩, fun h => absurd h (lt_irrefl _)⟩
      have : 0 ≤ ζ * Γ ^ 0 * costLo Unc.none v Rb := mul_nonneg (by simpa using h0) hcost.1.le
      change _ ≤ t0
      linarith
    · intro j s s' hI hb hj
      obtain ⟨w1, cc, x0, t1, alt, w2, st, tsq, hq, hu, ⟨he, -⟩ | ⟨_, he, _⟩⟩ := qBody_ok hb
      · simp only [Step.cont.injEq] at he
        obtain ⟨s1, s2, s3, s4, s5, s6⟩ := step j s (by omega) hI _ _ _ _ _ hq
        have hw : w2.1 = w1.1 := by
          simp only [Space.beside] at hu
          split at hu
          · simp at hu
          · simp only [Except.ok.injEq, Prod.mk.injEq] at hu
            rw [← hu.1]
        have hr' := (hI (by omega)).1.snoc hb
        subst he
        exact ⟨hr', by change QInv _ _ _ _ _ _ _ _ w2.1; rw [hw]; exact s1, fun _ => by change w2.1.yd.isSome; rw [hw]; exact s2, s3, s4, s5, fun _ => s6⟩
      · simp at he
  have hlev : ∀ j ≤ N, ζ * Γ ^ j * costLo Unc.none v Rb ≤ ν / 8 := fun j hj => by
    have := (prec_mono hA z1 z2 z3 z3' z5 hv hRb0 hT0 h0 hj hprec).level
    linarith
  rcases forRange_ok hf with ⟨s1, hi, hr, hb⟩ | ⟨hi, hr⟩
  · have hi' : i < N := by dsimp only at hi; omega
    obtain ⟨w1, cc, x0, t1, alt, w2, st, tsq, hq, hu, ⟨he, _⟩ | ⟨st', he, hcase⟩⟩ := qBody_ok hb
    · simp at he
    · simp only [Step.brk.injEq] at he
      subst he
      obtain ⟨-, -, s3, -, s5, s6⟩ := step i s1 hi' (hI hr) _ _ _ _ _ hq
      have := hlev (i + 1) hi'
      refine ⟨by change _ ≤ (qAfter (fun x _ => x) s1 w1 x0 t1).t; linarith, s5, fun m hm hlim => ?_⟩
      have := s6 m hm hlim
      change _ ≤ (qAfter (fun x _ => x) s1 w1 x0 t1).t
      linarith
  · have hi' : i + 1 = N := by dsimp only at hi; omega
    obtain ⟨-, -, -, s3, -, s5, s6⟩ := hI hr hi'.le
    have := hlev (i + 1) hi'.le
    refine ⟨by linarith, s5, fun m hm hlim => ?_⟩
    have := s6 (Nat.succ_pos _) m hm hlim
    linarith

end

/-! ### An example

The data of `test_profit`, a search space whose centre stays at 0: one iteration finds the quantities `(1, 1)`. -/

/-- A search space that never moves. -/
def stillSpace : Space Unit (Fin 2 → ℝ) ((Fin 2 → ℝ) × Beta) ℝ := ⟨fun _ => 0, fun _ _ => .ok ((), .success, 1)⟩

example : ∃ ζ₀, 0 < ζ₀ ∧ ∀ ζ, 0 ≤ ζ → ζ ≤ ζ₀ → ∀ fl ln ex dot, RelErr ζ fl → LogErr ζ ln → ExpErr ζ ex → VecDotErr ζ dot → ∀ w xb t info,
    cuttingPlaneQ (fun y t r => liftOracle (qOmegaF fl ln ex dot y t r)) (fun x _ => x) (stillSpace.beside ProfitQ) 0 ⟨((2000 : ℕ) : ℤ), 1e-8⟩
      (ProfitQ.initF fl ln 20 40 30.5 ![0.1, 0.4] ![10, 35], ()) = .ok (w, xb, t, info) →
    0 - 0.01 ≤ t ∧ ((xb = none ∧ t = 0) ∨ ∃ z, xb = some z ∧ QFound ln 20 40 30.5 ![0.1, 0.4] ![10, 35] 0.01 z t) ∧
      ∀ m : Fin 2 → ℕ, (∀ i, 1 ≤ m i ∧ ∀ q : ℕ, 1 ≤ q → q ≠ m i → |(m i : ℝ) - ex (stillSpace.xc () i)| < |(q : ℝ) - ex (stillSpace.xc () i)|) → (m 0 : ℝ) ≤ 30.5 * Real.exp (-0.01) →
        profit 20 40 ![0.1, 0.4] ![10, 35] (fun i => (m i : ℝ)) - 0.01 ≤ t := by
  obtain ⟨ζ₀, h1, h2⟩ := C150_run (p := 20) (A := 40) (k := 30.5) (a := ![0.1, 0.4]) (v := ![10, 35]) (R := 0) (t0 := 0) (by norm_num) (by norm_num) (by norm_num)
    (fun i => by fin_cases i <;> simp) le_rfl le_rfl 2000 (ν := 0.01) (by norm_num)
  refine ⟨ζ₀, h1, fun ζ h0 hζ fl ln ex dot a1 a2 a3 a4 => h2 ζ h0 hζ fl ln ex dot a1 a2 a3 a4 stillSpace _ () fun j s _ _ i => ?_⟩
  simp [stillSpace]

/-- Such a run does find something: exact arithmetic, one iteration. -/
example : ∃ w t info, cuttingPlaneQ (fun y t r => liftOracle (qOmegaF id Real.log Real.exp (· ⬝ᵥ ·) y t r)) (fun x _ => x) (stillSpace.beside ProfitQ) 0 ⟨1, 1e-8⟩
      (ProfitQ.initF id Real.log 20 40 30.5 ![0.1, 0.4] ![10, 35], ()) = .ok (w, some 0, t, info) := by
  have hr : ∀ i, ProfitQ.roundPtF Real.exp (0 : Fin 2 → ℝ) i = 1 := fun i => by
    have h : npRound (Real.exp 0) = 1 := by rw [Real.exp_zero]; exact npRound_eq (by norm_num) (by norm_num)
    simp only [ProfitQ.roundPtF, Pi.zero_apply, h]; norm_num
  have hy : (fun i => Real.log (ProfitQ.roundPtF Real.exp (0 : Fin 2 → ℝ) i)) = 0 := by
    funext i; rw [hr]; simp
  have hk : ¬ 0 < 0 - Real.log 30.5 := by
    have := Real.log_pos (show (1 : ℝ) < 30.5 by norm_num)
    linarith
  have hl : Real.log 45 - (Real.log 800 + 0) < 0 := by
    have := Real.log_lt_log (show (0 : ℝ) < 45 by norm_num) (show (45 : ℝ) < 800 by norm_num)
    linarith
  have hc : ∃ cut t1, (Profit.initF id Real.log 20 40 30.5 ![0.1, 0.4] ![10, 35]).callF id Real.log Real.exp (· ⬝ᵥ ·) 0 0 = .ok (cut, some t1) := by
    have h1 : ¬ (0 + (10 * 1 + 35 * 1) : ℝ) < 0 := by norm_num
    have h2 : (0 + (10 * 1 + 35 * 1) : ℝ) = 0 ∨ Real.log (0 + (10 * 1 + 35 * 1)) - (Real.log (20 * 40) + 0) < 0 := by
      right; norm_num at hl ⊢; linarith
    simp only [Profit.callF, Profit.initF, id, dotProduct_zero, Pi.zero_apply, Real.exp_zero, cons_val_zero, cons_val_one, hk, h1, h2, if_false, if_true]
    exact ⟨_, _, rfl⟩
  obtain ⟨⟨g, h⟩, t1, hc⟩ := hc
  have hq : ∃ o' c more, liftOracle (qOmegaF id Real.log Real.exp (· ⬝ᵥ ·) (0 : Fin 2 → ℝ) 0 false) (ProfitQ.initF id Real.log 20 40 30.5 ![0.1, 0.4] ![10, 35], ()) =
      .ok ((o', ()), c, 0, some t1, more) := by
    have h1 : ProfitQ.callF id Real.log Real.exp (· ⬝ᵥ ·) 0 0 false (ProfitQ.initF id Real.log 20 40 30.5 ![0.1, 0.4] ![10, 35]) =
        .ok (⟨some 0, Profit.initF id Real.log 20 40 30.5 ![0.1, 0.4] ![10, 35]⟩, (g, h + g ⬝ᵥ fun i => (0 : Fin 2 → ℝ) i - (0 : Fin 2 → ℝ) i), 0, some t1, true) := by
      simp only [ProfitQ.callF, ProfitQ.initF, Bool.false_eq_true, if_false, hy, hc]
      rfl
    exact ⟨⟨some 0, Profit.initF id Real.log 20 40 30.5 ![0.1, 0.4] ![10, 35]⟩, scalarCut (g, h + g ⬝ᵥ fun i => (0 : Fin 2 → ℝ) i - (0 : Fin 2 → ℝ) i), true, by
      simp only [liftOracle, qOmegaF, h1, Except.map]⟩
  obtain ⟨o', c, more, hq⟩ := hq
  have hb : qBody (fun y t r => liftOracle (qOmegaF id Real.log Real.exp (· ⬝ᵥ ·) y t r)) (fun x _ => x) (stillSpace.beside ProfitQ) 1e-8 0
      ⟨(ProfitQ.initF id Real.log 20 40 30.5 ![0.1, 0.4] ![10, 35], ()), none, 0, .nosoln⟩ = .ok (.cont ⟨(o', ()), some 0, t1, .success⟩) := by
    have hxc : (stillSpace.beside ProfitQ).xc (ProfitQ.initF id Real.log 20 40 30.5 ![0.1, 0.4] ![10, 35], ()) = 0 := rfl
    have hd : decide (CUTStatus.nosoln = CUTStatus.noeffect) = false := rfl
    simp only [qBody, hxc, hd, hq]
    simp [Space.beside, stillSpace]
    norm_num
  refine ⟨(o', ()), t1, ⟨decide (t1 ≠ 0), 1, .success⟩, ?_⟩
  have hf : forRange 1 (qBody (fun y t r => liftOracle (qOmegaF id Real.log Real.exp (· ⬝ᵥ ·) y t r)) (fun x _ => x) (stillSpace.beside ProfitQ) 1e-8)
      ⟨(ProfitQ.initF id Real.log 20 40 30.5 ![0.1, 0.4] ![10, 35], ()), none, 0, .nosoln⟩ = .ok (⟨(o', ()), some 0, t1, .success⟩, some 0) := by
    simp only [forRange, show (1 : Int).toNat = 1 from rfl, forLoop, hb]
  simp only [cuttingPlaneQ, hf, readVar]

end Verif
