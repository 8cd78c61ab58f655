import Verif.Props.EllFloatAnyCut
import Verif.Props.ProfitFloat

/-!
# C137: profit maximization with every operation rounded

`cutting_plane_dc(profit_oracle(...), ell(...), t0)` and the same with `profit_rb_oracle`, the oracle (C136) and the ellipsoid (C134) both in floating point.  The best-so-far value may fall
(C136), so the argument of C134 for optimization does not apply as it stands.
-/
namespace Verif
open Matrix MeasureTheory Ell FloatSpec

/-! ### The oracles in the form the driver calls -/

/-- `profit_rb_oracle` with rounding as the `Omega` of `cutting_plane_dc`. -/
noncomputable def rbOmegaF (fl ln ex : ℝ → ℝ) (dot : (Fin 2 → ℝ) → (Fin 2 → ℝ) → ℝ) (y : Fin 2 → ℝ) (t : ℝ) (o : ProfitRb) :
    Except PyErr (ProfitRb × ((Fin 2 → ℝ) × Beta) × Option ℝ) :=
  (ProfitRb.callF fl ln ex dot y t o).map fun r => (r.1, scalarCut r.2.1, r.2.2)

/-- `profit_oracle` with rounding as the `Omega` of `cutting_plane_dc`. -/
noncomputable def profitOmegaF (fl ln ex : ℝ → ℝ) (dot : (Fin 2 → ℝ) → (Fin 2 → ℝ) → ℝ) (P : Profit) (y : Fin 2 → ℝ) (t : ℝ) (w : Unit) :
    Except PyErr (Unit × ((Fin 2 → ℝ) × Beta) × Option ℝ) :=
  (P.callF fl ln ex dot y t).map fun r => (w, scalarCut r.1, r.2)

/-- An oracle whose answers are those of C136, for every error bound from `ζ` on. -/
def AnswersProfit {W : Type _} (e : Unc) (p A k : ℝ) (a v : Fin 2 → ℝ) (ζ : ℝ) (Inv : W → Prop)
    (Ω : (Fin 2 → ℝ) → ℝ → W → Except PyErr (W × ((Fin 2 → ℝ) × Beta) × Option ℝ)) : Prop :=
  ∀ ζ' M y t w, ζ ≤ ζ' → ζ' * M ≤ 1 / 100 → Inv w → ProfitSizes e p A k a v y t M → -(ζ' * e.cost v y) ≤ t →
    ∃ w' cut t1, Ω y t w = .ok (w', scalarCut cut, t1) ∧ Inv w' ∧ ProfitAnswer e p A k a v y t (ζ' * M) cut t1

section
variable {fl ln ex : ℝ → ℝ} {dot : (Fin 2 → ℝ) → (Fin 2 → ℝ) → ℝ} {ζ : ℝ} {p A k : ℝ} {a v : Fin 2 → ℝ} {e : Unc}

theorem answers_rb (hA : 0 < A) (h1 : 0 ≤ e.e1) (h2 : 0 ≤ e.e2) (h3 : 0 ≤ e.e3) (h3' : e.e3 < p) (h4 : 0 ≤ e.e4) (h4' : e.e4 < k) (h5 : 0 ≤ e.e5) (hv : ∀ i, 0 < v i)
    (h0 : 0 ≤ ζ) (hfl : RelErr ζ fl) (hln : LogErr ζ ln) (hex : ExpErr ζ ex) (hdot : VecDotErr ζ dot) :
    AnswersProfit e p A k a v ζ (RbReach (ProfitRb.initF fl ln p A k a v e.e1 e.e2 e.e3 e.e4 e.e5)) (rbOmegaF fl ln ex dot) := by
  intro ζ' M y t o hz hM ho hS ht
  obtain ⟨o', cut, t1, c1, c2, c3⟩ := C136_profit_rb hA h1 h2 h3 h3' h4 h4' h5 hv (h0.trans hz) hM
    (fun x => (hfl x).trans (mul_le_mul_of_nonneg_right hz (abs_nonneg _))) (fun x hx => (hln x hx).trans (mul_le_mul_of_nonneg_right hz (abs_nonneg _)))
    (fun x => (hex x).trans (mul_le_mul_of_nonneg_right hz (Real.exp_pos _).le))
    (fun x y => (hdot x y).trans (mul_le_mul_of_nonneg_right hz (Finset.sum_nonneg fun _ _ => abs_nonneg _))) ho hS ht
  exact ⟨o', cut, t1, by simp [rbOmegaF, c1, Except.map], c2, c3⟩

theorem answers_profit (hp : 0 < p) (hA : 0 < A) (hk : 0 < k) (hv : ∀ i, 0 < v i)
    (h0 : 0 ≤ ζ) (hfl : RelErr ζ fl) (hln : LogErr ζ ln) (hex : ExpErr ζ ex) (hdot : VecDotErr ζ dot) :
    AnswersProfit Unc.none p A k a v ζ (fun _ => True) (profitOmegaF fl ln ex dot (Profit.initF fl ln p A k a v)) := by
  intro ζ' M y t o hz hM ho hS ht
  obtain ⟨cut, t1, c1, c2⟩ := C136_profit hp hA hk hv (h0.trans hz) hM
    (fun x => (hfl x).trans (mul_le_mul_of_nonneg_right hz (abs_nonneg _))) (fun x hx => (hln x hx).trans (mul_le_mul_of_nonneg_right hz (abs_nonneg _)))
    (fun x => (hex x).trans (mul_le_mul_of_nonneg_right hz (Real.exp_pos _).le))
    (fun x y => (hdot x y).trans (mul_le_mul_of_nonneg_right hz (Finset.sum_nonneg fun _ _ => abs_nonneg _))) hS ht
  exact ⟨(), cut, t1, by simp [profitOmegaF, c1, Except.map], trivial, c2⟩

end

/-! ### Bounds in a box -/

/-- The smallest cost in the box of size `R`. -/
noncomputable def costLo (e : Unc) (v : Fin 2 → ℝ) (R : ℝ) : ℝ := ∑ i, (v i + e.e5) * Real.exp (-R)

/-- The largest cost in the box of size `R`. -/
noncomputable def costHi (e : Unc) (v : Fin 2 → ℝ) (R : ℝ) : ℝ := ∑ i, (v i + e.e5) * Real.exp R

/-- A bound on the revenue in the box of size `R`. -/
noncomputable def revHi (p A : ℝ) (a : Fin 2 → ℝ) (R : ℝ) : ℝ := p * A * Real.exp (∑ i, |a i| * R)

/-- A bound on the logarithms that occur in the box of size `R` with levels up to `T`. -/
noncomputable def boxM (e : Unc) (p A k : ℝ) (a v : Fin 2 → ℝ) (R T : ℝ) : ℝ :=
  1 + R + |Real.log (k - e.e4)| + |Real.log ((p - e.e3) * A)| + ∑ i, (|a i| + e.elas i) * R + |Real.log (costLo e v R)| + |Real.log (T + costHi e v R)|

/-- How fast the guarantee for the level may deteriorate: one plus the largest relative drift of the level in one round, in units of the precision. -/
noncomputable def boxΓ (e : Unc) (p A k : ℝ) (a v : Fin 2 → ℝ) (R T : ℝ) : ℝ := 1 + 26 * boxM e p A k a v R T * (T + costHi e v R) / costLo e v R

section
variable {p A k : ℝ} {a v : Fin 2 → ℝ} {e : Unc} {R T : ℝ}
variable (hA : 0 < A) (h1 : 0 ≤ e.e1) (h2 : 0 ≤ e.e2) (h3 : 0 ≤ e.e3) (h3' : e.e3 < p) (h5 : 0 ≤ e.e5) (hv : ∀ i, 0 < v i) (hR : 0 ≤ R) (hT : 0 ≤ T)

include h5 hv in
theorem cost_box {y : Fin 2 → ℝ} (hy : ∀ i, |y i| ≤ R) : 0 < costLo e v R ∧ costLo e v R ≤ e.cost v y ∧ e.cost v y ≤ costHi e v R := by
  have hp : ∀ i, 0 < v i + e.e5 := fun i => by have := hv i; linarith
  refine ⟨Finset.sum_pos (fun i _ => mul_pos (hp i) (Real.exp_pos _)) Finset.univ_nonempty, Finset.sum_le_sum fun i _ => ?_, Finset.sum_le_sum fun i _ => ?_⟩
  · exact mul_le_mul_of_nonneg_left (Real.exp_le_exp.2 (by linarith [(abs_le.1 (hy i)).1])) (hp i).le
  · exact mul_le_mul_of_nonneg_left (Real.exp_le_exp.2 (by linarith [(abs_le.1 (hy i)).2])) (hp i).le

include h1 h2 h5 hv hR hT in
theorem box_sizes {y : Fin 2 → ℝ} {t : ℝ} (hy : ∀ i, |y i| ≤ R) (ht : t ≤ T) : ProfitSizes e p A k a v y t (boxM e p A k a v R T) := by
  obtain ⟨c1, c2, c3⟩ := cost_box (e := e) h5 hv hy
  have hel : ∀ i, 0 ≤ e.elas i := fun i => by fin_cases i <;> simp [Unc.elas, h1, h2]
  have s0 : 0 ≤ ∑ i, (|a i| + e.elas i) * R := Finset.sum_nonneg fun i _ => mul_nonneg (add_nonneg (abs_nonneg _) (hel i)) hR
  have n1 := abs_nonneg (Real.log (k - e.e4))
  have n2 := abs_nonneg (Real.log ((p - e.e3) * A))
  have n3 := abs_nonneg (Real.log (costLo e v R))
  have n4 := abs_nonneg (Real.log (T + costHi e v R))
  have n5 : |y 0| ≤ R := hy 0
  unfold boxM
  refine ⟨by linarith, by linarith, by linarith, ?_, ?_⟩
  · have : ∑ i, (|a i| + e.elas i) * |y i| ≤ ∑ i, (|a i| + e.elas i) * R :=
      Finset.sum_le_sum fun i _ => mul_le_mul_of_nonneg_left (hy i) (add_nonneg (abs_nonneg _) (hel i))
    linarith
  · have hm : max t 0 ≤ T := max_le ht hT
    have l1 : Real.log (costLo e v R) ≤ Real.log (max t 0 + e.cost v y) := Real.log_le_log c1 (by linarith [le_max_right t 0])
    have l2 : Real.log (max t 0 + e.cost v y) ≤ Real.log (T + costHi e v R) := Real.log_le_log (by linarith [le_max_right t 0]) (by linarith)
    rw [abs_le]
    constructor
    · linarith [neg_abs_le (Real.log (costLo e v R))]
    · linarith [le_abs_self (Real.log (T + costHi e v R))]

include h1 h2 h5 hv hR hT in
theorem boxΓ_one : 1 ≤ boxM e p A k a v R T ∧ 1 ≤ boxΓ e p A k a v R T ∧
    (boxΓ e p A k a v R T - 1) * costLo e v R = 26 * boxM e p A k a v R T * (T + costHi e v R) := by
  have hy : ∀ i, |(0 : Fin 2 → ℝ) i| ≤ R := fun i => by simpa using hR
  obtain ⟨c1, c2, c3⟩ := cost_box (e := e) h5 hv hy
  have hM := (box_sizes (p := p) (A := A) (k := k) (a := a) (e := e) h1 h2 h5 hv hR hT hy hT).one
  have : 0 ≤ 26 * boxM e p A k a v R T * (T + costHi e v R) := by
    have : 0 ≤ T + costHi e v R := by linarith
    positivity
  refine ⟨hM, ?_, ?_⟩
  · unfold boxΓ
    have := div_nonneg this c1.le
    linarith
  · rw [boxΓ, add_sub_cancel_left, div_mul_cancel₀ _ c1.ne']

include hA h1 h2 h3 h3' h5 hv in
/-- Reported values are bounded in the box. -/
theorem value_box {y : Fin 2 → ℝ} {w : ℝ} (hy : ∀ i, |y i| ≤ R) (hw : ∀ r, Guaranteed e p A a v (qty y) r ↔ r ≤ w) : w ≤ revHi p A a R := by
  have hg := (hw w).2 le_rfl p a v ⟨by simpa using h1, by simpa using h2, by simpa using h3, fun i => by simpa using h5⟩
  have hpA : 0 < p * A := mul_pos (by linarith) hA
  have e1 : profit p A a v (qty y) = Real.exp (Real.log (p * A) + a ⬝ᵥ y) - (v 0 * qty y 0 + v 1 * qty y 1) := by rw [cobb_eq hpA, profit]; ring
  have hq : ∀ i, 0 < v i * qty y i := fun i => mul_pos (hv i) (Real.exp_pos _)
  have e2 : Real.exp (Real.log (p * A) + a ⬝ᵥ y) ≤ revHi p A a R := by
    rw [Real.exp_add, Real.exp_log hpA, revHi]
    refine mul_le_mul_of_nonneg_left (Real.exp_le_exp.2 (Finset.sum_le_sum fun i _ => ?_)) hpA.le
    refine (le_abs_self _).trans ?_
    rw [abs_mul]
    exact mul_le_mul_of_nonneg_left (hy i) (abs_nonneg _)
  rw [e1] at hg
  linarith [hq 0, hq 1]


/-! ### One round -/

section
variable {W : Type _} {ζ : ℝ} {Inv : W → Prop} {Ω : (Fin 2 → ℝ) → ℝ → W → Except PyErr (W × ((Fin 2 → ℝ) × Beta) × Option ℝ)}

include hA h1 h2 h3 h3' h5 hv hR hT in
/-- A query in the box, `j` rounds after the start. -/
theorem profit_step (hΩ : AnswersProfit e p A k a v ζ Inv Ω) (h0 : 0 ≤ ζ) {j : ℕ} (hζ : ζ * boxΓ e p A k a v R T ^ j * boxM e p A k a v R T ≤ 1 / 100)
    (hT2 : 2 * revHi p A a R + costHi e v R ≤ T) {y : Fin 2 → ℝ} (hy : ∀ i, |y i| ≤ R) {t : ℝ} (htT : t ≤ T)
    (ht : -(ζ * boxΓ e p A k a v R T ^ j * costLo e v R) ≤ t) {w : W} (hw : Inv w) :
    ∃ w' cut t1, Ω y t w = .ok (w', scalarCut cut, t1) ∧ Inv w' ∧
      ProfitAnswer e p A k a v y t (ζ * boxΓ e p A k a v R T ^ j * boxM e p A k a v R T) cut t1 ∧ t1.getD t ≤ T ∧
      t + ζ * boxΓ e p A k a v R T ^ j * costLo e v R ≤ t1.getD t + ζ * boxΓ e p A k a v R T ^ (j + 1) * costLo e v R := by
  obtain ⟨m1, g1, g2⟩ := boxΓ_one (p := p) (A := A) (k := k) (a := a) (e := e) h1 h2 h5 hv hR hT
  obtain ⟨c1, c2, c3⟩ := cost_box (e := e) h5 hv hy
  have hS := box_sizes (p := p) (A := A) (k := k) (a := a) (e := e) h1 h2 h5 hv hR hT hy htT
  set Γ := boxΓ e p A k a v R T with hΓ
  set M := boxM e p A k a v R T with hM
  have hG : 1 ≤ Γ ^ j := one_le_pow₀ g1
  have hz : ζ ≤ ζ * Γ ^ j := le_mul_of_one_le_right h0 hG
  have hz0 : 0 ≤ ζ * Γ ^ j := h0.trans hz
  obtain ⟨w', cut, t1, k1, k2, k3⟩ := hΩ (ζ * Γ ^ j) M y t w hz hζ hw hS (le_trans (neg_le_neg (mul_le_mul_of_nonneg_left c2 hz0)) ht)
  refine ⟨w', cut, t1, k1, k2, k3, ?_, ?_⟩
  · cases t1 with
    | none => exact htT
    | some s =>
      obtain ⟨u, u1, u2⟩ := k3.value s rfl
      have u3 := value_box hA h1 h2 h3 h3' h5 hv hy u1
      have u4 : 0 ≤ 14 * (ζ * Γ ^ j * M) := by positivity
      have u5 : 14 * (ζ * Γ ^ j * M) * (u + 2 * e.cost v y) ≤ 14 * (ζ * Γ ^ j * M) * (revHi p A a R + 2 * costHi e v R) :=
        mul_le_mul_of_nonneg_left (by linarith) u4
      have hpA : 0 < p * A := mul_pos (by linarith) hA
      have u6 : 0 ≤ revHi p A a R := mul_nonneg hpA.le (Real.exp_pos _).le
      have u7 : 14 * (ζ * Γ ^ j * M) * (revHi p A a R + 2 * costHi e v R) ≤ 14 * (1 / 100) * (revHi p A a R + 2 * costHi e v R) :=
        mul_le_mul_of_nonneg_right (by linarith) (by linarith)
      have u8 := (abs_le.1 u2).2
      change s ≤ T
      linarith
  · have hq : 0 ≤ ζ * Γ ^ j * ((Γ - 1) * costLo e v R) := mul_nonneg hz0 (mul_nonneg (by linarith) c1.le)
    have e1 : ζ * Γ ^ (j + 1) * costLo e v R = ζ * Γ ^ j * costLo e v R + ζ * Γ ^ j * ((Γ - 1) * costLo e v R) := by ring
    rw [e1]
    cases t1 with
    | none => change t + _ ≤ t + _; linarith
    | some s =>
      have u1 := k3.drift s rfl
      have u2 : ζ * Γ ^ j * (26 * M * (max t 0 + e.cost v y)) ≤ ζ * Γ ^ j * (26 * M * (T + costHi e v R)) :=
        mul_le_mul_of_nonneg_left (mul_le_mul_of_nonneg_left (add_le_add (max_le htT hT) c3) (by linarith)) hz0
      rw [g2]
      change t + _ ≤ s + _
      linarith

/-- The cut keeps the points with room. -/
theorem profit_cut_ok {K : Set (Fin 2 → ℝ)} {τ δ x t tol : ℝ} {y : Fin 2 → ℝ} {cut : (Fin 2 → ℝ) × ℝ} {t1 : Option ℝ} (hel : ∀ i, 0 ≤ e.elas i) (hans : ProfitAnswer e p A k a v y t x cut t1)
    (hx : 0 ≤ x) (hτ : 0 ≤ τ) (hδ : 0 < δ) (hy : ∀ i, |y i| ≤ R) (hKne : K.Nonempty) (hKR : ∀ z ∈ K, ∀ i, |z i| ≤ R) (hK : ∀ z ∈ K, ProfitRoom e p A k a v τ z δ)
    (hxδ : 62 * x * (1 + ∑ i, (1 + (|a i| + e.elas i)) * (2 * R)) ≤ δ) (htol : tol ≤ 199 / 200 * (δ / 2) ^ 2) (hbad : t1.getD t < τ) : CutOK K tol y (scalarCut cut) := by
  have key : ∀ z ∈ K, cut.1 ⬝ᵥ (z - y) + cut.2 ≤ -(δ / 2) := fun z hz => by
    have h1 := hans.cut z δ (profitRoom_mono (max_le hbad.le hτ) (hK z hz))
    have h2 : ∑ i, (1 + (|a i| + e.elas i)) * |z i - y i| ≤ ∑ i, (1 + (|a i| + e.elas i)) * (2 * R) := Finset.sum_le_sum fun i _ => by
      refine mul_le_mul_of_nonneg_left ?_ (by have := abs_nonneg (a i); linarith [hel i])
      have := abs_sub (z i) (y i)
      linarith [hKR z hz i, hy i]
    have h3 : 31 * x * (1 + ∑ i, (1 + (|a i| + e.elas i)) * |z i - y i|) ≤ 31 * x * (1 + ∑ i, (1 + (|a i| + e.elas i)) * (2 * R)) :=
      mul_le_mul_of_nonneg_left (by linarith) (by linarith)
    linarith
  have hd := hans.deep
  refine ⟨hd, ?_, fun z hz => ⟨?_, ?_⟩⟩
  · intro h
    have h : cut.1 = 0 := h
    have := key _ hKne.some_mem
    rw [h, zero_dotProduct] at this
    linarith
  · change cut.1 ⬝ᵥ (z - y) + cut.2 ≤ 0
    linarith [key z hz]
  · have h1 := key z hz
    have h2 : (δ / 2) ^ 2 ≤ (cut.1 ⬝ᵥ (z - y)) ^ 2 := by
      rw [← neg_sq (cut.1 ⬝ᵥ (z - y))]
      exact pow_le_pow_left₀ (by linarith) (by linarith) 2
    change tol ≤ 199 / 200 * (cut.1 ⬝ᵥ (z - y)) ^ 2
    linarith

/-- The arithmetic is precise enough for `m` rounds in the box of size `R`. -/
structure ProfitPrec (e : Unc) (p A k : ℝ) (a v : Fin 2 → ℝ) (R T δ ν ζ : ℝ) (m : ℕ) : Prop where
  small : ζ * boxΓ e p A k a v R T ^ m * boxM e p A k a v R T ≤ 1 / 100
  room : 62 * (ζ * boxΓ e p A k a v R T ^ m * boxM e p A k a v R T) * (1 + ∑ i, (1 + (|a i| + e.elas i)) * (2 * R)) ≤ δ
  value : 14 * (ζ * boxΓ e p A k a v R T ^ m * boxM e p A k a v R T) * (1 + revHi p A a R + 2 * costHi e v R) ≤ ν
  level : ζ * boxΓ e p A k a v R T ^ m * costLo e v R ≤ ν

include hA h1 h2 h3 h3' h5 hv hR hT in
theorem prec_mono {δ ν : ℝ} {i m : ℕ} (h0 : 0 ≤ ζ) (him : i ≤ m) (h : ProfitPrec e p A k a v R T δ ν ζ m) : ProfitPrec e p A k a v R T δ ν ζ i := by
  obtain ⟨m1, g1, -⟩ := boxΓ_one (p := p) (A := A) (k := k) (a := a) (e := e) h1 h2 h5 hv hR hT
  obtain ⟨c1, c2, c3⟩ := cost_box (e := e) h5 hv (y := 0) (R := R) (fun i => by simpa using hR)
  have hel : ∀ i, 0 ≤ e.elas i := fun i => by fin_cases i <;> simp [Unc.elas, h1, h2]
  have hG := mul_le_mul_of_nonneg_left (pow_le_pow_right₀ g1 him) h0
  have hx := mul_le_mul_of_nonneg_right hG (show 0 ≤ boxM e p A k a v R T by linarith)
  have hrev : 0 ≤ revHi p A a R := mul_nonneg (mul_nonneg (by linarith) hA.le) (Real.exp_pos _).le
  refine ⟨hx.trans h.small, le_trans ?_ h.room, le_trans ?_ h.value, le_trans (mul_le_mul_of_nonneg_right hG c1.le) h.level⟩
  · refine mul_le_mul_of_nonneg_right (by linarith) (add_nonneg zero_le_one (Finset.sum_nonneg fun i _ => mul_nonneg ?_ (by linarith)))
    have := abs_nonneg (a i)
    linarith [hel i]
  · exact mul_le_mul_of_nonneg_right (by linarith) (by linarith)

include hA h1 h2 h3 h3' h5 hv hR hT in
theorem answer_found {δ ν t s : ℝ} {j : ℕ} {y : Fin 2 → ℝ} {cut : (Fin 2 → ℝ) × ℝ} {t1 : Option ℝ} (h0 : 0 ≤ ζ) (h4' : e.e4 < k) (h : ProfitPrec e p A k a v R T δ ν ζ j) (hy : ∀ i, |y i| ≤ R)
    (hans : ProfitAnswer e p A k a v y t (ζ * boxΓ e p A k a v R T ^ j * boxM e p A k a v R T) cut t1) (hs : t1 = some s) : ProfitFound e p A k a v ν y s := by
  obtain ⟨m1, g1, -⟩ := boxΓ_one (p := p) (A := A) (k := k) (a := a) (e := e) h1 h2 h5 hv hR hT
  obtain ⟨c1, c2, c3⟩ := cost_box (e := e) h5 hv hy
  have hrev : 0 ≤ revHi p A a R := mul_nonneg (mul_nonneg (by linarith) hA.le) (Real.exp_pos _).le
  have hv1 := h.value
  set x := ζ * boxΓ e p A k a v R T ^ j * boxM e p A k a v R T with hx
  have hx0 : 0 ≤ x := by positivity
  have hx1 : 0 ≤ x * (revHi p A a R + 2 * costHi e v R) := mul_nonneg hx0 (by linarith)
  refine ⟨fun k' hk' => (hans.limit s hs k' hk').trans (mul_le_mul_of_nonneg_left (Real.exp_le_exp.2 (by linarith)) ?_), ?_⟩
  · linarith [(abs_le.1 hk').1]
  · obtain ⟨w, w1, w2⟩ := hans.value s hs
    refine ⟨w, w1, w2.trans ?_⟩
    have w3 := value_box hA h1 h2 h3 h3' h5 hv hy w1
    have := mul_le_mul_of_nonneg_left (show w + 2 * e.cost v y ≤ revHi p A a R + 2 * costHi e v R by linarith) (show 0 ≤ 14 * x by linarith)
    linarith

/-! ### Whole runs -/

section
variable {fl : ℝ → ℝ} {dot : (Fin 2 → ℝ) → (Fin 2 → ℝ) → ℝ} {ε η u θ l q A' L₀ L v' C τ δ ν tol t0 : ℝ} {N m : ℕ} {E₀ : Ell 2} {K : Set (Fin 2 → ℝ)} {w₀ : W}
variable (hs : SureAny 2 N E₀ K {x | ∀ i, |x i| ≤ R} C ε η u θ l q A' L₀ L v') (hE : E₀.Proper) (hfl : RelErr u fl) (hu0 : 0 ≤ u) (hu : u ≤ ε) (hdot : VecDotErr ε dot)
  (hΩ : AnswersProfit e p A k a v ζ Inv Ω) (h0 : 0 ≤ ζ) (h4' : e.e4 < k) (hT2 : 2 * revHi p A a R + costHi e v R ≤ T) (hτ : 0 ≤ τ) (hτT : τ ≤ T) (hδ : 0 < δ)
  (hKne : K.Nonempty) (hKR : ∀ z ∈ K, ∀ i, |z i| ≤ R) (hK : ∀ z ∈ K, ProfitRoom e p A k a v τ z δ) (htol : tol ≤ 199 / 200 * (δ / 2) ^ 2)
  (hw₀ : Inv w₀) (ht0 : 0 ≤ t0)

include hA h1 h2 h3 h3' h5 hv hR hT hs hE hfl hu0 hu hdot hΩ h0 h4' hT2 hτ hτT hδ hKne hKR hK htol hw₀ ht0 in
/-- **C137** (a good value is found).  Let the points of `K` have room `δ` at the level `τ`, let `K` lie in the box of size `R`, and let the arithmetic be precise enough for `N` rounds of the ellipsoid
(`SureAny`) and of the oracle (`ProfitPrec`).  Then within the first `N` oracle calls, before which no exception is raised, the oracle reports a value of at least `τ`, right up to `ν`, at a
point within the limit up to `ν`. -/
theorem C137_found (hprec : ProfitPrec e p A k a v R T δ ν ζ N) (hbad : t0 < τ) :
    ∃ (j : ℕ) (log : _) (P : W × Ell 2) (w' : W) (c : _) (s : ℝ), j < N ∧
      DcRounds (fun x t => liftOracle (Ω x t)) ((Ell.spaceF fl dot).beside W) tol t0 (w₀, E₀) j log P ∧
      Ω P.2.xc (bestT t0 log) P.1 = .ok (w', c, some s) ∧ τ ≤ s ∧ (∀ i, |P.2.xc i| ≤ R) ∧ ProfitFound e p A k a v ν P.2.xc s := by
  obtain ⟨m1, g1, -⟩ := boxΓ_one (p := p) (A := A) (k := k) (a := a) (e := e) h1 h2 h5 hv hR hT
  obtain ⟨c1, -, -⟩ := cost_box (e := e) h5 hv (y := 0) (R := R) (fun i => by simpa using hR)
  have hel : ∀ i, 0 ≤ e.elas i := fun i => by fin_cases i <;> simp [Unc.elas, h1, h2]
  have key : ∀ j : ℕ, (∃ (j : ℕ) (log : _) (P : W × Ell 2) (w' : W) (c : _) (s : ℝ), j < N ∧
        DcRounds (fun x t => liftOracle (Ω x t)) ((Ell.spaceF fl dot).beside W) tol t0 (w₀, E₀) j log P ∧
        Ω P.2.xc (bestT t0 log) P.1 = .ok (w', c, some s) ∧ τ ≤ s ∧ (∀ i, |P.2.xc i| ≤ R) ∧ ProfitFound e p A k a v ν P.2.xc s) ∨
      ∃ log P, DcRounds (fun x t => liftOracle (Ω x t)) ((Ell.spaceF fl dot).beside W) tol t0 (w₀, E₀) j log P ∧ Inv P.1 ∧ Kept E₀ K l q L₀ j P.2 ∧
        bestT t0 log < τ ∧ -(ζ * boxΓ e p A k a v R T ^ j * costLo e v R) ≤ bestT t0 log := by
    intro j
    induction j with
    | zero =>
      refine .inr ⟨[], _, .nil, hw₀, hs.init hE, hbad, ?_⟩
      have : 0 ≤ ζ * boxΓ e p A k a v R T ^ 0 * costLo e v R := by positivity
      change _ ≤ t0
      linarith
    | succ j ih =>
      rcases ih with ih | ⟨log, P, hp, hiv, hkept, hb, hlow⟩
      · exact .inl ih
      have hj := hs.few hu0 hu hkept
      obtain ⟨-, hX, -⟩ := hs.resolved hE hu0 hu hkept
      have hpj := prec_mono hA h1 h2 h3 h3' h5 hv hR hT h0 hj.le hprec
      obtain ⟨w', cut, t1, k1, k2, k3, k4, k5⟩ := profit_step hA h1 h2 h3 h3' h5 hv hR hT hΩ h0 hpj.small hT2 hX (hb.le.trans hτT) hlow hiv
      rcases lt_or_ge (t1.getD (bestT t0 log)) τ with hb1 | hb1
      · right
        have hcut := profit_cut_ok hel k3 (by positivity) hτ hδ hX hKne hKR hK hpj.room htol hb1
        obtain ⟨E', tsq', k6, k7, k8⟩ := hs.step hE hfl hu0 hu hdot hkept hcut
        refine ⟨_, (w', E'), .snoc hp (w1 := (w', P.2)) (c := scalarCut cut) (t1 := t1) (tsq := tsq') ?_ ?_ k7, k2, k8, ?_, ?_⟩
        · simp [Space.beside, Ell.spaceF, liftOracle, k1]
        · simp [Space.beside, Ell.spaceF, k6]
        · rw [bestT_snoc]; exact hb1
        · rw [bestT_snoc]; linarith
      · left
        cases t1 with
        | none => exact absurd hb (not_lt.2 hb1)
        | some s => exact ⟨j, log, P, w', scalarCut cut, s, hj, hp, k1, hb1, hX, answer_found hA h1 h2 h3 h3' h5 hv hR hT h0 h4' hpj hX k3 rfl⟩
  rcases key N with h | ⟨log, P, hp, -, hkept, -⟩
  · exact h
  · exact absurd (hs.few hu0 hu hkept) (lt_irrefl N)


include hA h1 h2 h3 h3' h5 hv hR hT hs hE hfl hu0 hu hdot hΩ h0 h4' hT2 hτ hδ hKne hKR hK htol hw₀ ht0 in
/-- **C137** (what is returned).  If moreover `max_it = m ≥ N`, the arithmetic is precise enough for `m` rounds, and the centres stay in the box (while the value is below `τ` they do so by themselves, C134;
afterwards the ellipsoids may become too small for the arithmetic), a run that returns has a value of at least `τ - ν`; and it is the initial one or right up to `ν` at the point returned. -/
theorem C137_returned (hprec : ProfitPrec e p A k a v R T δ ν ζ m) (hNm : N ≤ m) (ht0T : t0 ≤ T)
    (hbox : ∀ j log P, j < m → DcRounds (fun x t => liftOracle (Ω x t)) ((Ell.spaceF fl dot).beside W) tol t0 (w₀, E₀) j log P → ∀ i, |P.2.xc i| ≤ R)
    {w' : W × Ell 2} {xb : Option (Fin 2 → ℝ)} {t : ℝ} {info : CInfo}
    (hrun : cuttingPlaneDc (fun x t => liftOracle (Ω x t)) ((Ell.spaceF fl dot).beside W) t0 ⟨m, tol⟩ (w₀, E₀) = .ok (w', xb, t, info)) :
    τ - ν ≤ t ∧ ((xb = none ∧ t = t0) ∨ ∃ x, xb = some x ∧ ProfitFound e p A k a v ν x t) := by
  obtain ⟨m1, g1, -⟩ := boxΓ_one (p := p) (A := A) (k := k) (a := a) (e := e) h1 h2 h5 hv hR hT
  obtain ⟨c1, -, -⟩ := cost_box (e := e) h5 hv (y := 0) (R := R) (fun i => by simpa using hR)
  have hel : ∀ i, 0 ≤ e.elas i := fun i => by fin_cases i <;> simp [Unc.elas, h1, h2]
  set Γ := boxΓ e p A k a v R T with hΓ
  let Best : DcSt (W × Ell 2) (Fin 2 → ℝ) ℝ → Prop := fun s => (s.xBest = none ∧ s.t = t0) ∨ ∃ x, s.xBest = some x ∧ ProfitFound e p A k a v ν x s.t
  let I : ℕ → DcSt (W × Ell 2) (Fin 2 → ℝ) ℝ → Prop := fun j s => j ≤ m →
    (∃ log, DcRounds (fun x t => liftOracle (Ω x t)) ((Ell.spaceF fl dot).beside W) tol t0 (w₀, E₀) j log s.w ∧ s.t = bestT t0 log) ∧ Inv s.w.1 ∧
      -(ζ * Γ ^ j * costLo e v R) ≤ s.t ∧ s.t ≤ T ∧ ((s.t < τ ∧ Kept E₀ K l q L₀ j s.w.2) ∨ τ - ζ * Γ ^ j * costLo e v R ≤ s.t) ∧ Best s
  -- one round
  have hstep : ∀ j s w1 c t1 w2 st tsq, j < m → I j s → liftOracle (Ω s.w.2.xc s.t) s.w = .ok (w1, c, t1) → ((Ell.spaceF fl dot).beside W).update c w1 = .ok (w2, st, tsq) →
      Inv w2.1 ∧ -(ζ * Γ ^ (j + 1) * costLo e v R) ≤ t1.getD s.t ∧ t1.getD s.t ≤ T ∧
      ((t1.getD s.t < τ ∧ st = .success ∧ ¬ tsq < tol ∧ Kept E₀ K l q L₀ (j + 1) w2.2) ∨ τ - ζ * Γ ^ (j + 1) * costLo e v R ≤ t1.getD s.t) ∧
      Best (dcAfter ((Ell.spaceF fl dot).beside W) s w1 t1) := by
    intro j s w1 c t1 w2 st tsq hj hI hq1 hu1
    obtain ⟨⟨log, hp, ht⟩, hiv, hlow, htT, hcase, hbest⟩ := hI hj.le
    obtain ⟨e1, e2, e3⟩ := round_split_dc hq1 hu1
    have hX := hbox j log s.w hj hp
    have hpj := prec_mono hA h1 h2 h3 h3' h5 hv hR hT h0 hj.le hprec
    obtain ⟨w', cut, t1', k1, k2, k3, k4, k5⟩ := profit_step hA h1 h2 h3 h3' h5 hv hR hT hΩ h0 hpj.small hT2 hX htT hlow hiv
    rw [e1] at k1
    simp only [Except.ok.injEq, Prod.mk.injEq] at k1
    obtain ⟨rfl, rfl, rfl⟩ := k1
    rw [← hΓ] at k5
    have hpos : 0 ≤ ζ * Γ ^ (j + 1) * costLo e v R := by positivity
    refine ⟨e3 ▸ k2, by linarith, k4, ?_, ?_⟩
    · rcases hcase with ⟨hb, hkept⟩ | hgood
      · rcases lt_or_ge (t1.getD s.t) τ with hb1 | hb1
        · left
          have hcut := profit_cut_ok hel k3 (by positivity) hτ hδ hX hKne hKR hK hpj.room htol hb1
          obtain ⟨E', tsq', k6, k7, k8⟩ := hs.step hE hfl hu0 hu hdot hkept hcut
          rw [e2] at k6
          simp only [Except.ok.injEq, Prod.mk.injEq] at k6
          obtain ⟨rfl, rfl, rfl⟩ := k6
          exact ⟨hb1, rfl, k7, k8⟩
        · right; linarith
      · right; linarith
    · cases t1 with
      | none => exact hbest
      | some s1 =>
        refine .inr ⟨s.w.2.xc, ?_, answer_found hA h1 h2 h3 h3' h5 hv hR hT h0 h4' hpj hX k3 rfl⟩
        have : w1.2 = s.w.2 := (liftOracle_eq hq1).2
        simp [dcAfter, Space.beside, Ell.spaceF, this]
  obtain ⟨s, i, hf, rfl, rfl, rfl, rfl⟩ := dc_ok hrun
  have hI : ∀ {j s}, Rounds (dcBody (fun x t => liftOracle (Ω x t)) ((Ell.spaceF fl dot).beside W) tol) 0 ⟨(w₀, E₀), none, t0, .success⟩ j s → I j s := by
    intro j s hr
    refine Rounds.inv I ?_ ?_ hr
    · intro _
      refine ⟨⟨[], .nil, rfl⟩, hw₀, ?_, ht0T, ?_, .inl ⟨rfl, rfl⟩⟩
      · have : 0 ≤ ζ * Γ ^ 0 * costLo e v R := by positivity
        change _ ≤ t0
        linarith
      · rcases lt_or_ge t0 τ with hb | hb
        · exact .inl ⟨hb, hs.init hE⟩
        · right
          have : 0 ≤ ζ * Γ ^ 0 * costLo e v R := by positivity
          change _ ≤ t0
          linarith
    · intro j s s' hI hb hj
      obtain ⟨w1, c, t1, w2, tsq, hq, hup, htol', rfl⟩ := dcBody_cont hb
      obtain ⟨⟨log, hp, ht⟩, -⟩ := hI (by omega)
      obtain ⟨r1, r2, r3, r4, r5⟩ := hstep j s w1 c t1 w2 .success tsq (by omega) hI hq hup
      have est : (dcAfter ((Ell.spaceF fl dot).beside W) s w1 t1).t = t1.getD s.t := by cases t1 <;> rfl
      rw [ht] at hq
      refine ⟨⟨_, .snoc hp hq hup htol', ?_⟩, r1, ?_, ?_, ?_, r5⟩
      · rw [bestT_snoc, ← ht]; exact est
      · change _ ≤ (dcAfter ((Ell.spaceF fl dot).beside W) s w1 t1).t
        rw [est]; exact r2
      · change (dcAfter ((Ell.spaceF fl dot).beside W) s w1 t1).t ≤ T
        rw [est]; exact r3
      · change ((dcAfter ((Ell.spaceF fl dot).beside W) s w1 t1).t < τ ∧ _) ∨ _ ≤ (dcAfter ((Ell.spaceF fl dot).beside W) s w1 t1).t
        rw [est]
        exact r4.imp (fun h => ⟨h.1, h.2.2.2⟩) id
  have hlev : ∀ j ≤ m, ζ * Γ ^ j * costLo e v R ≤ ν := fun j hj => (prec_mono hA h1 h2 h3 h3' h5 hv hR hT h0 hj hprec).level
  rcases forRange_ok hf with ⟨s1, hi, hr, hbr⟩ | ⟨hi, hr⟩
  · dsimp only at hi
    have hi' : i < m := by omega
    obtain ⟨w1, c, t1, w2, st, tsq, hq, hup, hcase⟩ := dcBody_brk hbr
    obtain ⟨r1, r2, r3, r4, r5⟩ := hstep i s1 w1 c t1 w2 st tsq hi' (hI hr) hq hup
    have est : (dcAfter ((Ell.spaceF fl dot).beside W) s1 w1 t1).t = t1.getD s1.t := by cases t1 <;> rfl
    have hst : s.t = t1.getD s1.t ∧ Best s := by
      rcases hcase with ⟨-, rfl⟩ | ⟨-, -, rfl⟩ <;> exact ⟨est, r5⟩
    refine ⟨?_, hst.2⟩
    rw [hst.1]
    rcases r4 with ⟨-, a2, a3, -⟩ | r4
    · rcases hcase with ⟨h, -⟩ | ⟨-, h, -⟩
      · exact absurd a2 h
      · exact absurd h a3
    · linarith [hlev (i + 1) hi']
  · dsimp only at hi
    have hi' : i + 1 = m := by omega
    obtain ⟨-, -, -, -, r4, r5⟩ := hI hr hi'.le
    refine ⟨?_, r5⟩
    rcases r4 with ⟨-, hk⟩ | r4
    · have := hs.few hu0 hu hk
      omega
    · linarith [hlev (i + 1) hi'.le]

end
end
end

/-! ### Precise enough arithmetic -/

section
variable {p A k : ℝ} {a v : Fin 2 → ℝ} {e : Unc} {W : Type _}

theorem prec_exists (R T : ℝ) {δ ν : ℝ} (hδ : 0 < δ) (hν : 0 < ν) (m : ℕ) : ∃ ζ₀, 0 < ζ₀ ∧ ∀ ζ, 0 ≤ ζ → ζ ≤ ζ₀ → ProfitPrec e p A k a v R T δ ν ζ m := by
  have one : ∀ (c : ℝ) {d : ℝ}, 0 < d → ∃ z, 0 < z ∧ ∀ ζ, 0 ≤ ζ → ζ ≤ z → ζ * c ≤ d := fun c d hd => by
    refine ⟨d / (|c| + 1), by positivity, fun ζ h0 h => ?_⟩
    rw [le_div_iff₀ (by positivity)] at h
    have := mul_le_mul_of_nonneg_left (le_abs_self c) h0
    linarith
  obtain ⟨z1, p1, q1⟩ := one (boxΓ e p A k a v R T ^ m * boxM e p A k a v R T) (show (0 : ℝ) < 1 / 100 by norm_num)
  obtain ⟨z2, p2, q2⟩ := one (62 * (boxΓ e p A k a v R T ^ m * boxM e p A k a v R T) * (1 + ∑ i, (1 + (|a i| + e.elas i)) * (2 * R))) hδ
  obtain ⟨z3, p3, q3⟩ := one (14 * (boxΓ e p A k a v R T ^ m * boxM e p A k a v R T) * (1 + revHi p A a R + 2 * costHi e v R)) hν
  obtain ⟨z4, p4, q4⟩ := one (boxΓ e p A k a v R T ^ m * costLo e v R) hν
  refine ⟨min (min z1 z2) (min z3 z4), by positivity, fun ζ h0 h => ⟨?_, ?_, ?_, ?_⟩⟩
  · have := q1 ζ h0 (h.trans ((min_le_left _ _).trans (min_le_left _ _)))
    linarith
  · have := q2 ζ h0 (h.trans ((min_le_left _ _).trans (min_le_right _ _)))
    linarith
  · have := q3 ζ h0 (h.trans ((min_le_right _ _).trans (min_le_left _ _)))
    linarith
  · have := q4 ζ h0 (h.trans ((min_le_right _ _).trans (min_le_right _ _)))
    linarith

variable (hA : 0 < A) (h1 : 0 ≤ e.e1) (h2 : 0 ≤ e.e2) (h3 : 0 ≤ e.e3) (h3' : e.e3 < p) (h4' : e.e4 < k) (h5 : 0 ≤ e.e5) (hv : ∀ i, 0 < v i)
include hA h1 h2 h3 h3' h4' h5 hv

/-- **C137** (precise enough).  If on some disc inside the first ellipsoid the constraints have room at the level `τ ≥ 0`, there are a number `N` of iterations and a box such that for every larger box and every `max_it ≥ N`
there are a precision and a tolerance with the following.  If `t0 < τ`, a value of at least `τ` is found within `N` oracle calls, before which nothing is raised.  A run that returns and whose
centres were in the box returns a value of at least `τ - ν`.  Reported and returned values are right up to `ν`. -/
theorem C137_precise {E₀ : Ell 2} (hE : E₀.Proper) {c : Fin 2 → ℝ} {r τ δ ν t0 : ℝ} (hr : 0 < r) (hball : euclBall c r ⊆ E₀.pts) (hδ : 0 < δ) (hτ : 0 ≤ τ)
    (hK : ∀ z ∈ euclBall c r, ProfitRoom e p A k a v τ z δ) (hν : 0 < ν) (ht0 : 0 ≤ t0) :
    ∃ (N : ℕ) (R₀ : ℝ), ∀ (R : ℝ) (m : ℕ), R₀ ≤ R → N ≤ m → ∃ ζ₀ tol₀ : ℝ, 0 < ζ₀ ∧ 0 < tol₀ ∧ ∀ ζ, 0 ≤ ζ → ζ ≤ ζ₀ → ∀ fl, RelErr ζ fl → ∀ dot, VecDotErr ζ dot → ∀ tol, tol ≤ tol₀ →
      ∀ (Inv : W → Prop) (Ω : (Fin 2 → ℝ) → ℝ → W → Except PyErr (W × ((Fin 2 → ℝ) × Beta) × Option ℝ)), AnswersProfit e p A k a v ζ Inv Ω → ∀ w₀, Inv w₀ →
      (t0 < τ → ∃ (j : ℕ) (log : _) (P : W × Ell 2) (w' : W) (c : _) (s : ℝ), j < N ∧
        DcRounds (fun x t => liftOracle (Ω x t)) ((Ell.spaceF fl dot).beside W) tol t0 (w₀, E₀) j log P ∧
        Ω P.2.xc (bestT t0 log) P.1 = .ok (w', c, some s) ∧ τ ≤ s ∧ ProfitFound e p A k a v ν P.2.xc s) ∧
      ((∀ j log P, j < m → DcRounds (fun x t => liftOracle (Ω x t)) ((Ell.spaceF fl dot).beside W) tol t0 (w₀, E₀) j log P → ∀ i, |P.2.xc i| ≤ R) →
        ∀ w' xb t info, cuttingPlaneDc (fun x t => liftOracle (Ω x t)) ((Ell.spaceF fl dot).beside W) t0 ⟨m, tol⟩ (w₀, E₀) = .ok (w', xb, t, info) →
        τ - ν ≤ t ∧ ((xb = none ∧ t = t0) ∨ ∃ x, xb = some x ∧ ProfitFound e p A k a v ν x t)) := by
  set A' := ∑ i, |c i| + r with hA'
  have hKA : ∀ z ∈ euclBall c r, ∀ i, |z i| ≤ A' := fun z hz i => (ball_coord hr.le hz i).trans
    (by have := Finset.single_le_sum (f := fun i => |c i|) (fun i _ => abs_nonneg _) (Finset.mem_univ i); linarith)
  have hpos : 0 < volume.real (euclBall c r ∩ E₀.pts) := by
    rw [Set.inter_eq_left.2 hball, vol_ball hE.dim hr]
    have := euclBall_real_pos (n := 2)
    positivity
  obtain ⟨N, L, ε₀, hε₀, C, η, θ, l, q, L₀, v', hS⟩ := C134_precise hE hKA hpos
  have hne : (euclBall c r).Nonempty := ⟨c, by change ∑ i, (c i - c i) ^ 2 ≤ r ^ 2; simp; positivity⟩
  have hA0 : 0 ≤ A' + √L := by positivity
  refine ⟨N, A' + √L, fun R m hR hm => ?_⟩
  have hR0 : 0 ≤ R := hA0.trans hR
  set T := max (max τ t0) (2 * revHi p A a R + costHi e v R) with hT
  have hτT : τ ≤ T := (le_max_left _ _).trans (le_max_left _ _)
  have ht0T : t0 ≤ T := (le_max_right _ _).trans (le_max_left _ _)
  have hT2 : 2 * revHi p A a R + costHi e v R ≤ T := le_max_right _ _
  have hT0 : 0 ≤ T := hτ.trans hτT
  obtain ⟨z0, hz0, hz⟩ := prec_exists (e := e) (p := p) (A := A) (k := k) (a := a) (v := v) R T hδ hν m
  refine ⟨min z0 ε₀, 199 / 200 * (δ / 2) ^ 2, lt_min hz0 hε₀, by positivity, fun ζ h0 hζ fl hfl dot hdot tol htol Inv Ω hΩ w₀ hw₀ => ?_⟩
  have hprec := hz ζ h0 (hζ.trans (min_le_left _ _))
  have hsure := hS ζ ζ h0 le_rfl (hζ.trans (min_le_right _ _)) {x | ∀ i, |x i| ≤ R} fun x hx i => (hx i).trans hR
  have hKR : ∀ z ∈ euclBall c r, ∀ i, |z i| ≤ R := fun z hz i => (hKA z hz i).trans (by linarith [Real.sqrt_nonneg L])
  refine ⟨fun hbad => ?_, fun hbox w' xb t info h => ?_⟩
  · obtain ⟨j, log, P, w', c', s, d1, d2, d3, d4, -, d5⟩ := C137_found hA h1 h2 h3 h3' h5 hv hR0 hT0 hsure hE hfl h0 le_rfl hdot hΩ h0 h4' hT2 hτ hτT hδ hne hKR hK htol hw₀ ht0
      (prec_mono hA h1 h2 h3 h3' h5 hv hR0 hT0 h0 hm hprec) hbad
    exact ⟨j, log, P, w', c', s, d1, d2, d3, d4, d5⟩
  · exact C137_returned hA h1 h2 h3 h3' h5 hv hR0 hT0 hsure hE hfl h0 le_rfl hdot hΩ h0 h4' hT2 hτ hδ hne hKR hK htol hw₀ ht0 hprec hm ht0T hbox h

omit h1 h2 h3 h4' h5 hv in
/-- A disc of points with room next to every competitor in the interior of the ellipsoid. -/
theorem room_disc (h5' : ∀ i, e.e5 ≤ v i) {E₀ : Ell 2} {z : Fin 2 → ℝ} {ρ s ν : ℝ} (hρ : 0 < ρ) (hin : euclBall z ρ ⊆ E₀.pts) (hlim : ∀ k', |k' - k| ≤ e.e4 → qty z 0 ≤ k')
    (hs : Guaranteed e p A a v (qty z) s) (hν : 0 < ν) :
    ∃ (c : Fin 2 → ℝ) (r : ℝ), 0 < r ∧ euclBall c r ⊆ E₀.pts ∧ ∀ w ∈ euclBall c r, ProfitRoom e p A k a v (s - ν) w r := by
  set b0 := |a 0| + e.e1 with hb0
  set b1 := |a 1| + e.e2 with hb1
  set c := cost (fun i => v i + e.e5) (qty z) with hc
  set f : ℝ → ℝ := fun r => s * Real.exp (-(r + b0 * (2 * r + r) + b1 * r)) - c * (Real.exp r - Real.exp (-(r + b0 * (2 * r + r) + b1 * r))) with hf
  have hcont : Continuous f := by rw [hf]; fun_prop
  have hf0 : f 0 = s := by simp [hf]
  have hopen : IsOpen {r | s - ν < f r} := isOpen_lt continuous_const hcont
  obtain ⟨ε, hε, hεs⟩ := Metric.isOpen_iff.1 hopen 0 (by change s - ν < f 0; rw [hf0]; linarith)
  set r := min (ε / 2) (ρ / 3) with hr
  have hr0 : 0 < r := lt_min (by linarith) (by linarith)
  have hrε : r < ε := (min_le_left _ _).trans_lt (by linarith)
  have hrρ : 3 * r ≤ ρ := by have := min_le_right (ε / 2) (ρ / 3); linarith
  have hfr : s - ν < f r := hεs (by rw [Metric.mem_ball, Real.dist_eq, sub_zero, abs_of_pos hr0]; exact hrε)
  refine ⟨![z 0 - r - r, z 1], r, hr0, fun w hw => hin ?_, profit_ball (b := ![b0, b1]) hA h3' h5' (by simp [hb0]) (by simp [hb1]) hr0.le hr0.le hlim hs ?_⟩
  · have hw : ∑ i, (w i - ![z 0 - r - r, z 1] i) ^ 2 ≤ r ^ 2 := hw
    rw [Fin.sum_univ_two] at hw
    simp only [cons_val_zero, cons_val_one] at hw
    change ∑ i, (w i - z i) ^ 2 ≤ ρ ^ 2
    rw [Fin.sum_univ_two]
    have h6 : |w 0 - (z 0 - r - r)| ≤ r := abs_le_of_sq_le_sq (by linarith [sq_nonneg (w 1 - z 1)]) hr0.le
    have h7 : (3 * r) ^ 2 ≤ ρ ^ 2 := pow_le_pow_left₀ (by linarith) hrρ 2
    have h8 := mul_le_mul_of_nonneg_left (abs_le.1 h6).2 hr0.le
    have h9 : (w 0 - z 0) ^ 2 = (w 0 - (z 0 - r - r)) ^ 2 - 4 * (r * (w 0 - (z 0 - r - r))) + 4 * r ^ 2 := by ring
    have h10 := mul_le_mul_of_nonneg_left (abs_le.1 h6).1 hr0.le
    linarith
  · simpa [hf] using hfr.le

/-- **C137** (robust profit maximization).  Let `z` be any quantities in the interior of the first ellipsoid, within the limit, with guaranteed profit `s`; let `ν > 0` and `0 ≤ t0`.  There are a number `N` of iterations and a box such that for
every larger box and every `max_it ≥ N` there are a precision and a tolerance with the following, for `cutting_plane_dc(profit_rb_oracle(...), ell, t0)` with every operation rounded and the oracle in any
state it can reach.  If `t0 < s - ν`, a value of at least `s - ν` is found within `N` oracle calls, before which nothing is raised.  A run that returns and whose centres were in the box returns
a value of at least `s - 2ν`.  Reported and returned values are right up to `ν`. -/
theorem C137_rb (h4 : 0 ≤ e.e4) (h5' : ∀ i, e.e5 ≤ v i) {E₀ : Ell 2} (hE : E₀.Proper) {z : Fin 2 → ℝ} {ρ s ν t0 : ℝ} (hρ : 0 < ρ) (hin : euclBall z ρ ⊆ E₀.pts)
    (hlim : ∀ k', |k' - k| ≤ e.e4 → qty z 0 ≤ k') (hs : Guaranteed e p A a v (qty z) s) (hν : 0 < ν) (hsν : ν ≤ s) (ht0 : 0 ≤ t0) :
    ∃ (N : ℕ) (R₀ : ℝ), ∀ (R : ℝ) (m : ℕ), R₀ ≤ R → N ≤ m → ∃ ζ₀ tol₀ : ℝ, 0 < ζ₀ ∧ 0 < tol₀ ∧ ∀ ζ, 0 ≤ ζ → ζ ≤ ζ₀ → ∀ fl ln ex dot dot', RelErr ζ fl → LogErr ζ ln → ExpErr ζ ex → VecDotErr ζ dot →
      VecDotErr ζ dot' → ∀ tol, tol ≤ tol₀ → ∀ o, RbReach (ProfitRb.initF fl ln p A k a v e.e1 e.e2 e.e3 e.e4 e.e5) o →
      (t0 < s - ν → ∃ (j : ℕ) (log : _) (P : ProfitRb × Ell 2) (o' : ProfitRb) (c : _) (s' : ℝ), j < N ∧
        DcRounds (fun x t => liftOracle (rbOmegaF fl ln ex dot x t)) ((Ell.spaceF fl dot').beside ProfitRb) tol t0 (o, E₀) j log P ∧
        rbOmegaF fl ln ex dot P.2.xc (bestT t0 log) P.1 = .ok (o', c, some s') ∧ s - ν ≤ s' ∧ ProfitFound e p A k a v ν P.2.xc s') ∧
      ((∀ j log P, j < m → DcRounds (fun x t => liftOracle (rbOmegaF fl ln ex dot x t)) ((Ell.spaceF fl dot').beside ProfitRb) tol t0 (o, E₀) j log P → ∀ i, |P.2.xc i| ≤ R) →
        ∀ w' xb t info, cuttingPlaneDc (fun x t => liftOracle (rbOmegaF fl ln ex dot x t)) ((Ell.spaceF fl dot').beside ProfitRb) t0 ⟨m, tol⟩ (o, E₀) = .ok (w', xb, t, info) →
        s - 2 * ν ≤ t ∧ ((xb = none ∧ t = t0) ∨ ∃ x, xb = some x ∧ ProfitFound e p A k a v ν x t)) := by
  obtain ⟨c, r, hr, hball, hroom⟩ := room_disc hA h3' h5' hρ hin hlim hs hν
  obtain ⟨N, R₀, h⟩ := C137_precise (W := ProfitRb) hA h1 h2 h3 h3' h4' h5 hv hE hr hball hr (sub_nonneg.2 hsν) hroom hν ht0
  refine ⟨N, R₀, fun R m hR hm => ?_⟩
  obtain ⟨ζ₀, tol₀, hζ₀, htol₀, h⟩ := h R m hR hm
  refine ⟨ζ₀, tol₀, hζ₀, htol₀, fun ζ h0 hζ fl ln ex dot dot' hfl hln hex hdot hdot' tol htol o ho => ?_⟩
  obtain ⟨k1, k2⟩ := h ζ h0 hζ fl hfl dot' hdot' tol htol _ _ (answers_rb hA h1 h2 h3 h3' h4 h4' h5 hv h0 hfl hln hex hdot) o ho
  refine ⟨k1, fun hbox w' xb t info hrun => ?_⟩
  obtain ⟨r1, r2⟩ := k2 hbox w' xb t info hrun
  exact ⟨by linarith, r2⟩

end

/-- **C137** (profit maximization).  The same for `profit_oracle`, without uncertainty. -/
theorem C137_profit {p A k : ℝ} {a v : Fin 2 → ℝ} (hp : 0 < p) (hA : 0 < A) (hk : 0 < k) (hv : ∀ i, 0 < v i) {E₀ : Ell 2} (hE : E₀.Proper) {z : Fin 2 → ℝ} {ρ ν t0 : ℝ} (hρ : 0 < ρ)
    (hin : euclBall z ρ ⊆ E₀.pts) (hlim : qty z 0 ≤ k) (hν : 0 < ν) (hsν : ν ≤ profit p A a v (qty z)) (ht0 : 0 ≤ t0) :
    ∃ (N : ℕ) (R₀ : ℝ), ∀ (R : ℝ) (m : ℕ), R₀ ≤ R → N ≤ m → ∃ ζ₀ tol₀ : ℝ, 0 < ζ₀ ∧ 0 < tol₀ ∧ ∀ ζ, 0 ≤ ζ → ζ ≤ ζ₀ → ∀ fl ln ex dot dot', RelErr ζ fl → LogErr ζ ln → ExpErr ζ ex → VecDotErr ζ dot →
      VecDotErr ζ dot' → ∀ tol, tol ≤ tol₀ →
      (t0 < profit p A a v (qty z) - ν → ∃ (j : ℕ) (log : _) (P : Unit × Ell 2) (o' : Unit) (c : _) (s' : ℝ), j < N ∧
        DcRounds (fun x t => liftOracle (profitOmegaF fl ln ex dot (Profit.initF fl ln p A k a v) x t)) ((Ell.spaceF fl dot').beside Unit) tol t0 ((), E₀) j log P ∧
        profitOmegaF fl ln ex dot (Profit.initF fl ln p A k a v) P.2.xc (bestT t0 log) P.1 = .ok (o', c, some s') ∧ profit p A a v (qty z) - ν ≤ s' ∧
        qty P.2.xc 0 ≤ k * Real.exp ν ∧ |s' - profit p A a v (qty P.2.xc)| ≤ ν) ∧
      ((∀ j log P, j < m → DcRounds (fun x t => liftOracle (profitOmegaF fl ln ex dot (Profit.initF fl ln p A k a v) x t)) ((Ell.spaceF fl dot').beside Unit) tol t0 ((), E₀) j log P →
          ∀ i, |P.2.xc i| ≤ R) →
        ∀ w' xb t info, cuttingPlaneDc (fun x t => liftOracle (profitOmegaF fl ln ex dot (Profit.initF fl ln p A k a v) x t)) ((Ell.spaceF fl dot').beside Unit) t0 ⟨m, tol⟩ ((), E₀) =
          .ok (w', xb, t, info) →
        profit p A a v (qty z) - 2 * ν ≤ t ∧ ((xb = none ∧ t = t0) ∨ ∃ x, xb = some x ∧ qty x 0 ≤ k * Real.exp ν ∧ |t - profit p A a v (qty x)| ≤ ν)) := by
  have hfound : ∀ {y s}, ProfitFound Unc.none p A k a v ν y s → qty y 0 ≤ k * Real.exp ν ∧ |s - profit p A a v (qty y)| ≤ ν := by
    rintro y s ⟨f1, w, f2, f3⟩
    have e1 : w = profit p A a v (qty y) := le_antisymm (guaranteed_none.1 ((f2 w).2 le_rfl)) ((f2 _).1 (guaranteed_none.2 le_rfl))
    exact ⟨f1 k (by simp [Unc.none]), e1 ▸ f3⟩
  obtain ⟨c, r, hr, hball, hroom⟩ := room_disc (e := Unc.none) (k := k) hA hp (fun i => (hv i).le) hρ hin (limit_none.2 hlim) (guaranteed_none.2 le_rfl) hν
  obtain ⟨N, R₀, h⟩ := C137_precise (W := Unit) hA le_rfl le_rfl le_rfl hp hk le_rfl hv hE hr hball hr (sub_nonneg.2 hsν) hroom hν ht0
  refine ⟨N, R₀, fun R m hR hm => ?_⟩
  obtain ⟨ζ₀, tol₀, hζ₀, htol₀, h⟩ := h R m hR hm
  refine ⟨ζ₀, tol₀, hζ₀, htol₀, fun ζ h0 hζ fl ln ex dot dot' hfl hln hex hdot hdot' tol htol => ?_⟩
  obtain ⟨k1, k2⟩ := h ζ h0 hζ fl hfl dot' hdot' tol htol _ _ (answers_profit hp hA hk hv h0 hfl hln hex hdot) () trivial
  refine ⟨fun hb => ?_, fun hbox w' xb t info hrun => ?_⟩
  · obtain ⟨j, log, P, o', c', s', d1, d2, d3, d4, d5⟩ := k1 hb
    exact ⟨j, log, P, o', c', s', d1, d2, d3, d4, hfound d5⟩
  · obtain ⟨r1, r2⟩ := k2 hbox w' xb t info hrun
    exact ⟨by linarith, r2.imp id fun ⟨x, a1, a2⟩ => ⟨x, a1, hfound a2⟩⟩

/-! ### Non-vacuity -/

/-- **C137** (the test).  The problem of `test_profit`, from the same start: in precise enough arithmetic a value above 3404 is found, right up to 1/2; the optimum is 3404.8 (C104). -/
theorem C137_test_profit {E₀ : Ell 2} (hinit : Ell.init (.diag fun _ => 100) 0 = .ok E₀) :
    ∃ (N : ℕ) (ζ₀ tol₀ : ℝ), 0 < ζ₀ ∧ 0 < tol₀ ∧ ∀ ζ, 0 ≤ ζ → ζ ≤ ζ₀ → ∀ fl ln ex dot dot', RelErr ζ fl → LogErr ζ ln → ExpErr ζ ex → VecDotErr ζ dot →
      VecDotErr ζ dot' → ∀ tol, tol ≤ tol₀ → ∃ (j : ℕ) (log : _) (P : Unit × Ell 2) (o' : Unit) (c : _) (s' : ℝ), j < N ∧
        DcRounds (fun x t => liftOracle (profitOmegaF fl ln ex dot (Profit.initF fl ln 20 40 30.5 ![0.1, 0.4] ![10, 35]) x t)) ((Ell.spaceF fl dot').beside Unit) tol 0 ((), E₀) j log P ∧
        profitOmegaF fl ln ex dot (Profit.initF fl ln 20 40 30.5 ![0.1, 0.4] ![10, 35]) P.2.xc (bestT 0 log) P.1 = .ok (o', c, some s') ∧ 3404 < s' ∧
        qty P.2.xc 0 ≤ 30.5 * Real.exp (1 / 2) ∧ |s' - profit 20 40 ![0.1, 0.4] ![10, 35] (qty P.2.xc)| ≤ 1 / 2 := by
  have hv : ∀ i, 0 < (![10, 35] : Fin 2 → ℝ) i := by intro i; fin_cases i <;> norm_num
  have hE := (C24_ell_init_diag le_rfl (fun _ => by norm_num) hinit).1
  rw [show (fun _ : Fin 2 => (100 : ℝ)) = fun _ => 10 ^ 2 by norm_num] at hinit
  obtain ⟨-, hpts, -⟩ := init_diag_bound le_rfl (by norm_num) hinit
  obtain ⟨ly, hYlo, hYhi, -, hprof⟩ := profit_test_opt
  have hl := log_le_five (x := 30.5) (by norm_num) (by norm_num)
  have hl' := log_le_five (x := Real.exp ly) (by linarith) (by linarith)
  rw [Real.log_exp] at hl'
  have hp : 3404.7 < profit 20 40 ![0.1, 0.4] ![10, 35] (qty ![Real.log 30.5, ly]) := by
    rw [hprof]; norm_num at hYlo ⊢; linarith
  obtain ⟨N, R₀, h⟩ := C137_profit (p := 20) (A := 40) (k := 30.5) (a := ![0.1, 0.4]) (z := ![Real.log 30.5, ly]) (ρ := 1) (ν := 1 / 2) (t0 := 0) (by norm_num) (by norm_num) (by norm_num)
    hv hE one_pos (by
      rw [hpts]
      intro w hw
      obtain ⟨w0, w1⟩ := ball2 zero_le_one hw
      simp only [cons_val_zero, cons_val_one] at w0 w1
      rw [abs_le] at w0 w1
      simp only [euclBall, Set.mem_ofPred_eq, Fin.sum_univ_two, Pi.zero_apply]
      nlinarith) (by rw [qty, cons_val_zero, Real.exp_log (by norm_num)]) (by norm_num) (by linarith) le_rfl
  obtain ⟨ζ₀, tol₀, h1, h2, h⟩ := h R₀ N le_rfl le_rfl
  refine ⟨N, ζ₀, tol₀, h1, h2, fun ζ h0 hζ fl ln ex dot dot' hfl hln hex hdot hdot' tol htol => ?_⟩
  obtain ⟨j, log, P, o', c, s', d1, d2, d3, d4, d5, d6⟩ := (h ζ h0 hζ fl ln ex dot dot' hfl hln hex hdot hdot' tol htol).1 (by linarith)
  exact ⟨j, log, P, o', c, s', d1, d2, d3, by linarith, d5, d6⟩

end Verif
