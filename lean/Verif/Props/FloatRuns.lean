import Verif.Props.QmiFloat
import Verif.Props.EllFloat
import Verif.Proofs.AnySpace
import Mathlib.Algebra.Order.Chebyshev

/-!
# C121: the answers of whole runs in floating point

`cutting_plane_feas` and `cutting_plane_dc` with the rounded matrix oracles, on any search space object whatever (so in
particular on an `ell` whose updates are rounded).  Whatever rounding did on the way, an answer that is returned as feasible
satisfies the matrix inequalities up to a multiple of the rounding unit.
-/
namespace Verif
open FloatSpec Finset
variable {k m : ℕ} {V C : Type _} {u γ η δ ζ : ℝ} {fl : ℝ → ℝ} {dot : ℕ → ℕ → (ℕ → ℝ) → (ℕ → ℝ) → ℝ}

theorem abs_sum_sq_le (m : ℕ) (y : ℕ → ℝ) : (∑ i ∈ range m, |y i|) ^ 2 ≤ m * ∑ i ∈ range m, y i ^ 2 := by
  have := sq_sum_le_card_mul_sum_sq (s := range m) (f := fun i => |y i|)
  simpa [sq_abs] using this

/-- A bound on the quadratic form of the Cholesky test, as a bound on the smallest eigenvalue. -/
theorem near_atLeast {A P : ℕ → ℕ → ℝ} {θ η M : ℝ} (hAP : ∀ i < m, A i i ≤ P i i) (hP : ∀ i < m, ∀ j < m, P i j ≤ M)
    (hθ : 0 ≤ θ) (hη : 0 ≤ η) (hM : 0 ≤ M)
    (h : ∀ ρ : ℕ → ℝ, (∀ i, 0 ≤ ρ i) → (∀ i < m, A i i + η * P i i ≤ ρ i ^ 2) → ∀ y : ℕ → ℝ, (∃ i < m, y i ≠ 0) →
      -(5 / 4 * θ * (∑ i ∈ range m, ρ i * |y i|) ^ 2 + η * quadOn P 0 m (fun i => |y i|)) < quadOn A 0 m y) :
    AtLeast (-((5 / 4 * θ * (1 + η) + η) * m * M)) A m := by
  intro y
  by_cases hy : ∃ i < m, y i ≠ 0
  · have hD : 0 ≤ (1 + η) * M := by positivity
    have h1 := h (fun _ => Real.sqrt ((1 + η) * M)) (fun _ => Real.sqrt_nonneg _) (fun i hi => by
      rw [Real.sq_sqrt hD]
      have h1 := hAP i hi
      have h2 := hP i hi i hi
      have h3 := mul_le_mul_of_nonneg_left h2 hη
      linarith) y hy
    rw [← mul_sum, mul_pow, Real.sq_sqrt hD] at h1
    have h2 : quadOn P 0 m (fun i => |y i|) ≤ M * (∑ i ∈ range m, |y i|) ^ 2 := by
      rw [sq, sum_mul_sum, mul_sum]
      unfold quadOn
      rw [Nat.Ico_zero_eq_range]
      refine sum_le_sum fun i hi => ?_
      rw [mul_sum]
      refine sum_le_sum fun j hj => ?_
      rw [mem_range] at hi hj
      have := mul_le_mul_of_nonneg_left (hP i hi j hj) (mul_nonneg (abs_nonneg (y i)) (abs_nonneg (y j)))
      linarith
    have h3 := abs_sum_sq_le m y
    have h4 : (5 / 4 * θ * (1 + η) + η) * M * (∑ i ∈ range m, |y i|) ^ 2 ≤ (5 / 4 * θ * (1 + η) + η) * M * (m * ∑ i ∈ range m, y i ^ 2) :=
      mul_le_mul_of_nonneg_left h3 (by positivity)
    have h5 := mul_le_mul_of_nonneg_left h2 hη
    linarith
  · have hz : ∀ i < m, y i = 0 := fun i hi => by by_contra hc; exact hy ⟨i, hi, hc⟩
    have e1 : ∑ i ∈ range m, y i ^ 2 = 0 := sum_eq_zero fun i hi => by rw [hz i (mem_range.1 hi)]; ring
    have e2 : quadOn A 0 m y = 0 := by
      unfold quadOn
      rw [Nat.Ico_zero_eq_range]
      exact sum_eq_zero fun i hi => sum_eq_zero fun j hj => by rw [hz i (mem_range.1 hi)]; ring
    rw [e1, e2, mul_zero]

/-- **C121** (lmi).  `cutting_plane_feas(lmi_oracle(F, B), S)` with rounding, on any search space object.  If the run returns
`feasible = True`, then at the point `S.xc` it leaves, `B - Σ x_q F_q ⪰ -((5/4 θ (1 + η) + η) m M)·I`, where `M` bounds the
entries of `|B| + Σ |x_q| |F_q|`. -/
theorem C121_lmi {F : Fin k → ℕ → ℕ → ℝ} {B : ℕ → ℕ → ℝ} (hF : ∀ q, SymOn (F q) m) (hB : SymOn B m) (hfl : RelErr u fl)
    (hu0 : 0 ≤ u) (hu : u ≤ 1 / 10) (hγ : 0 ≤ γ) (hdot : DotErr γ m dot) (hθ : 3 * u + 2 * γ ≤ 1 / 5)
    (hη : (1 + u) ^ (k + 2) ≤ 1 + η) {conv : (Fin k → ℝ) × ℝ → C} {S : Space V (Fin k → ℝ) C ℝ} {o : Options ℝ}
    {Q₀ Q : CholExt ℝ} {v₀ v : V} {info : CInfo} (hQ : Ready m Q₀)
    (h : cuttingPlaneFeas (fun x => liftOracle fun Q => feasAnswer conv (lmiCallF fl dot F B m x Q)) (S.beside _) o (Q₀, v₀) =
      .ok ((Q, v), info)) (hfeas : info.feasible = true)
    {M : ℝ} (hM0 : 0 ≤ M) (hM : ∀ i < m, ∀ j < m, absPencil F B (S.xc v) i j ≤ M) :
    AtLeast (-((5 / 4 * (3 * u + 2 * γ) * (1 + η) + η) * m * M)) (pencil F B (S.xc v)) m := by
  have hcall := fun x Q hQ => C115_lmi (F := F) (B := B) hF hB x (Q := Q) hQ hfl hu0 hu hγ hdot hθ hη
  obtain ⟨-, h2⟩ := feas_any (Ω := fun x Q => feasAnswer conv (lmiCallF fl dot F B m x Q)) (I := Ready m) (fun x w w' a hw ha => by
    obtain ⟨Q', r, h1, h2, -⟩ := hcall x w hw
    simp only [feasAnswer, h1, Except.map, Except.ok.injEq, Prod.mk.injEq] at ha
    exact ha.1 ▸ h2) hQ h
  obtain ⟨w, hw, hacc⟩ := h2 hfeas
  obtain ⟨Q', r, h1, -, h3, -⟩ := hcall (S.xc v) w hw
  simp only [feasAnswer, h1, Except.map, Except.ok.injEq, Prod.mk.injEq, Option.map_eq_none_iff] at hacc
  have hη0 : 0 ≤ η := by have := one_le_pow₀ (show 1 ≤ 1 + u by linarith) (n := k + 2); linarith
  refine near_atLeast (P := absPencil F B (S.xc v)) (fun i hi => ?_) hM (by positivity) hη0 hM0 (h3 hacc.2)
  unfold pencil absPencil absCombo
  have h4 : |∑ q, S.xc v q * F q i i| ≤ ∑ q, |F q i i * S.xc v q| :=
    (abs_sum_le_sum_abs _ _).trans (le_of_eq (sum_congr rfl fun q _ => by rw [mul_comm]))
  have h5 := neg_abs_le (∑ q, S.xc v q * F q i i)
  have h6 := le_abs_self (B i i)
  linarith

/-- **C121** (lmi0).  The same for `lmi0_oracle`: `Σ x_q F_q ⪰ -((5/4 θ (1 + η) + η) m M)·I` at the point the run leaves. -/
theorem C121_lmi0 {F : Fin k → ℕ → ℕ → ℝ} (hF : ∀ q, SymOn (F q) m) (hfl : RelErr u fl)
    (hu0 : 0 ≤ u) (hu : u ≤ 1 / 10) (hγ : 0 ≤ γ) (hdot : DotErr γ m dot) (hθ : 3 * u + 2 * γ ≤ 1 / 5)
    (hη : (1 + u) ^ (k + 1) ≤ 1 + η) {conv : (Fin k → ℝ) × ℝ → C} {S : Space V (Fin k → ℝ) C ℝ} {o : Options ℝ}
    {Q₀ Q : CholExt ℝ} {v₀ v : V} {info : CInfo} (hQ : Ready m Q₀)
    (h : cuttingPlaneFeas (fun x => liftOracle fun Q => feasAnswer conv (lmi0CallF fl dot F m x Q)) (S.beside _) o (Q₀, v₀) =
      .ok ((Q, v), info)) (hfeas : info.feasible = true)
    {M : ℝ} (hM0 : 0 ≤ M) (hM : ∀ i < m, ∀ j < m, absCombo F (S.xc v) i j ≤ M) :
    AtLeast (-((5 / 4 * (3 * u + 2 * γ) * (1 + η) + η) * m * M)) (combo F (S.xc v)) m := by
  have hcall := fun x Q hQ => C115_lmi0 (F := F) hF x (Q := Q) hQ hfl hu0 hu hγ hdot hθ hη
  obtain ⟨-, h2⟩ := feas_any (Ω := fun x Q => feasAnswer conv (lmi0CallF fl dot F m x Q)) (I := Ready m) (fun x w w' a hw ha => by
    obtain ⟨Q', r, h1, h2, -⟩ := hcall x w hw
    simp only [feasAnswer, h1, Except.map, Except.ok.injEq, Prod.mk.injEq] at ha
    exact ha.1 ▸ h2) hQ h
  obtain ⟨w, hw, hacc⟩ := h2 hfeas
  obtain ⟨Q', r, h1, -, h3, -⟩ := hcall (S.xc v) w hw
  simp only [feasAnswer, h1, Except.map, Except.ok.injEq, Prod.mk.injEq, Option.map_eq_none_iff] at hacc
  have hη0 : 0 ≤ η := by have := one_le_pow₀ (show 1 ≤ 1 + u by linarith) (n := k + 1); linarith
  refine near_atLeast (P := absCombo F (S.xc v)) (fun i hi => ?_) hM (by positivity) hη0 hM0 (h3 hacc.2)
  unfold combo absCombo
  exact (le_abs_self _).trans ((abs_sum_le_sum_abs _ _).trans (le_of_eq (sum_congr rfl fun q _ => by rw [mul_comm])))

theorem tiMinusGram_le_absGram (F : Fin k → ℕ → ℕ → ℝ) (F0 : ℕ → ℕ → ℝ) (x : Fin k → ℝ) (t : ℝ) (i : ℕ) :
    tiMinusGram m t (pencil F F0 x) i i ≤ absGram m t (absPencil F F0 x) i i := by
  unfold tiMinusGram absGram
  rw [if_pos rfl, if_pos rfl]
  have h1 : 0 ≤ ∑ l ∈ range m, pencil F F0 x l i * pencil F F0 x l i := sum_nonneg fun l _ => mul_self_nonneg _
  have h2 : 0 ≤ ∑ l ∈ range m, absPencil F F0 x l i * absPencil F F0 x l i := sum_nonneg fun l _ => mul_self_nonneg _
  linarith [le_abs_self t]

/-- **C121** (lsq).  `cutting_plane_dc(lsq_oracle(F, F0), S, t0)` with rounding, on any search space object: either no point
was found and `t` is what the caller passed, or the value returned is the last entry of the point returned, is no worse than
`t0`, and the point satisfies both matrix inequalities up to a multiple of the rounding unit. -/
theorem C121_lsq {F : Fin k → ℕ → ℕ → ℝ} {F0 : ℕ → ℕ → ℝ} (hF : ∀ q, SymOn (F q) m) (hfl : RelErr u fl) (hu0 : 0 ≤ u)
    (hu : u ≤ 1 / 10) (hγ : 0 ≤ γ) (hdot : DotErr γ m dot) (hloc : DotLocal dot)
    (hθ : 3 * u + 2 * γ ≤ 1 / 5) (hη : (1 + u) ^ (k + 2) ≤ 1 + η) (hδ : (1 + u) * ((1 + γ) * ((1 + η) * (1 + η))) ≤ 1 + δ)
    {conv : (Fin (k + 1) → ℝ) × ℝ → C} {S : Space V (Fin (k + 1) → ℝ) C ℝ} {o : Options ℝ}
    {w₀ w : LsqOracle ℝ} {v₀ v : V} {t0 t : WithTop ℝ} {xb : Option (Fin (k + 1) → ℝ)} {info : CInfo}
    (h0 : Ready m w₀.lmi0) (hQ : Ready m w₀.qmi.Q)
    (h : cuttingPlaneDc (fun x t => liftOracle fun w => dcAnswer conv (lsqCallF fl dot F F0 m x t w)) (S.beside _) t0 o (w₀, v₀) =
      .ok ((w, v), xb, t, info)) :
    (xb = none ∧ t = t0) ∨ ∃ x, xb = some x ∧ t = ((x (Fin.last k) : ℝ) : WithTop ℝ) ∧ t ≤ t0 ∧
      ∀ M : ℝ, 0 ≤ M →
        ((∀ i < m, ∀ j < m, absCombo F (Fin.init x) i j ≤ M) →
          AtLeast (-((5 / 4 * (3 * u + 2 * γ) * (1 + η) + η) * m * M)) (combo F (Fin.init x)) m) ∧
        ((∀ i < m, ∀ j < m, absGram m (x (Fin.last k)) (absPencil F F0 (Fin.init x)) i j ≤ M) →
          AtLeast (-((5 / 4 * (3 * u + 2 * γ) * (1 + δ) + δ) * m * M))
            (tiMinusGram m (x (Fin.last k)) (pencil F F0 (Fin.init x))) m) := by
  have hcall := fun x t w (hw : Ready m w.lmi0 ∧ Ready m w.qmi.Q) => C116_lsq (F := F) (F0 := F0) hF x t (o := w) hw.1 hw.2 hfl hu0 hu hγ
    hdot hloc hθ hη hδ (ζ := _) (le_of_eq (add_sub_cancel _ _).symm)
  have hstep : ∀ x t (w : LsqOracle ℝ) w' c t1, (Ready m w.lmi0 ∧ Ready m w.qmi.Q) →
      dcAnswer conv (lsqCallF fl dot F F0 m x t w) = .ok (w', c, t1) → (Ready m w'.lmi0 ∧ Ready m w'.qmi.Q) ∧
      ∀ t', t1 = some t' → t' ≤ t ∧ t' = ((x (Fin.last k) : ℝ) : WithTop ℝ) ∧
       (∀ ρ : ℕ → ℝ, (∀ i, 0 ≤ ρ i) → (∀ i < m, combo F (Fin.init x) i i + η * absCombo F (Fin.init x) i i ≤ ρ i ^ 2) →
        ∀ y : ℕ → ℝ, (∃ i < m, y i ≠ 0) → -(5 / 4 * (3 * u + 2 * γ) * (∑ i ∈ range m, ρ i * |y i|) ^ 2 +
          η * quadOn (absCombo F (Fin.init x)) 0 m (fun i => |y i|)) < quadOn (combo F (Fin.init x)) 0 m y) ∧
       (∀ ρ : ℕ → ℝ, (∀ i, 0 ≤ ρ i) → (∀ i < m, tiMinusGram m (x (Fin.last k)) (pencil F F0 (Fin.init x)) i i +
          δ * absGram m (x (Fin.last k)) (absPencil F F0 (Fin.init x)) i i ≤ ρ i ^ 2) →
        ∀ y : ℕ → ℝ, (∃ i < m, y i ≠ 0) → -(5 / 4 * (3 * u + 2 * γ) * (∑ i ∈ range m, ρ i * |y i|) ^ 2 +
          δ * quadOn (absGram m (x (Fin.last k)) (absPencil F F0 (Fin.init x))) 0 m (fun i => |y i|)) <
            quadOn (tiMinusGram m (x (Fin.last k)) (pencil F F0 (Fin.init x))) 0 m y) := by
    intro x t w w' c t1 hw ha
    obtain ⟨o', g, b, t2, h1, h2, h3, -, h4⟩ := hcall x t w hw
    simp only [dcAnswer, h1, Except.map, Except.ok.injEq, Prod.mk.injEq] at ha
    obtain ⟨rfl, -, rfl⟩ := ha
    refine ⟨⟨h2, h3⟩, fun t' ht' => ?_⟩
    rcases h4 with ⟨h5, -⟩ | ⟨h5, -⟩ | ⟨h5, h6, -, h7⟩
    · rw [h5] at ht'; simp at ht'
    · rw [h5] at ht'; simp at ht'
    · rcases h7 with ⟨h8, h9, -⟩ | ⟨t0, -, -, h9, -⟩
      · rw [h9, Option.some.injEq] at ht'
        subst ht'
        exact ⟨h8, rfl, h5, h6⟩
      · rw [h9] at ht'; simp at ht'
  obtain ⟨-, h2, h3⟩ := dc_any (Ω := fun x t w => dcAnswer conv (lsqCallF fl dot F F0 m x t w))
    (I := fun w => Ready m w.lmi0 ∧ Ready m w.qmi.Q) (P := fun t => t ≤ t0)
    (fun x t w w' a hw _ ha => (hstep x t w w' a.1 a.2 hw ha).1)
    (fun x t w w' c t' hw ht ha => (((hstep x t w w' c _ hw ha).2 t' rfl).1).trans ht) ⟨h0, hQ⟩ le_rfl h
  rcases h3 with h3 | ⟨x, s, w1, w2, c, h4, h5, -, h6⟩
  · exact .inl h3
  · obtain ⟨-, h7, h8, h9⟩ := (hstep x s w1 w2 c _ h5 h6).2 t rfl
    have hη0 : 0 ≤ η := by have := one_le_pow₀ (show 1 ≤ 1 + u by linarith) (n := k + 2); linarith
    have hδ0 : 0 ≤ δ := by
      have e1 : 1 ≤ (1 + η) * (1 + η) := one_le_mul_of_one_le_of_one_le (by linarith) (by linarith)
      have e2 : 1 ≤ (1 + γ) * ((1 + η) * (1 + η)) := one_le_mul_of_one_le_of_one_le (by linarith) e1
      have e3 := one_le_mul_of_one_le_of_one_le (show 1 ≤ 1 + u by linarith) e2
      linarith
    refine .inr ⟨x, h4, h7, h2, fun M hM0 => ⟨fun hM => ?_, fun hM => ?_⟩⟩
    · refine near_atLeast (fun i hi => ?_) hM (by positivity) hη0 hM0 h8
      unfold combo absCombo
      exact (le_abs_self _).trans ((abs_sum_le_sum_abs _ _).trans (le_of_eq (sum_congr rfl fun q _ => by rw [mul_comm])))
    · exact near_atLeast (fun i hi => tiMinusGram_le_absGram F F0 _ _ i) hM (by positivity) hδ0 hM0 h9

theorem AtLeast.mono {A : ℕ → ℕ → ℝ} {a b : ℝ} (h : AtLeast a A m) (hba : b ≤ a) : AtLeast b A m := fun y =>
  (mul_le_mul_of_nonneg_right hba (sum_nonneg fun i _ => sq_nonneg (y i))).trans (h y)

theorem seqDot_bits {p : ℕ} (hfl : Nearest p fl) (hm : 5 * (4 * (m : ℝ) + 7) ≤ 2 ^ p) :
    DotErr (2 * (((m + 1 : ℕ) : ℝ) * (1 / 2 ^ p))) m (seqDot fl) := by
  have hu0 : (0 : ℝ) ≤ 1 / 2 ^ p := by positivity
  have hup : (2 : ℝ) ^ p * (1 / 2 ^ p) = 1 := by field_simp
  have hbig : 5 * (4 * (m : ℝ) + 7) * (1 / 2 ^ p) ≤ 1 := by
    calc _ ≤ (2 : ℝ) ^ p * (1 / 2 ^ p) := mul_le_mul_of_nonneg_right hm hu0
      _ = 1 := hup
  have hN : ((m + 1 : ℕ) : ℝ) * (1 / 2 ^ p) ≤ 1 / 2 := by
    have : 0 ≤ (m : ℝ) * (1 / 2 ^ p) := by positivity
    push_cast; linarith
  exact fun s e x y he => (seqDot_err hfl.relErr hu0 m s e x y he).trans
      (mul_le_mul_of_nonneg_right (pow_sub_one_le hu0 _ hN) (Finset.sum_nonneg fun _ _ => abs_nonneg _))

/-- **C121** (lmi, `p` bits).  Rounding to nearest with `p` bits (`p = 53` for double precision), sums from left to right.  If
`cutting_plane_feas(lmi_oracle(F, B), S)` on `m × m` matrices with `k` parameters returns `feasible = True`, then the smallest
eigenvalue of `B - Σ x_q F_q` at the point it leaves is at least `-(10 m + 2 k + 22) / 2^p · m · M`. -/
theorem C121_lmi_bits {p : ℕ} (hfl : Nearest p fl) {F : Fin k → ℕ → ℕ → ℝ} {B : ℕ → ℕ → ℝ} (hF : ∀ q, SymOn (F q) m)
    (hB : SymOn B m) (hm : 5 * (4 * (m : ℝ) + 7) ≤ 2 ^ p) (hk : 2 * ((k : ℝ) + 2) ≤ 2 ^ p)
    {conv : (Fin k → ℝ) × ℝ → C} {S : Space V (Fin k → ℝ) C ℝ} {o : Options ℝ}
    {Q₀ Q : CholExt ℝ} {v₀ v : V} {info : CInfo} (hQ : Ready m Q₀)
    (h : cuttingPlaneFeas (fun x => liftOracle fun Q => feasAnswer conv (lmiCallF fl (seqDot fl) F B m x Q)) (S.beside _) o (Q₀, v₀) =
      .ok ((Q, v), info)) (hfeas : info.feasible = true)
    {M : ℝ} (hM0 : 0 ≤ M) (hM : ∀ i < m, ∀ j < m, absPencil F B (S.xc v) i j ≤ M) :
    AtLeast (-((10 * m + 2 * k + 22) / 2 ^ p * m * M)) (pencil F B (S.xc v)) m := by
  have hdot := seqDot_bits (m := m) hfl hm
  rw [div_eq_mul_one_div]
  generalize hu : (1 : ℝ) / 2 ^ p = u at *
  have hu0 : 0 ≤ u := by rw [← hu]; positivity
  have hup : 2 ^ p * u = 1 := by rw [← hu]; field_simp
  have hbig : 5 * (4 * (m : ℝ) + 7) * u ≤ 1 := by rw [← hup]; exact mul_le_mul_of_nonneg_right hm hu0
  have hnu : 0 ≤ (m : ℝ) * u := by positivity
  have hku : 2 * ((k : ℝ) + 2) * u ≤ 1 := by rw [← hup]; exact mul_le_mul_of_nonneg_right hk hu0
  have hK : ((k + 2 : ℕ) : ℝ) * u ≤ 1 / 2 := by push_cast; linarith
  have key := C121_lmi hF hB (hu ▸ hfl.relErr) hu0 (by linarith) (by positivity) hdot (by push_cast; linarith)
    (η := 2 * (((k + 2 : ℕ) : ℝ) * u)) (by have := pow_sub_one_le hu0 _ hK; linarith) hQ h hfeas hM0 hM
  refine key.mono (neg_le_neg (mul_le_mul_of_nonneg_right (mul_le_mul_of_nonneg_right ?_ (Nat.cast_nonneg _)) hM0))
  have h1 : 0 ≤ 3 * u + 2 * (2 * (((m + 1 : ℕ) : ℝ) * u)) := by positivity
  have h2 := mul_le_mul_of_nonneg_left (show 1 + 2 * (((k + 2 : ℕ) : ℝ) * u) ≤ 2 by linarith) h1
  push_cast at h2 ⊢
  linarith

/-- **C121** (lsq, `p` bits).  The point `cutting_plane_dc(lsq_oracle(F, F0), S, t0)` returns satisfies `Σ x_q F_q ⪰ -ε₁·I` with
`ε₁ = (10 m + 2 k + 22) / 2^p · m · M₁` and `t·I - F(x)'F(x) ⪰ -ε₂·I` with `ε₂ = (14 m + 4 k + 32) / 2^p · m · M₂`. -/
theorem C121_lsq_bits {p : ℕ} (hfl : Nearest p fl) {F : Fin k → ℕ → ℕ → ℝ} {F0 : ℕ → ℕ → ℝ} (hF : ∀ q, SymOn (F q) m)
    (hm : 5 * (4 * (m : ℝ) + 7) ≤ 2 ^ p) (hk : 2 * (2 * (m : ℝ) + 2 * k + 7) ≤ 2 ^ p)
    {conv : (Fin (k + 1) → ℝ) × ℝ → C} {S : Space V (Fin (k + 1) → ℝ) C ℝ} {o : Options ℝ}
    {w₀ w : LsqOracle ℝ} {v₀ v : V} {t0 t : WithTop ℝ} {xb : Option (Fin (k + 1) → ℝ)} {info : CInfo}
    (h0 : Ready m w₀.lmi0) (hQ : Ready m w₀.qmi.Q)
    (h : cuttingPlaneDc (fun x t => liftOracle fun w => dcAnswer conv (lsqCallF fl (seqDot fl) F F0 m x t w)) (S.beside _) t0 o (w₀, v₀) =
      .ok ((w, v), xb, t, info)) :
    (xb = none ∧ t = t0) ∨ ∃ x, xb = some x ∧ t = ((x (Fin.last k) : ℝ) : WithTop ℝ) ∧ t ≤ t0 ∧
      ∀ M : ℝ, 0 ≤ M →
        ((∀ i < m, ∀ j < m, absCombo F (Fin.init x) i j ≤ M) →
          AtLeast (-((10 * m + 2 * k + 22) / 2 ^ p * m * M)) (combo F (Fin.init x)) m) ∧
        ((∀ i < m, ∀ j < m, absGram m (x (Fin.last k)) (absPencil F F0 (Fin.init x)) i j ≤ M) →
          AtLeast (-((14 * m + 4 * k + 32) / 2 ^ p * m * M)) (tiMinusGram m (x (Fin.last k)) (pencil F F0 (Fin.init x))) m) := by
  have hdot := seqDot_bits (m := m) hfl hm
  rw [div_eq_mul_one_div (10 * (m : ℝ) + 2 * k + 22), div_eq_mul_one_div (14 * (m : ℝ) + 4 * k + 32)]
  generalize hu : (1 : ℝ) / 2 ^ p = u at *
  have hu0 : 0 ≤ u := by rw [← hu]; positivity
  have hup : 2 ^ p * u = 1 := by rw [← hu]; field_simp
  have hbig : 5 * (4 * (m : ℝ) + 7) * u ≤ 1 := by rw [← hup]; exact mul_le_mul_of_nonneg_right hm hu0
  have hnu : 0 ≤ (m : ℝ) * u := by positivity
  have hknu : 0 ≤ (k : ℝ) * u := by positivity
  have hku : 2 * (2 * (m : ℝ) + 2 * k + 7) * u ≤ 1 := by rw [← hup]; exact mul_le_mul_of_nonneg_right hk hu0
  have hK : ((k + 2 : ℕ) : ℝ) * u ≤ 1 / 2 := by push_cast; linarith
  have hK' : ((2 * m + 2 * k + 7 : ℕ) : ℝ) * u ≤ 1 / 2 := by push_cast; linarith
  have hb : 1 + 2 * (((m + 1 : ℕ) : ℝ) * u) ≤ (1 + u) ^ (2 * (m + 1)) := by
    have := one_add_mul_le_pow (show (-2 : ℝ) ≤ u by linarith) (2 * (m + 1))
    push_cast at this ⊢
    linarith
  have hη := pow_sub_one_le hu0 _ hK
  have key := C121_lsq hF (hu ▸ hfl.relErr) hu0 (by linarith) (by positivity) hdot (seqDot_local _) (by push_cast; linarith)
    (η := (1 + u) ^ (k + 2) - 1) (by linarith) (δ := 2 * (((2 * m + 2 * k + 7 : ℕ) : ℝ) * u)) (by
      have h1 := pow_sub_one_le hu0 _ hK'
      have h2 : (1 + u) * ((1 + 2 * (((m + 1 : ℕ) : ℝ) * u)) * ((1 + u) ^ (k + 2) * (1 + u) ^ (k + 2))) ≤
          (1 + u) * ((1 + u) ^ (2 * (m + 1)) * ((1 + u) ^ (k + 2) * (1 + u) ^ (k + 2))) := by gcongr
      have h3 : (1 + u) * ((1 + u) ^ (2 * (m + 1)) * ((1 + u) ^ (k + 2) * (1 + u) ^ (k + 2))) = (1 + u) ^ (2 * m + 2 * k + 7) := by
        rw [← pow_add, ← pow_add, ← pow_succ']
        congr 1
        omega
      rw [show 1 + ((1 + u) ^ (k + 2) - 1) = (1 + u) ^ (k + 2) by ring]
      linarith) h0 hQ h
  rcases key with h1 | ⟨x, h1, h2, h3, h4⟩
  · exact .inl h1
  · refine .inr ⟨x, h1, h2, h3, fun M hM0 => ⟨fun hM => ((h4 M hM0).1 hM).mono ?_, fun hM => ((h4 M hM0).2 hM).mono ?_⟩⟩
    all_goals
      refine neg_le_neg (mul_le_mul_of_nonneg_right (mul_le_mul_of_nonneg_right ?_ (Nat.cast_nonneg _)) hM0)
      have e1 : 0 ≤ 3 * u + 2 * (2 * (((m + 1 : ℕ) : ℝ) * u)) := by positivity
    · have e2 := mul_le_mul_of_nonneg_left (show 1 + ((1 + u) ^ (k + 2) - 1) ≤ 2 by linarith) e1
      push_cast at e2 hη ⊢
      linarith
    · have e2 := mul_le_mul_of_nonneg_left (show 1 + 2 * (((2 * m + 2 * k + 7 : ℕ) : ℝ) * u) ≤ 2 by linarith) e1
      push_cast at e2 ⊢
      linarith

/-! ### Non-vacuity: double precision, `1 - x₀ - x₁ ≥ 0` as a matrix inequality, on an `ell` with rounded updates -/

/-- The run started at `0` returns `feasible = True`. -/
theorem float_run_feasible {fl : ℝ → ℝ} (hfl : Nearest 53 fl) (vdot : (Fin 2 → ℝ) → (Fin 2 → ℝ) → ℝ) {E₀ : Ell 2} (hx : E₀.xc = 0) :
    ∃ Q v info, cuttingPlaneFeas (fun x => liftOracle fun Q => feasAnswer (fun c => (c.1, Beta.scalar c.2))
      (lmiCallF fl (seqDot fl) (fun _ : Fin 2 => fun _ _ => 1) (fun _ _ => 1) 1 x Q)) ((Ell.spaceF fl vdot).beside _) ⟨2000, 0⟩
      (CholExt.init 1, E₀) = .ok ((Q, v), info) ∧ info.feasible = true ∧ (Ell.spaceF fl vdot).xc v = 0 := by
  obtain ⟨Q', r, h1, h2, -, h4⟩ := C115_lmi (F := fun _ : Fin 2 => fun _ _ => (1 : ℝ)) (B := fun _ _ => 1) (m := 1)
    (fun _ _ _ _ _ => rfl) (fun _ _ _ _ => rfl) 0 (ready_init 1) hfl.relErr (by positivity) (by norm_num) (by positivity)
    (seqDot_bits (m := 1) hfl (by norm_num)) (by norm_num) (η := 1 / 10) (by norm_num)
  have hr : r = none := by
    rcases r with _ | ⟨g, ep⟩
    · rfl
    · obtain ⟨-, e, he0, hem, hv, h5⟩ := h4 g ep rfl
      obtain rfl : e = 1 := by omega
      have h6 := (h5 (fun _ => 2) (fun _ => by norm_num) (fun i hi => by norm_num [pencil, absPencil, absCombo])).1
      simp only [Nat.sub_self] at hv
      norm_num [quadOn, pencil, absPencil, absCombo, hv] at h6
  subst hr
  refine ⟨Q', E₀, ⟨true, 1, .success⟩, ?_, rfl, hx⟩
  have hb : feasBody (fun x => liftOracle fun Q => feasAnswer (fun c => (c.1, Beta.scalar c.2))
      (lmiCallF fl (seqDot fl) (fun _ : Fin 2 => fun _ _ => (1 : ℝ)) (fun _ _ => 1) 1 x Q)) ((Ell.spaceF fl vdot).beside _) 0 0
      ⟨(CholExt.init 1, E₀), false, .success⟩ = .ok (.brk ⟨(Q', E₀), true, .success⟩) := by
    unfold feasBody
    simp only [Space.beside, Ell.spaceF, hx, liftOracle, feasAnswer, h1, Except.map, Option.map_none]
  unfold cuttingPlaneFeas forRange
  simp only [show (2000 : ℤ).toNat = 1999 + 1 from rfl, forLoop, hb, readVar]

/-- The premises of `C121_lmi_bits` hold together, and the bound is `36 / 2^53`. -/
example (vdot : (Fin 2 → ℝ) → (Fin 2 → ℝ) → ℝ) {E₀ : Ell 2} (hx : E₀.xc = 0) :
    AtLeast (-(36 / 2 ^ 53)) (pencil (fun _ : Fin 2 => fun _ _ => (1 : ℝ)) (fun _ _ => 1) 0) 1 := by
  have hfl := ieee_nearest (α := ℝ) (p := 53) (by norm_num)
  obtain ⟨Q, v, info, h1, h2, h3⟩ := float_run_feasible hfl vdot hx
  have := C121_lmi_bits hfl (fun _ _ _ _ _ => rfl) (fun _ _ _ _ => rfl) (by norm_num) (by norm_num) (ready_init 1) h1 h2 (M := 1)
    (by norm_num) (fun i _ j _ => by rw [h3]; norm_num [absPencil, absCombo])
  rw [h3] at this
  exact this.mono (by norm_num)

end Verif
