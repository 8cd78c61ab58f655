import Verif.Model.FirFloat
import Verif.Props.RoomFloat
import Verif.Props.FirTest
import Verif.Props.AdaptorFloat

/-!
# C142: Chebyshev FIR design with every operation rounded

`cutting_plane_dc` with the oracle of `tests/test_firfilter.py` and `ell`, every operation of the oracle and of the ellipsoid rounded, on stored data that are themselves rounded.
-/
namespace Verif
open Matrix MeasureTheory Ell FloatSpec
variable {n m : ℕ} {u R : ℝ} {fl : ℝ → ℝ} {vdot : (Fin n → ℝ) → (Fin n → ℝ) → ℝ} {D D' : FirData n m}

/-- Specification: the worst squared error of the filter `h` for the data `D`. -/
noncomputable def firWorst [NeZero m] (D : FirData n m) (h : Fin n → ℝ) : ℝ := Finset.univ.sup' ⟨0, Finset.mem_univ _⟩ fun i : Fin m => D.err h i

/-- Specification: the stored data `D'` are the data `D` up to `e`. -/
structure FirNear (e : ℝ) (D' D : FirData n m) : Prop where
  aR : ∀ i k, |D'.aR i k - D.aR i k| ≤ e
  aI : ∀ i k, |D'.aI i k - D.aI i k| ≤ e
  Hr : ∀ i, |D'.Hr i - D.Hr i| ≤ e
  Hi : ∀ i, |D'.Hi i - D.Hi i| ≤ e

theorem FirNear.mono {e e' : ℝ} (h : FirNear e D' D) (he : e ≤ e') : FirNear e' D' D :=
  ⟨fun i k => (h.aR i k).trans he, fun i k => (h.aI i k).trans he, fun i => (h.Hr i).trans he, fun i => (h.Hi i).trans he⟩

theorem chebErr_eq_worst [NeZero m] (Hdes : Fin m → ℂ) (h : Fin n → ℝ) : chebErr Hdes h = firWorst (firData n m Hdes) h := by
  unfold chebErr firWorst
  congr 1
  funext i
  exact (FirData.err_eq Hdes h i).symm

theorem err_le_worst [NeZero m] (D : FirData n m) (h : Fin n → ℝ) (i : Fin m) : D.err h i ≤ firWorst D h :=
  Finset.le_sup' (fun i : Fin m => D.err h i) (Finset.mem_univ i)

theorem worst_nonneg [NeZero m] (D : FirData n m) (h : Fin n → ℝ) : 0 ≤ firWorst D h :=
  le_trans (by unfold FirData.err; positivity) (err_le_worst D h 0)

/-- A bound of the numbers that occur in a box of size `R`. -/
noncomputable def firSize (D : FirData n m) (R : ℝ) : ℝ := (∑ i, (∑ k, (|D.aR i k| + 1 + (|D.aI i k| + 1)) + |D.Hr i| + |D.Hi i|) + 1) * (1 + R)

theorem firSize_row (D : FirData n m) (hR : 0 ≤ R) (i : Fin m) : (∑ k, (|D.aR i k| + 1) + ∑ k, (|D.aI i k| + 1)) * R + |D.Hr i| + |D.Hi i| + 1 ≤ firSize D R := by
  have h1 := Finset.single_le_sum (f := fun i => ∑ k, (|D.aR i k| + 1 + (|D.aI i k| + 1)) + |D.Hr i| + |D.Hi i|)
    (fun i _ => add_nonneg (add_nonneg (Finset.sum_nonneg fun k _ => by positivity) (abs_nonneg _)) (abs_nonneg _)) (Finset.mem_univ i)
  have h2 := mul_le_mul_of_nonneg_right (add_le_add_left h1 1) (show 0 ≤ 1 + R by linarith)
  refine le_trans ?_ h2
  simp only [Finset.sum_add_distrib] at *
  have a1 : 0 ≤ ∑ k, |D.aR i k| := Finset.sum_nonneg fun k _ => abs_nonneg _
  have a2 : 0 ≤ ∑ k, |D.aI i k| := Finset.sum_nonneg fun k _ => abs_nonneg _
  have a3 : 0 ≤ ∑ _k : Fin n, (1 : ℝ) := Finset.sum_nonneg fun k _ => zero_le_one
  have b1 := mul_nonneg (abs_nonneg (D.Hr i)) hR
  have b2 := mul_nonneg (abs_nonneg (D.Hi i)) hR
  nlinarith

theorem fl_close (hfl : RelErr u fl) (hu : 0 ≤ u) {y a e M : ℝ} (h1 : |y - a| ≤ e) (h2 : |y| ≤ M) : |fl y - a| ≤ e + u * M := by
  have h3 := (hfl y).trans (mul_le_mul_of_nonneg_left h2 hu)
  have := abs_sub_le (fl y) y a
  linarith

theorem fl_bound (hfl : RelErr u fl) (hu : 0 ≤ u) {y M : ℝ} (h : |y| ≤ M) : |fl y| ≤ M + u * M := by
  have h3 := (hfl y).trans (mul_le_mul_of_nonneg_left h hu)
  have := abs_sub_abs_le_abs_sub (fl y) y
  linarith

/-- One of `t_r`, `t_i`. -/
theorem resid_close (hfl : RelErr u fl) (hu0 : 0 ≤ u) (hu : u ≤ 1 / 50) (hv : VecDotErr u vdot) {a a' h : Fin n → ℝ} {b b' Z : ℝ} (ha : ∀ k, |a' k - a k| ≤ u) (hb : |b' - b| ≤ u)
    (hh : ∀ k, |h k| ≤ R) (hZ : (∑ k, (|a k| + 1)) * R + |b| + 1 ≤ Z) (hR : 0 ≤ R) :
    |a ⬝ᵥ h - b| ≤ Z ∧ |fl (vdot a' h - b') - (a ⬝ᵥ h - b)| ≤ 4 * (u * Z) ∧ |fl (vdot a' h - b')| ≤ 2 * Z := by
  have e1 : ∑ k, |a' k * h k| ≤ (∑ k, (|a k| + 1)) * R := by
    rw [Finset.sum_mul]
    refine Finset.sum_le_sum fun k _ => ?_
    rw [abs_mul]
    have := abs_sub_abs_le_abs_sub (a' k) (a k)
    exact mul_le_mul (by linarith [ha k]) (hh k) (abs_nonneg _) (by positivity)
  have e2 : |a ⬝ᵥ h| ≤ (∑ k, (|a k| + 1)) * R := by
    refine (Finset.abs_sum_le_sum_abs _ _).trans ?_
    rw [Finset.sum_mul]
    refine Finset.sum_le_sum fun k _ => ?_
    rw [abs_mul]
    exact mul_le_mul (by linarith) (hh k) (abs_nonneg _) (by positivity)
  have e3 : |a' ⬝ᵥ h - a ⬝ᵥ h| ≤ u * ((∑ k, (|a k| + 1)) * R) := by
    rw [← sub_dotProduct]
    refine (Finset.abs_sum_le_sum_abs _ _).trans ?_
    rw [Finset.sum_mul, Finset.mul_sum]
    refine Finset.sum_le_sum fun k _ => ?_
    rw [abs_mul, Pi.sub_apply]
    have := mul_le_mul (ha k) (hh k) (abs_nonneg _) hu0
    refine this.trans ?_
    refine mul_le_mul_of_nonneg_left ?_ hu0
    exact le_mul_of_one_le_left hR (by linarith [abs_nonneg (a k)])
  have hb0 := abs_nonneg b
  have hZ0 : 0 ≤ (∑ k, (|a k| + 1)) * R := mul_nonneg (Finset.sum_nonneg fun k _ => by positivity) hR
  have hdot := (hv a' h).trans (mul_le_mul_of_nonneg_left e1 hu0)
  have hS : u * ((∑ k, (|a k| + 1)) * R) + u ≤ u * Z := by
    have := mul_le_mul_of_nonneg_left hZ hu0
    have h0 := mul_nonneg hu0 hb0
    linarith
  have c1 : |vdot a' h - b' - (a ⬝ᵥ h - b)| ≤ 2 * (u * Z) := by
    have e4 : vdot a' h - b' - (a ⬝ᵥ h - b) = (vdot a' h - a' ⬝ᵥ h) + (a' ⬝ᵥ h - a ⬝ᵥ h) - (b' - b) := by ring
    rw [e4]
    have := (abs_sub _ (b' - b)).trans (add_le_add_left (abs_add_le (vdot a' h - a' ⬝ᵥ h) (a' ⬝ᵥ h - a ⬝ᵥ h)) _)
    linarith
  have c2 : |a ⬝ᵥ h - b| ≤ Z := (abs_sub _ _).trans (by linarith)
  have hZZ : 0 ≤ Z := (abs_nonneg _).trans c2
  have huZ : u * Z ≤ 1 / 50 * Z := mul_le_mul_of_nonneg_right hu hZZ
  have c3 : |vdot a' h - b'| ≤ 2 * Z := by
    have := abs_sub_abs_le_abs_sub (vdot a' h - b') (a ⬝ᵥ h - b)
    linarith
  have c4 := fl_close hfl hu0 c1 c3
  have c4' : |fl (vdot a' h - b') - (a ⬝ᵥ h - b)| ≤ 4 * (u * Z) := c4.trans (by linarith)
  refine ⟨c2, c4', ?_⟩
  have := abs_sub_abs_le_abs_sub (fl (vdot a' h - b')) (a ⬝ᵥ h - b)
  linarith

theorem sq_close (hfl : RelErr u fl) (hu0 : 0 ≤ u) (hu : u ≤ 1 / 50) {t s Z : ℝ} (h1 : |s| ≤ Z) (h2 : |t - s| ≤ 4 * (u * Z)) (h3 : |t| ≤ 2 * Z) :
    |fl (t * t) - s ^ 2| ≤ 16 * (u * Z ^ 2) ∧ |fl (t * t)| ≤ 2 * Z ^ 2 := by
  have hZ : 0 ≤ Z := (abs_nonneg _).trans h1
  have e1 : |t * t - s ^ 2| ≤ 12 * (u * Z ^ 2) := by
    rw [show t * t - s ^ 2 = (t - s) * (t + s) by ring, abs_mul]
    have := mul_le_mul h2 (show |t + s| ≤ 3 * Z from (abs_add_le _ _).trans (by linarith)) (abs_nonneg _) (by positivity)
    linarith
  have e2 : |t * t| ≤ 4 * Z ^ 2 := by
    rw [abs_mul]
    have := mul_le_mul h3 h3 (abs_nonneg _) (by positivity)
    linarith
  have e3 := fl_close hfl hu0 e1 e2
  have e3' : |fl (t * t) - s ^ 2| ≤ 16 * (u * Z ^ 2) := e3.trans (by linarith)
  refine ⟨e3', ?_⟩
  have e4 : s ^ 2 ≤ Z ^ 2 := sq_le_sq' (by linarith [neg_abs_le s]) ((le_abs_self _).trans h1)
  have e5 := abs_sub_abs_le_abs_sub (fl (t * t)) (s ^ 2)
  rw [abs_of_nonneg (sq_nonneg s)] at e5
  have := mul_le_mul_of_nonneg_right hu (sq_nonneg Z)
  have := sq_nonneg Z
  linarith

/-- **C142** (one frequency).  The rounded error is the true one up to `36u·Z²`, the rounded gradient makes an error of at most `56u·Z²` within the box; `Z` is `firSize`. -/
theorem C142_row (hfl : RelErr u fl) (hu0 : 0 ≤ u) (hu : u ≤ 1 / 50) (hv : VecDotErr u vdot) (hD : FirNear u D' D) (hR : 0 ≤ R) {x : Fin n → ℝ} (hx : ∀ k, |x k| ≤ R) (i : Fin m) :
    |D'.errF fl vdot x i - D.err x i| ≤ 36 * (u * firSize D R ^ 2) ∧ |D'.errF fl vdot x i| ≤ 5 * firSize D R ^ 2 ∧
    ∀ z : Fin n → ℝ, (∀ k, |z k| ≤ R) → |D'.gradF fl vdot x i ⬝ᵥ (z - x) - D.grad x i ⬝ᵥ (z - x)| ≤ 56 * (u * firSize D R ^ 2) := by
  set Z := firSize D R with hZ
  have hrow := firSize_row D hR i
  rw [← hZ] at hrow
  have p1 : 0 ≤ ∑ k, (|D.aR i k| + 1) := Finset.sum_nonneg fun k _ => by positivity
  have p2 : 0 ≤ ∑ k, (|D.aI i k| + 1) := Finset.sum_nonneg fun k _ => by positivity
  have p3 := mul_nonneg p1 hR
  have p4 := mul_nonneg p2 hR
  have p5 := abs_nonneg (D.Hr i)
  have p6 := abs_nonneg (D.Hi i)
  obtain ⟨a1, a2, a3⟩ := resid_close (Z := Z) hfl hu0 hu hv (hD.aR i) (hD.Hr i) hx (by linarith) hR
  obtain ⟨b1, b2, b3⟩ := resid_close (Z := Z) hfl hu0 hu hv (hD.aI i) (hD.Hi i) hx (by linarith) hR
  have hZ0 : 0 ≤ Z := (abs_nonneg _).trans a1
  change |D'.trF fl vdot x i - _| ≤ _ at a2
  change |D'.trF fl vdot x i| ≤ _ at a3
  change |D'.tiF fl vdot x i - _| ≤ _ at b2
  change |D'.tiF fl vdot x i| ≤ _ at b3
  obtain ⟨c1, c2⟩ := sq_close hfl hu0 hu a1 a2 a3
  obtain ⟨d1, d2⟩ := sq_close hfl hu0 hu b1 b2 b3
  have hu2 := mul_le_mul_of_nonneg_right hu (sq_nonneg Z)
  have hZ2 := sq_nonneg Z
  refine ⟨?_, ?_, fun z hz => ?_⟩
  · have e1 : |fl (D'.trF fl vdot x i * D'.trF fl vdot x i) + fl (D'.tiF fl vdot x i * D'.tiF fl vdot x i) - D.err x i| ≤ 32 * (u * Z ^ 2) := by
      unfold FirData.err
      rw [add_sub_add_comm]
      exact (abs_add_le _ _).trans (by linarith)
    exact (fl_close hfl hu0 e1 ((abs_add_le _ _).trans (add_le_add c2 d2))).trans (by linarith)
  · exact (fl_bound hfl hu0 ((abs_add_le _ _).trans (add_le_add c2 d2))).trans (by linarith)
  · -- one product `t * a`
    have prod : ∀ t s a a' : ℝ, |s| ≤ Z → |t - s| ≤ 4 * (u * Z) → |t| ≤ 2 * Z → |a' - a| ≤ u →
        |fl (t * a') - s * a| ≤ 7 * (u * Z) * (|a| + 1) ∧ |fl (t * a')| ≤ 3 * Z * (|a| + 1) := fun t s a a' q1 q2 q3 q4 => by
      have q5 : |a'| ≤ |a| + 1 := by have := abs_sub_abs_le_abs_sub a' a; linarith
      have q6 : |t * a' - s * a| ≤ 5 * (u * Z) * (|a| + 1) := by
        rw [show t * a' - s * a = (t - s) * a' + s * (a' - a) by ring]
        refine (abs_add_le _ _).trans ?_
        rw [abs_mul, abs_mul]
        have r1 := mul_le_mul q2 q5 (abs_nonneg _) (by positivity)
        have r2 := mul_le_mul q1 q4 (abs_nonneg _) hZ0
        have r3 := mul_nonneg (mul_nonneg hu0 hZ0) (abs_nonneg a)
        linarith
      have q7 : |t * a'| ≤ 2 * Z * (|a| + 1) := by rw [abs_mul]; exact mul_le_mul q3 q5 (abs_nonneg _) (by positivity)
      have q9 : 0 ≤ Z * (|a| + 1) := by positivity
      have q8 := mul_le_mul_of_nonneg_right hu (show 0 ≤ 2 * Z * (|a| + 1) by positivity)
      exact ⟨(fl_close hfl hu0 q6 q7).trans (by linarith), (fl_bound hfl hu0 q7).trans (by linarith)⟩
    have ent : ∀ k, |D'.gradF fl vdot x i k - D.grad x i k| ≤ 28 * (u * Z) * (|D.aR i k| + 1 + (|D.aI i k| + 1)) := fun k => by
      obtain ⟨q1, q2⟩ := prod _ _ _ _ a1 a2 a3 (hD.aR i k)
      obtain ⟨q3, q4⟩ := prod _ _ _ _ b1 b2 b3 (hD.aI i k)
      set S := |D.aR i k| + 1 + (|D.aI i k| + 1) with hS
      have hS0 : 0 ≤ S := by positivity
      have hZS := mul_nonneg hZ0 hS0
      have hZS' := mul_le_mul_of_nonneg_right hu hZS
      have e0 : |fl (D'.trF fl vdot x i * D'.aR i k) + fl (D'.tiF fl vdot x i * D'.aI i k)| ≤ 3 * (Z * S) := (abs_add_le _ _).trans (by rw [hS]; linarith)
      have e1 : |fl (fl (D'.trF fl vdot x i * D'.aR i k) + fl (D'.tiF fl vdot x i * D'.aI i k)) -
          ((D.aR i ⬝ᵥ x - D.Hr i) * D.aR i k + (D.aI i ⬝ᵥ x - D.Hi i) * D.aI i k)| ≤ 7 * (u * Z) * S + u * (3 * (Z * S)) := by
        refine fl_close hfl hu0 ?_ e0
        rw [add_sub_add_comm]
        exact (abs_add_le _ _).trans (by rw [hS]; linarith)
      have e2 := fl_bound hfl hu0 e0
      have e3 : |2 * fl (fl (D'.trF fl vdot x i * D'.aR i k) + fl (D'.tiF fl vdot x i * D'.aI i k))| ≤ 8 * (Z * S) := by
        rw [abs_mul, abs_two]; linarith
      have e4 : |2 * fl (fl (D'.trF fl vdot x i * D'.aR i k) + fl (D'.tiF fl vdot x i * D'.aI i k)) - D.grad x i k| ≤ 20 * (u * Z) * S := by
        have : D.grad x i k = 2 * ((D.aR i ⬝ᵥ x - D.Hr i) * D.aR i k + (D.aI i ⬝ᵥ x - D.Hi i) * D.aI i k) := by simp [FirData.grad]
        rw [this, ← mul_sub, abs_mul, abs_two]
        linarith
      exact (fl_close hfl hu0 e4 e3).trans (by linarith)
    rw [← sub_dotProduct]
    refine (Finset.abs_sum_le_sum_abs _ _).trans ?_
    have e5 : ∀ k ∈ Finset.univ, |(D'.gradF fl vdot x i - D.grad x i) k * (z - x) k| ≤ 28 * (u * Z) * (|D.aR i k| + 1 + (|D.aI i k| + 1)) * (2 * R) := fun k _ => by
      rw [abs_mul, Pi.sub_apply, Pi.sub_apply]
      exact mul_le_mul (ent k) ((abs_sub _ _).trans (by linarith [hz k, hx k])) (abs_nonneg _) (by positivity)
    refine (Finset.sum_le_sum e5).trans ?_
    rw [← Finset.sum_mul, ← Finset.mul_sum, Finset.sum_add_distrib]
    have e6 : (∑ k, (|D.aR i k| + 1) + ∑ k, (|D.aI i k| + 1)) * R ≤ Z := by linarith
    have e7 := mul_le_mul_of_nonneg_left e6 (show 0 ≤ 56 * (u * Z) by positivity)
    linarith

/-- What the loop returns. -/
theorem FirData.loopF_spec (D : FirData n m) (h : Fin n → ℝ) (t : ℝ) : ∀ (is : List (Fin m)) (best : Option (ℝ × (Fin n → ℝ))) (pre : List (Fin m)),
    (best = none → pre = []) → (∀ b, best = some b → ∃ i ∈ pre, b = (D.errF fl vdot h i, D.gradF fl vdot h i) ∧ ∀ j ∈ pre, D.errF fl vdot h j ≤ D.errF fl vdot h i) →
    (∀ j ∈ pre, D.errF fl vdot h j < t) → pre ++ is ≠ [] →
    (∃ i ∈ pre ++ is, t ≤ D.errF fl vdot h i ∧ D.loopF fl vdot h t best is = .ok ((D.gradF fl vdot h i, .scalar (fl (D.errF fl vdot h i - t))), none)) ∨
    (∃ i ∈ pre ++ is, (∀ j ∈ pre ++ is, D.errF fl vdot h j ≤ D.errF fl vdot h i ∧ D.errF fl vdot h j < t) ∧
      D.loopF fl vdot h t best is = .ok ((D.gradF fl vdot h i, .scalar 0), some (D.errF fl vdot h i)))
  | [], none, pre, h1, _, _, h4 => absurd (h1 rfl) (by simpa using h4)
  | [], some b, pre, _, h2, h3, _ => by
    obtain ⟨i, hi, rfl, hm⟩ := h2 b rfl
    exact .inr ⟨i, by simpa using hi, by simpa using fun j hj => ⟨hm j hj, h3 j hj⟩, rfl⟩
  | i :: is, best, pre, h1, h2, h3, _ => by
    by_cases ht : t ≤ D.errF fl vdot h i
    · exact .inl ⟨i, by simp, ht, by cases best <;> simp only [FirData.loopF, if_pos ht]⟩
    have hlt := not_le.1 ht
    have h3' : ∀ j ∈ pre ++ [i], D.errF fl vdot h j < t := by
      intro j hj
      rcases List.mem_append.1 hj with hj | hj
      · exact h3 j hj
      · rw [List.mem_singleton.1 hj]; exact hlt
    cases best with
    | none =>
      have := FirData.loopF_spec D h t is (some (D.errF fl vdot h i, D.gradF fl vdot h i)) (pre ++ [i]) (by simp)
        (by rintro b hb; cases hb
            refine ⟨i, by simp, rfl, fun j hj => ?_⟩
            rw [h1 rfl] at hj
            rw [List.mem_singleton.1 hj]) h3' (by simp)
      simp only [FirData.loopF, if_neg ht]
      simpa using this
    | some b =>
      obtain ⟨i0, hi0, rfl, hm⟩ := h2 b rfl
      by_cases hmax : D.errF fl vdot h i0 < D.errF fl vdot h i
      · have := FirData.loopF_spec D h t is (some (D.errF fl vdot h i, D.gradF fl vdot h i)) (pre ++ [i]) (by simp)
          (by rintro b hb; cases hb
              refine ⟨i, by simp, rfl, fun j hj => ?_⟩
              rcases List.mem_append.1 hj with hj | hj
              · exact (hm j hj).trans hmax.le
              · rw [List.mem_singleton.1 hj]) h3' (by simp)
        simp only [FirData.loopF, if_neg ht, if_pos hmax]
        simpa using this
      · have := FirData.loopF_spec D h t is (some (D.errF fl vdot h i0, D.gradF fl vdot h i0)) (pre ++ [i]) (by simp)
          (by rintro b hb; cases hb
              refine ⟨i0, by simp [hi0], rfl, fun j hj => ?_⟩
              rcases List.mem_append.1 hj with hj | hj
              · exact hm j hj
              · rw [List.mem_singleton.1 hj]; exact not_lt.1 hmax) h3' (by simp)
        simp only [FirData.loopF, if_neg ht, if_neg hmax]
        simpa using this

theorem FirData.callF_spec [NeZero m] (D : FirData n m) (h : Fin n → ℝ) (t : ℝ) :
    (∃ i, t ≤ D.errF fl vdot h i ∧ D.callF fl vdot h t = .ok ((D.gradF fl vdot h i, .scalar (fl (D.errF fl vdot h i - t))), none)) ∨
    (∃ i, (∀ j, D.errF fl vdot h j ≤ D.errF fl vdot h i ∧ D.errF fl vdot h j < t) ∧ D.callF fl vdot h t = .ok ((D.gradF fl vdot h i, .scalar 0), some (D.errF fl vdot h i))) := by
  have hne : List.finRange m ≠ [] := by
    intro h
    have := List.mem_finRange (0 : Fin m)
    rw [h] at this; simp at this
  rcases FirData.loopF_spec (fl := fl) (vdot := vdot) D h t (List.finRange m) none [] (by simp) (by simp) (by simp) (by simpa using hne) with ⟨i, -, h1, h2⟩ | ⟨i, -, h1, h2⟩
  · exact .inl ⟨i, h1, h2⟩
  · exact .inr ⟨i, fun j => h1 j (by simp), h2⟩

/-- The rounding error of the design problem in a box of size `R`. -/
noncomputable def firUnit (D : FirData n m) (R u : ℝ) : ℝ := 100 * (u * firSize D R ^ 2)

/-- **C142** (one call).  A rounded call on rounded data, at a point of a box of size `R`, raises nothing.  Its cut is central or deep and satisfies the subgradient inequality of the worst squared error
(of the exact data) in the box up to `firUnit`, for levels above zero.  A level it reports is the worst squared error of the point up to `firUnit`, and better than the level given. -/
theorem C142_oracle [NeZero m] (hfl : RelErr u fl) (hu0 : 0 ≤ u) (hu : u ≤ 1 / 50) (hv : VecDotErr u vdot) (hD : FirNear u D' D) (hR : 0 ≤ R) {x : Fin n → ℝ} (hx : ∀ k, |x k| ≤ R) (t : ℝ) :
    ∃ g β t1, D'.callF fl vdot x t = .ok ((g, .scalar β), t1) ∧ 0 ≤ β ∧
      (∀ z, (∀ k, |z k| ≤ R) → firWorst D z ≤ t1.getD t → g ⬝ᵥ (z - x) + β ≤ firWorst D z - t1.getD t + firUnit D R u) ∧
      ∀ s, t1 = some s → s < t ∧ |s - firWorst D x| ≤ firUnit D R u := by
  have hrow := fun i => C142_row hfl hu0 hu hv hD hR hx i
  have hU : firUnit D R u = 100 * (u * firSize D R ^ 2) := rfl
  have hZ : 0 ≤ u * firSize D R ^ 2 := by positivity
  rcases FirData.callF_spec (fl := fl) (vdot := vdot) D' x t with ⟨i, h1, h2⟩ | ⟨i, h1, h2⟩
  · obtain ⟨r1, r2, r3⟩ := hrow i
    have he := abs_le.1 (hfl (D'.errF fl vdot x i - t))
    have hb : 0 ≤ D'.errF fl vdot x i - t := by linarith
    rw [abs_of_nonneg hb] at he
    refine ⟨_, _, _, h2, ?_, fun z hz hzt => ?_, by simp⟩
    · have := mul_le_mul_of_nonneg_right hu hb
      linarith
    · have k1 := D.err_grad x z i
      have k2 := err_le_worst D z i
      have k3 := abs_le.1 (r3 z hz)
      have k4 := abs_le.1 r1
      have k5 := worst_nonneg D z
      rw [Option.getD_none] at hzt ⊢
      have k6 : u * (D'.errF fl vdot x i - t) ≤ u * (5 * firSize D R ^ 2) := mul_le_mul_of_nonneg_left (by have := le_abs_self (D'.errF fl vdot x i); linarith) hu0
      rw [hU]
      linarith
  · obtain ⟨r1, r2, r3⟩ := hrow i
    refine ⟨_, _, _, h2, le_rfl, fun z hz hzt => ?_, fun s hs => ?_⟩
    · have k1 := D.err_grad x z i
      have k2 := err_le_worst D z i
      have k3 := abs_le.1 (r3 z hz)
      have k4 := abs_le.1 r1
      rw [Option.getD_some, hU]
      linarith
    · obtain rfl := Option.some.inj hs
      refine ⟨(h1 i).2, abs_le.2 ⟨?_, ?_⟩⟩
      · have : firWorst D x ≤ D'.errF fl vdot x i + 36 * (u * firSize D R ^ 2) := Finset.sup'_le _ _ fun j _ => by
          have := (abs_le.1 (hrow j).1).1
          linarith [(h1 j).1]
        linarith
      · have := (abs_le.1 r1).2
        linarith [err_le_worst D x i]

theorem firF_back [NeZero m] {x : Fin n → ℝ} {t : ℝ} {w w' : Unit} {c : (Fin n → ℝ) × Beta} {t1 : Option ℝ} (h : D.omegaF fl vdot x t w = .ok (w', c, t1)) : t1.getD t ≤ t := by
  rcases FirData.callF_spec (fl := fl) (vdot := vdot) D x t with ⟨i, h1, h2⟩ | ⟨i, h1, h2⟩ <;>
    simp only [FirData.omegaF, h2, Except.map, Except.ok.injEq, Prod.mk.injEq] at h <;> rw [← h.2.2]
  · exact le_rfl
  · exact (h1 i).2.le

theorem worst_convex [NeZero m] (D : FirData n m) {x y : Fin n → ℝ} {θ : ℝ} (h0 : 0 ≤ θ) (h1 : θ ≤ 1) :
    firWorst D ((1 - θ) • x + θ • y) ≤ (1 - θ) * firWorst D x + θ * firWorst D y := by
  refine Finset.sup'_le _ _ fun i _ => ?_
  have k1 := mul_le_mul_of_nonneg_left ((D.err_grad ((1 - θ) • x + θ • y) x i).trans (err_le_worst D x i)) (sub_nonneg.2 h1)
  have k2 := mul_le_mul_of_nonneg_left ((D.err_grad ((1 - θ) • x + θ • y) y i).trans (err_le_worst D y i)) h0
  have e1 : (1 - θ) * (D.grad ((1 - θ) • x + θ • y) i ⬝ᵥ (x - ((1 - θ) • x + θ • y))) + θ * (D.grad ((1 - θ) • x + θ • y) i ⬝ᵥ (y - ((1 - θ) • x + θ • y))) = 0 := by
    simp only [dotProduct_sub, dotProduct_add, dotProduct_smul, smul_eq_mul]
    ring
  linarith

/-- The worst error in a box. -/
theorem worst_le [NeZero m] (D : FirData n m) (hR : 0 ≤ R) {x : Fin n → ℝ} (hx : ∀ k, |x k| ≤ R) : firWorst D x ≤ 2 * firSize D R ^ 2 := by
  refine Finset.sup'_le _ _ fun i _ => ?_
  have hrow := firSize_row D hR i
  have p1 : 0 ≤ (∑ k, (|D.aR i k| + 1)) * R := mul_nonneg (Finset.sum_nonneg fun k _ => by positivity) hR
  have p2 : 0 ≤ (∑ k, (|D.aI i k| + 1)) * R := mul_nonneg (Finset.sum_nonneg fun k _ => by positivity) hR
  have p5 := abs_nonneg (D.Hr i)
  have p6 := abs_nonneg (D.Hi i)
  have hv : VecDotErr 0 (fun x y : Fin n → ℝ => x ⬝ᵥ y) := fun x y => by simp
  have hf : RelErr 0 (fun x : ℝ => x) := fun x => by simp
  obtain ⟨a1, -⟩ := resid_close (Z := firSize D R) (a := D.aR i) (a' := D.aR i) (b := D.Hr i) (b' := D.Hr i) hf le_rfl (by norm_num) hv (by simp) (by simp) hx (by linarith) hR
  obtain ⟨b1, -⟩ := resid_close (Z := firSize D R) (a := D.aI i) (a' := D.aI i) (b := D.Hi i) (b' := D.Hi i) hf le_rfl (by norm_num) hv (by simp) (by simp) hx (by linarith) hR
  have a2 := sq_le_sq' (by linarith [neg_abs_le (D.aR i ⬝ᵥ x - D.Hr i)]) ((le_abs_self _).trans a1)
  have b2 := sq_le_sq' (by linarith [neg_abs_le (D.aI i ⬝ᵥ x - D.Hi i)]) ((le_abs_self _).trans b1)
  unfold FirData.err
  linarith

theorem firUnit_small (D : FirData n m) (R : ℝ) {ν : ℝ} (hν : 0 < ν) : ∃ ζ₀ : ℝ, 0 < ζ₀ ∧ ∀ u, 0 ≤ u → u ≤ ζ₀ → u ≤ 1 / 50 ∧ firUnit D R u ≤ ν := by
  obtain ⟨s, hs, hs'⟩ := small_of_cont (g := fun u => firUnit D R u) (c := ν) (by simp only [firUnit]; fun_prop) (by simpa [firUnit] using hν)
  exact ⟨min (1 / 50) s, by positivity, fun u hu0 hu => ⟨hu.trans (min_le_left _ _), hs' u hu0 (hu.trans (min_le_right _ _))⟩⟩

/-- **C142** (designs).  Let `f` be the worst squared error for the exact data `D`, let the first ellipsoid contain a ball, let `p` be any filter in the first ellipsoid, which may be optimal, and
`acc, ν > 0`.  There are a number `N` of iterations, a precision and a tolerance with the following, for stored data that are exact up to the precision and every start level.  A run with `max_it ≥ N`
that returns has a level below `f(p) + acc`.  If the start level is not, such a level is found within `N` oracle calls, before which nothing is raised, at a filter whose worst squared error is the
level up to `ν`. -/
theorem C142_fir [NeZero m] (D : FirData n m) {E₀ : Ell n} (hE : E₀.Proper) {a p : Fin n → ℝ} {ρ acc ν : ℝ} (hρ : 0 < ρ) (hball : euclBall a ρ ⊆ E₀.pts) (hpE : p ∈ E₀.pts) (hacc : 0 < acc)
    (hν : 0 < ν) :
    ∃ (N : ℕ) (ζ₀ tol₀ : ℝ), 0 < ζ₀ ∧ 0 < tol₀ ∧ ∀ u, 0 ≤ u → u ≤ ζ₀ → ∀ fl vdot, RelErr u fl → VecDotErr u vdot → ∀ D', FirNear u D' D → ∀ tol, tol ≤ tol₀ → ∀ t0 : ℝ,
      let Ω := fun x t => liftOracle (D'.omegaF fl vdot x t)
      let S := (Ell.spaceF fl vdot).beside Unit
      (∀ im : Int, (N : Int) ≤ im → ∀ w' xb t info, cuttingPlaneDc Ω S t0 ⟨im, tol⟩ ((), E₀) = .ok (w', xb, t, info) → t < firWorst D p + acc) ∧
      (firWorst D p + acc ≤ t0 → ∃ (j : ℕ) (log : _) (P : Unit × Ell n), j < N ∧ DcRounds Ω S tol t0 ((), E₀) j log P ∧
        ∃ cut s, D'.callF fl vdot P.2.xc (bestT t0 log) = .ok (cut, some s) ∧ s < firWorst D p + acc ∧ |s - firWorst D P.2.xc| ≤ ν) := by
  have hA : 0 ≤ ∑ i, |a i| + ρ := add_nonneg (Finset.sum_nonneg fun i _ => abs_nonneg _) hρ.le
  obtain ⟨N, R, ε₀, tol₀, ν₀, hR, hε₀, htol₀, hν₀, H⟩ := C141_room (W := Unit) (T := ℝ) (ι := fun t => (t : WithTop ℝ)) (Room := fun _ _ => True) (f := firWorst D) (η₀ := 1)
    (M := 2 * firSize D (∑ i, |a i| + ρ) ^ 2) hE (fun x y δ θ _ h0 h1 _ _ => ⟨trivial, worst_convex D h0 h1⟩) (fun _ _ _ _ _ => trivial) hρ one_pos hball
    (fun z hz => ⟨trivial, worst_le D hA fun i => (ball_coord hρ.le hz i).trans
      (by have := Finset.single_le_sum (f := fun i => |a i|) (fun i _ => abs_nonneg _) (Finset.mem_univ i); linarith)⟩) hpE trivial hacc
  obtain ⟨ζ, hζ, hsm⟩ := firUnit_small D R (lt_min hν₀ hν)
  refine ⟨N, min ε₀ ζ, tol₀, lt_min hε₀ hζ, htol₀, fun u hu0 hu fl vdot hfl hv D' hD tol htol t0 => ?_⟩
  obtain ⟨k1, k2⟩ := hsm u hu0 (hu.trans (min_le_right _ _))
  have hcall := fun {x} (hx : ∀ q, |x q| ≤ R) t => C142_oracle (x := x) hfl hu0 k1 hv hD hR hx t
  have hU0 : 0 ≤ firUnit D R u := by unfold firUnit; positivity
  have hbox : BoxRoomOracle (fun t : ℝ => (t : WithTop ℝ)) (fun _ _ => True) (firWorst D) R (firUnit D R u) (fun _ : Unit => True) (D'.omegaF fl vdot) := by
    refine ⟨fun x t w w' c t1 h => WithTop.coe_le_coe.2 (firF_back h), fun x hx t w _ => ?_⟩
    obtain ⟨g, β, t1, e1, e2, e3, -⟩ := hcall hx t
    refine ⟨(), g, β, t1, by simp [FirData.omegaF, e1, Except.map], trivial, e2, fun z hz δ hδ _ h => ?_⟩
    have h := WithTop.coe_le_coe.1 h
    have := e3 z hz (by linarith)
    linarith
  obtain ⟨r1, r2⟩ := H u hu0 (hu.trans (min_le_left _ _)) fl vdot hfl hv tol htol _ hU0 (k2.trans (min_le_left _ _)) _ _ hbox () trivial t0
  refine ⟨fun im him w' xb t info h => WithTop.coe_lt_coe.1 (r1 im him w' xb t info h), fun hbad => ?_⟩
  obtain ⟨j, log, P, Q', cut, s, q1, q2, q3, q4, q5, q6⟩ := r2 (WithTop.coe_le_coe.2 hbad)
  obtain ⟨g, β, t1, e1, -, -, e4⟩ := hcall q4 (bestT t0 log)
  simp only [FirData.omegaF, e1, Except.map, Except.ok.injEq, Prod.mk.injEq] at q5
  exact ⟨j, log, P, q1, q2, _, s, by rw [e1, q5.2.2], WithTop.coe_lt_coe.1 q6, (e4 s q5.2.2).2.trans (k2.trans (min_le_right _ _))⟩

/-- **C142** (the returned filter).  For any box `|h_k| ≤ B` and `ν > 0` there is a precision with the following, for any search space.  A run that returns gives the start level back with no filter, or
a filter and a level below the start level; if the filter is in the box, the level is its worst squared error for the exact data up to `ν`. -/
theorem C142_returned [NeZero m] (D : FirData n m) {B ν : ℝ} (hB : 0 ≤ B) (hν : 0 < ν) :
    ∃ ζ₀ : ℝ, 0 < ζ₀ ∧ ∀ u, 0 ≤ u → u ≤ ζ₀ → ∀ fl vdot, RelErr u fl → VecDotErr u vdot → ∀ D', FirNear u D' D →
      ∀ {V : Type} (S : Space V (Fin n → ℝ) ((Fin n → ℝ) × Beta) ℝ) (op : Options ℝ) (t0 : ℝ) (v v' : V) w' xb t info,
      cuttingPlaneDc (fun x t => liftOracle (D'.omegaF fl vdot x t)) (S.beside _) t0 op ((), v) = .ok ((w', v'), xb, t, info) →
      (xb = none ∧ t = t0) ∨ ∃ h, xb = some h ∧ t < t0 ∧ ((∀ k, |h k| ≤ B) → |t - firWorst D h| ≤ ν) := by
  obtain ⟨ζ, hζ, hsm⟩ := firUnit_small D B hν
  refine ⟨ζ, hζ, fun u hu0 hu fl vdot hfl hv D' hD V S op t0 v v' w' xb t info h => ?_⟩
  obtain ⟨k1, k2⟩ := hsm u hu0 hu
  obtain ⟨-, -, h | ⟨x, s, w, w1, cut, a1, -, a3, a4⟩⟩ := dc_any (P := fun t => t ≤ t0) (I := fun _ : Unit => True) (fun _ _ _ _ _ _ _ _ => trivial)
    (fun x t w w' cut t' _ ht hq => (firF_back hq).trans ht) trivial le_rfl h
  · exact .inl h
  · refine .inr ⟨x, a1, ?_, fun hx => ?_⟩
    · rcases FirData.callF_spec (fl := fl) (vdot := vdot) D' x s with ⟨i, h1, h2⟩ | ⟨i, h1, h2⟩ <;>
        simp only [FirData.omegaF, h2, Except.map, Except.ok.injEq, Prod.mk.injEq] at a4
      · simp at a4
      · rw [← Option.some.inj a4.2.2]
        exact (h1 i).2.trans_le a3
    · obtain ⟨g, β, t1, e1, -, -, e4⟩ := C142_oracle hfl hu0 k1 hv hD hB hx s
      simp only [FirData.omegaF, e1, Except.map, Except.ok.injEq, Prod.mk.injEq] at a4
      exact (e4 t a4.2.2).2.trans k2

/-- **C142** (the test).  `run_firfilter` of `tests/test_firfilter.py`: 32 taps, 480 frequencies, delay 8.25, `ell(10, 0)` with or without the deferral trick, start level 100, rounded to nearest with
`p` bits, all sums taken from left to right, on stored data that are exact up to `ζ₀`.  For any `acc, ν > 0` and any box there are a number of iterations, a number of bits, a `ζ₀` and a tolerance for which:
within `N` oracle calls, before which nothing is raised, a filter is found whose worst squared error is below `1/2 + acc + ν` (the optimum is `1/2`); and a run with `max_it ≥ N` that returns has a filter
and a level below `1/2 + acc`, which is the worst squared error of the filter up to `ν` if the filter is in the box. -/
theorem C142_test (nd : Bool) {acc ν B : ℝ} (hacc : 0 < acc) (hacc1 : acc ≤ 99) (hν : 0 < ν) (hB : 0 ≤ B) :
    ∃ (N p₀ : ℕ) (ζ₀ tol₀ : ℝ), 0 < ζ₀ ∧ 0 < tol₀ ∧ ∀ p fl, p₀ ≤ p → Nearest p fl → ∀ D', FirNear ζ₀ D' (firData 32 480 (delayResponse 8.25 480)) → ∀ tol, tol ≤ tol₀ →
      let Ω := fun x t => liftOracle (D'.omegaF fl (vecDot fl) x t)
      let S := (Ell.spaceF fl (vecDot fl)).beside Unit
      let w₀ : Unit × Ell 32 := ((), ⟨true, nd, 0, 1, 10⟩)
      (∀ im : Int, (N : Int) ≤ im → ∀ w' xb t info, cuttingPlaneDc Ω S 100 ⟨im, tol⟩ w₀ = .ok (w', xb, t, info) →
        ∃ h, xb = some h ∧ t < 1 / 2 + acc ∧ ((∀ k, |h k| ≤ B) → |t - chebErr (delayResponse 8.25 480) h| ≤ ν)) ∧
      ∃ (j : ℕ) (log : _) (P : Unit × Ell 32), j < N ∧ DcRounds Ω S tol 100 w₀ j log P ∧
        ∃ cut s, D'.callF fl (vecDot fl) P.2.xc (bestT 100 log) = .ok (cut, some s) ∧ s < 1 / 2 + acc ∧ |s - chebErr (delayResponse 8.25 480) P.2.xc| ≤ ν ∧
          chebErr (delayResponse 8.25 480) P.2.xc < 1 / 2 + acc + ν := by
  have hk : |(8.25 : ℝ) - ((8 : Fin 32).val : ℝ)| ≤ 1 / 2 := by norm_num
  have hopt := (C108_optimum (n := 32) (m := 480) (by norm_num) hk).2
  rw [sin_825] at hopt
  have e10 : (10 : ℝ) = √10 ^ 2 := (Real.sq_sqrt (by norm_num)).symm
  have hpts : (⟨true, nd, 0, 1, 10⟩ : Ell 32).pts = euclBall 0 √10 := by
    have := euclBall_eq_pts (n := 32) (by norm_num) 0 √10 true nd
    rwa [← e10] at this
  have hsq := oneTap_sq (n := 32) 8.25 8
  obtain ⟨N, ζ₀, tol₀, h1, h2, h3⟩ := C142_fir (firData 32 480 (delayResponse 8.25 480)) (E₀ := ⟨true, nd, 0, 1, 10⟩) (a := 0) (p := oneTap 8.25 8) (ρ := √10)
    ⟨by norm_num, Matrix.PosDef.one, by norm_num⟩ (by positivity) (by rw [hpts]) (by
      rw [hpts]
      change ∑ i, (oneTap 8.25 8 i - (0 : Fin 32 → ℝ) i) ^ 2 ≤ √10 ^ 2
      rw [← e10]
      simp only [Pi.zero_apply, sub_zero]
      rw [hsq]
      have := Real.cos_sq_le_one (Real.pi * (8.25 - ((8 : Fin 32).val : ℝ)))
      linarith) hacc hν
  obtain ⟨ζ₁, h4, h5⟩ := C142_returned (firData 32 480 (delayResponse 8.25 480)) hB hν
  rw [← chebErr_eq_worst, hopt] at h3
  simp only [← chebErr_eq_worst] at h3 h5
  obtain ⟨p₀, hp₀⟩ := bits_precise 0 32 (lt_min h1 h4)
  refine ⟨N, p₀, min ζ₀ ζ₁, tol₀, lt_min h1 h4, h2, fun p fl hpp hfl D' hD tol htol => ?_⟩
  obtain ⟨u, hu0, hu, e1, -, e3⟩ := hp₀ p fl hpp hfl
  have f1 : RelErr (min ζ₀ ζ₁) fl := fun x => (e1 x).trans (mul_le_mul_of_nonneg_right hu (abs_nonneg _))
  have f3 : VecDotErr (min ζ₀ ζ₁) (vecDot (n := 32) fl) := fun x y => (e3 x y).trans (mul_le_mul_of_nonneg_right hu (Finset.sum_nonneg fun _ _ => abs_nonneg _))
  obtain ⟨q1, q2⟩ := h3 _ (le_min h1.le h4.le) (min_le_left _ _) fl (vecDot fl) f1 f3 D' hD tol htol 100
  dsimp only at q1 q2 ⊢
  refine ⟨fun im him w' xb t info h => ?_, ?_⟩
  · have hlt := q1 im him w' xb t info h
    rcases h5 _ (le_min h1.le h4.le) (min_le_right _ _) fl (vecDot fl) f1 f3 D' hD _ _ 100 _ w'.2 w'.1 xb t info h with ⟨-, h⟩ | ⟨x, a1, -, a3⟩
    · rw [h] at hlt; linarith
    · exact ⟨x, a1, hlt, a3⟩
  · obtain ⟨j, log, P, r1, r2, cut, s, r3, r4, r5⟩ := q2 (by linarith)
    exact ⟨j, log, P, r1, r2, cut, s, r3, r4, r5, by have := abs_le.1 r5; linarith⟩

end Verif
