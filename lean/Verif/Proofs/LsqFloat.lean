import Verif.Props.LmiFloatRun
import Verif.Spec.LsqFloatSpec

/-! # Helpers for C139: the cuts of the rounded `lsq_oracle` keep points with room -/
namespace Verif
open FloatSpec Finset Matrix
variable {k m : ℕ} {u γ η δ ζ R : ℝ} {fl : ℝ → ℝ} {dot : ℕ → ℕ → (ℕ → ℝ) → (ℕ → ℝ) → ℝ} {F : Fin k → ℕ → ℕ → ℝ} {F0 : ℕ → ℕ → ℝ}

theorem entrySum_nonneg (F : Fin k → ℕ → ℕ → ℝ) (F0 : ℕ → ℕ → ℝ) (m : ℕ) : 0 ≤ entrySum F F0 m :=
  sum_nonneg fun _ _ => sum_nonneg fun _ _ => add_nonneg (abs_nonneg _) (sum_nonneg fun _ _ => abs_nonneg _)

theorem entry_le (F : Fin k → ℕ → ℕ → ℝ) (F0 : ℕ → ℕ → ℝ) {i j : ℕ} (hi : i < m) (hj : j < m) : |F0 i j| + ∑ q, |F q i j| ≤ entrySum F F0 m := by
  have h0 : ∀ i j, 0 ≤ |F0 i j| + ∑ q, |F q i j| := fun i j => add_nonneg (abs_nonneg _) (sum_nonneg fun q _ => abs_nonneg _)
  have h1 := single_le_sum (f := fun j => |F0 i j| + ∑ q, |F q i j|) (fun j _ => h0 i j) (mem_range.2 hj)
  have h2 := single_le_sum (f := fun i => ∑ j ∈ range m, (|F0 i j| + ∑ q, |F q i j|)) (fun i _ => sum_nonneg fun j _ => h0 i j) (mem_range.2 hi)
  exact h1.trans h2

/-- A combination of the `F_q` with coefficients of at most `c`. -/
theorem combo_abs_le (F : Fin k → ℕ → ℕ → ℝ) (F0 : ℕ → ℕ → ℝ) {i j : ℕ} (hi : i < m) (hj : j < m) {x : Fin k → ℝ} {c : ℝ} (hx : ∀ q, |x q| ≤ c) (hc : 0 ≤ c) :
    absCombo F x i j ≤ entrySum F F0 m * c := by
  have h1 : absCombo F x i j ≤ (∑ q, |F q i j|) * c := by
    unfold absCombo
    rw [sum_mul]
    exact sum_le_sum fun q _ => by rw [abs_mul]; exact mul_le_mul_of_nonneg_left (hx q) (abs_nonneg _)
  have h2 := entry_le F F0 hi hj
  have h3 := mul_le_mul_of_nonneg_right (show ∑ q, |F q i j| ≤ entrySum F F0 m by linarith [abs_nonneg (F0 i j)]) hc
  linarith

theorem pencil_abs_le (F : Fin k → ℕ → ℕ → ℝ) (F0 : ℕ → ℕ → ℝ) {i j : ℕ} (hi : i < m) (hj : j < m) {x : Fin k → ℝ} (hx : ∀ q, |x q| ≤ R) (hR : 0 ≤ R) :
    absPencil F F0 x i j ≤ entrySum F F0 m * (1 + R) := by
  have h1 : absCombo F x i j ≤ (∑ q, |F q i j|) * R := by
    unfold absCombo
    rw [sum_mul]
    exact sum_le_sum fun q _ => by rw [abs_mul]; exact mul_le_mul_of_nonneg_left (hx q) (abs_nonneg _)
  have h2 := entry_le F F0 hi hj
  have h3 := mul_le_mul_of_nonneg_right (show ∑ q, |F q i j| ≤ entrySum F F0 m by linarith [abs_nonneg (F0 i j)]) hR
  have h4 : 0 ≤ ∑ q, |F q i j| := sum_nonneg fun q _ => abs_nonneg _
  unfold absPencil
  linarith

theorem gram_abs_le (F : Fin k → ℕ → ℕ → ℝ) (F0 : ℕ → ℕ → ℝ) {i j : ℕ} (hi : i < m) (hj : j < m) {x : Fin k → ℝ} {t : ℝ} (hx : ∀ q, |x q| ≤ R) (ht : |t| ≤ R) :
    absGram m t (absPencil F F0 x) i j ≤ R + m * (entrySum F F0 m * (1 + R)) ^ 2 := by
  have hR : 0 ≤ R := (abs_nonneg t).trans ht
  unfold absGram
  have h1 : (if i = j then |t| else 0) ≤ R := by split_ifs <;> assumption
  have h2 : ∑ l ∈ range m, absPencil F F0 x l i * absPencil F F0 x l j ≤ ∑ l ∈ range m, (entrySum F F0 m * (1 + R)) ^ 2 := by
    refine sum_le_sum fun l hl => ?_
    rw [mem_range] at hl
    rw [sq]
    exact mul_le_mul (pencil_abs_le F F0 hl hi hx hR) (pencil_abs_le F F0 hl hj hx hR) (absPencil_nonneg F F0 x l j)
      ((absPencil_nonneg F F0 x l i).trans (pencil_abs_le F F0 hl hi hx hR))
  rw [sum_const, card_range, nsmul_eq_mul] at h2
  linarith

/-- The arithmetic of a cut: `b` and the error terms are bounded by multiples of `G`. -/
theorem cut_room {θ c b gz qz qx S A B G : ℝ} (hb : 0 ≤ b) (hθ0 : 0 ≤ θ) (hθ : θ ≤ 1 / 10) (hη0 : 0 ≤ η) (hη : η ≤ 1 / 10) (hG : 0 ≤ G)
    (hz : gz + b ≤ -qz + 5 * θ * (S + b) + η * A + B) (hx : b ≤ -qx + 5 * θ * (S + b) + η * A) (hqx : -qx ≤ G) (hS : S ≤ 11 / 10 * G) (hA : A ≤ G) (hB : B ≤ c * G) :
    gz + b ≤ -qz + (26 * θ + η + c) * G := by
  have k1 := mul_le_mul_of_nonneg_left hS hθ0
  have k2 := mul_le_mul_of_nonneg_left hA hη0
  have k3 := mul_le_mul_of_nonneg_right hθ hG
  have k4 := mul_le_mul_of_nonneg_right hθ hb
  have k5 := mul_le_mul_of_nonneg_right hη hG
  have h4 : b ≤ 4 * G := by linarith
  have k6 := mul_le_mul_of_nonneg_left h4 hθ0
  have k7 := mul_nonneg hθ0 hG
  linarith

/-- The sum over the gradient of the linear constraint. -/
theorem lin_grad_le {e : ℕ} {P : ℝ} (he : e ≤ m) (v : ℕ → ℝ) {x z : Fin k → ℝ} (hx : ∀ i < m, ∀ j < m, absCombo F x i j ≤ P) (hz : ∀ i < m, ∀ j < m, absCombo F z i j ≤ P) (hP : 0 ≤ P) :
    ∑ q, |z q - x q| * quadOn (absMat (F q)) 0 e (fun i => |v i|) ≤ 2 * (e * P * ∑ i ∈ range e, v i ^ 2) := by
  have k1 : ∑ q, |z q - x q| * quadOn (absMat (F q)) 0 e (fun i => |v i|) = quadOn (fun i j => ∑ q, |F q i j * (z q - x q)|) 0 e (fun i => |v i|) := by
    have := (quadOn_combo (fun q => absMat (F q)) (fun q => |z q - x q|) 0 e (fun i => |v i|)).symm
    rw [this]
    congr 1
    funext i j
    exact sum_congr rfl fun q _ => by simp only [absMat]; rw [abs_mul, mul_comm]
  rw [k1]
  have k2 := quadOn_abs_le (P := fun i j => ∑ q, |F q i j * (z q - x q)|) (e := e) (M := 2 * P) (fun i hi j hj => by
    have j3 : ∑ q, |F q i j * (z q - x q)| ≤ absCombo F z i j + absCombo F x i j := by
      unfold absCombo
      rw [← sum_add_distrib]
      exact sum_le_sum fun q _ => by rw [mul_sub]; exact abs_sub _ _
    linarith [hx i (by omega) j (by omega), hz i (by omega) j (by omega)]) (by linarith) v
  linarith

/-- The sum over the gradient of the quadratic constraint. -/
theorem quad_grad_le {e : ℕ} {P : ℝ} (he : e ≤ m) (v : ℕ → ℝ) {x z : Fin k → ℝ} (hx : ∀ i < m, ∀ j < m, absPencil F F0 x i j ≤ P) (hz : ∀ i < m, ∀ j < m, absPencil F F0 z i j ≤ P) (hP : 0 ≤ P) :
    ∑ q, |z q - x q| * absBilin m e v (F q) (absPencil F F0 x) ≤ 2 * (e * (m * P ^ 2) * ∑ i ∈ range e, v i ^ 2) := by
  have hcx : ∀ i < m, ∀ j < m, absCombo F x i j ≤ P := fun i hi j hj => le_trans (by unfold absPencil; linarith [abs_nonneg (F0 i j)]) (hx i hi j hj)
  have hcz : ∀ i < m, ∀ j < m, absCombo F z i j ≤ P := fun i hi j hj => le_trans (by unfold absPencil; linarith [abs_nonneg (F0 i j)]) (hz i hi j hj)
  set V := ∑ i ∈ range e, |v i| with hV
  have hV0 : 0 ≤ V := sum_nonneg fun i _ => abs_nonneg _
  have e1 : ∑ q, |z q - x q| * absBilin m e v (F q) (absPencil F F0 x) =
      ∑ l ∈ range m, (∑ i ∈ range e, |v i| * ∑ q, |F q i l * (z q - x q)|) * ∑ i ∈ range e, |v i| * absPencil F F0 x l i := by
    simp only [absBilin, mul_sum (s := range m)]
    rw [sum_comm]
    refine sum_congr rfl fun l _ => ?_
    simp only [← mul_assoc]
    rw [← sum_mul]
    congr 1
    simp only [mul_sum]
    rw [sum_comm]
    exact sum_congr rfl fun i _ => sum_congr rfl fun q _ => by rw [abs_mul]; ring
  rw [e1]
  have h1 : ∀ l ∈ range m, (∑ i ∈ range e, |v i| * ∑ q, |F q i l * (z q - x q)|) * (∑ i ∈ range e, |v i| * absPencil F F0 x l i) ≤ (2 * P * V) * (P * V) := by
    intro l hl
    rw [mem_range] at hl
    refine mul_le_mul ?_ ?_ (sum_nonneg fun i _ => mul_nonneg (abs_nonneg _) (absPencil_nonneg F F0 x l i)) (by positivity)
    · rw [hV, mul_sum]
      refine sum_le_sum fun i hi => ?_
      rw [mem_range] at hi
      have j3 : ∑ q, |F q i l * (z q - x q)| ≤ absCombo F z i l + absCombo F x i l := by
        unfold absCombo
        rw [← sum_add_distrib]
        exact sum_le_sum fun q _ => by rw [mul_sub]; exact abs_sub _ _
      have := mul_le_mul_of_nonneg_left (show ∑ q, |F q i l * (z q - x q)| ≤ 2 * P by linarith [hcx i (by omega) l hl, hcz i (by omega) l hl]) (abs_nonneg (v i))
      linarith
    · rw [hV, mul_sum]
      refine sum_le_sum fun i hi => ?_
      rw [mem_range] at hi
      have := mul_le_mul_of_nonneg_left (hx l hl i (by omega)) (abs_nonneg (v i))
      linarith
  have h2 := sum_le_sum h1
  rw [sum_const, card_range, nsmul_eq_mul] at h2
  have h3 := mul_le_mul_of_nonneg_left (abs_sum_sq_le e v) (show 0 ≤ 2 * (m * P ^ 2) by positivity)
  refine h2.trans (le_trans (le_of_eq ?_) (h3.trans (le_of_eq ?_)))
  · rw [hV]; ring
  · ring

end Verif
