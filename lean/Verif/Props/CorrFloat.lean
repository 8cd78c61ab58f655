import Verif.Model.CorrFloat
import Verif.Props.Corr
import Verif.Props.EllFloatMore

/-! # C146: distance and polynomial matrices, and the fitted polynomial, with every operation rounded -/
namespace Verif
open FloatSpec Finset Matrix Ell
variable {n d : ℕ} {u γ : ℝ} {fl : ℝ → ℝ} {vdot : (Fin d → ℝ) → (Fin d → ℝ) → ℝ}

/-! ### Which entries are stored -/

/-- The value stored for a pair: the one computed for the smaller index first. -/
noncomputable def pairDistF (fl : ℝ → ℝ) (vdot : (Fin d → ℝ) → (Fin d → ℝ) → ℝ) (s : Fin n → Fin d → ℝ) (a b : Fin n) : ℝ := siteDistF fl vdot s (min a b) (max a b)

theorem storeDistF_apply (s : Fin n → Fin d → ℝ) {i j : Fin n} (hij : i < j) (D : Fin n → Fin n → ℝ) (a b : Fin n) :
    storeDistF fl vdot s i D j a b = if (a = i ∧ b = j) ∨ (a = j ∧ b = i) then pairDistF fl vdot s a b else D a b := by
  unfold storeDistF
  simp only [Function.update_apply]
  by_cases h1 : a = j
  · subst h1
    by_cases h2 : b = i
    · subst h2
      simp [pairDistF, min_eq_right hij.le, max_eq_left hij.le]
    · simp only [if_true, h2, and_false, or_false]
      rw [if_neg hij.ne', if_neg fun h => hij.ne' h.1]
      simp [h2]
  · by_cases h3 : a = i
    · subst h3
      by_cases h4 : b = j
      · subst h4; simp [h1, pairDistF, min_eq_left hij.le, max_eq_right hij.le]
      · simp [h1, h4]
    · simp [h1, h3]

theorem rowFoldF_apply (s : Fin n → Fin d → ℝ) (i : Fin n) (l : List (Fin n)) (hl : ∀ j ∈ l, i < j) (D : Fin n → Fin n → ℝ) (a b : Fin n) :
    l.foldl (storeDistF fl vdot s i) D a b = if (a = i ∧ b ∈ l) ∨ (b = i ∧ a ∈ l) then pairDistF fl vdot s a b else D a b := by
  induction l generalizing D with
  | nil => simp
  | cons j l ih =>
    rw [List.foldl_cons, ih (fun j hj => hl j (List.mem_cons_of_mem _ hj)), storeDistF_apply s (hl j List.mem_cons_self)]
    by_cases h1 : (a = i ∧ b ∈ l) ∨ (b = i ∧ a ∈ l)
    · rw [if_pos h1, if_pos]
      rcases h1 with ⟨h, h'⟩ | ⟨h, h'⟩
      · exact .inl ⟨h, List.mem_cons_of_mem _ h'⟩
      · exact .inr ⟨h, List.mem_cons_of_mem _ h'⟩
    · rw [if_neg h1]
      have : ((a = i ∧ b = j) ∨ (a = j ∧ b = i)) ↔ ((a = i ∧ b ∈ j :: l) ∨ (b = i ∧ a ∈ j :: l)) := by
        simp only [List.mem_cons]
        tauto
      simp only [this]

theorem matFoldF_apply (s : Fin n → Fin d → ℝ) (l : List (Fin n)) (D : Fin n → Fin n → ℝ) (a b : Fin n) :
    l.foldl (fun D i => ((List.finRange n).filter (i < ·)).foldl (storeDistF fl vdot s i) D) D a b =
      if (a ∈ l ∧ a < b) ∨ (b ∈ l ∧ b < a) then pairDistF fl vdot s a b else D a b := by
  induction l generalizing D with
  | nil => simp
  | cons i l ih =>
    rw [List.foldl_cons, ih, rowFoldF_apply s i _ (by simp)]
    simp only [List.mem_filter, List.mem_finRange, true_and, decide_eq_true_eq]
    by_cases h1 : (a ∈ l ∧ a < b) ∨ (b ∈ l ∧ b < a)
    · rw [if_pos h1, if_pos]
      rcases h1 with ⟨h, h'⟩ | ⟨h, h'⟩
      · exact .inl ⟨List.mem_cons_of_mem _ h, h'⟩
      · exact .inr ⟨List.mem_cons_of_mem _ h, h'⟩
    · rw [if_neg h1]
      have : ((a = i ∧ i < b) ∨ (b = i ∧ i < a)) ↔ ((a ∈ i :: l ∧ a < b) ∨ (b ∈ i :: l ∧ b < a)) := by
        simp only [List.mem_cons]
        constructor
        · rintro (⟨rfl, h⟩ | ⟨rfl, h⟩)
          · exact .inl ⟨.inl rfl, h⟩
          · exact .inr ⟨.inl rfl, h⟩
        · rintro (⟨rfl | h, h'⟩ | ⟨rfl | h, h'⟩)
          · exact .inl ⟨rfl, h'⟩
          · exact absurd (.inl ⟨h, h'⟩) h1
          · exact .inr ⟨rfl, h'⟩
          · exact absurd (.inr ⟨h, h'⟩) h1
      simp only [this]

theorem distanceMatrixF_apply (s : Fin n → Fin d → ℝ) (a b : Fin n) : distanceMatrixF fl vdot s a b = if a = b then 0 else pairDistF fl vdot s a b := by
  unfold distanceMatrixF
  rw [matFoldF_apply]
  by_cases h : a = b
  · subst h; simp
  · rw [if_neg h, if_pos]
    rcases lt_or_gt_of_ne h with h' | h'
    · exact .inl ⟨List.mem_finRange _, h'⟩
    · exact .inr ⟨List.mem_finRange _, h'⟩

/-! ### Errors -/

/-- One distance: relative error `(1+u)²(1+γ) - 1`. -/
theorem siteDistF_err (hfl : RelErr u fl) (hu0 : 0 ≤ u) (hu1 : u ≤ 1) (hγ0 : 0 ≤ γ) (hγ1 : γ ≤ 1) (hdot : VecDotErr γ vdot) (s : Fin n → Fin d → ℝ) (i j : Fin n) :
    |siteDistF fl vdot s i j - siteDist s i j| ≤ ((1 + u) ^ 2 * (1 + γ) - 1) * siteDist s i j := by
  unfold siteDistF siteDist
  dsimp only
  set h : Fin d → ℝ := fun k => s j k - s i k with hh
  set h' : Fin d → ℝ := fun k => fl (s j k - s i k) with hh'
  set S := ∑ k, h k * h k with hS
  set S' := ∑ k, h' k * h' k with hS'
  have hS0 : 0 ≤ S := sum_nonneg fun k _ => mul_self_nonneg _
  have hent : ∀ k, (1 - u) ^ 2 * (h k * h k) ≤ h' k * h' k ∧ h' k * h' k ≤ (1 + u) ^ 2 * (h k * h k) := fun k => by
    have h1 : |h' k - h k| ≤ u * |h k| := hfl _
    have h2 : |h' k| ≤ (1 + u) * |h k| := by
      have := abs_add_le (h' k - h k) (h k)
      rw [sub_add_cancel] at this
      linarith
    have h3 : (1 - u) * |h k| ≤ |h' k| := by
      have := abs_sub_abs_le_abs_sub (h k) (h' k)
      rw [abs_sub_comm (h k) (h' k)] at this
      linarith
    rw [← abs_mul_abs_self (h k), ← abs_mul_abs_self (h' k)]
    constructor
    · have := mul_le_mul h3 h3 (mul_nonneg (by linarith) (abs_nonneg _)) (abs_nonneg _)
      linarith
    · have := mul_le_mul h2 h2 (abs_nonneg _) (mul_nonneg (by linarith) (abs_nonneg _))
      linarith
  have h1 : (1 - u) ^ 2 * S ≤ S' := by rw [hS, mul_sum]; exact sum_le_sum fun k _ => (hent k).1
  have h2 : S' ≤ (1 + u) ^ 2 * S := by rw [hS, mul_sum]; exact sum_le_sum fun k _ => (hent k).2
  have h3 : |vdot h' h' - S'| ≤ γ * S' := by
    have := hdot h' h'
    simp only [abs_mul_self] at this
    exact this
  obtain ⟨h4, h5⟩ := abs_le.1 h3
  have hS'0 : 0 ≤ S' := sum_nonneg fun k _ => mul_self_nonneg _
  set D := √S with hD
  have hD0 : 0 ≤ D := Real.sqrt_nonneg _
  have hDS : D ^ 2 = S := Real.sq_sqrt hS0
  have lo : (1 - γ) * (1 - u) * D ≤ √(vdot h' h') := by
    refine Real.le_sqrt_of_sq_le ?_
    have e1 : ((1 - γ) * (1 - u) * D) ^ 2 = (1 - γ) * ((1 - γ) * ((1 - u) ^ 2 * S)) := by rw [← hDS]; ring
    have e2 := mul_le_mul_of_nonneg_left h1 (show 0 ≤ 1 - γ by linarith)
    have e3 : (1 - γ) * ((1 - γ) * ((1 - u) ^ 2 * S)) ≤ 1 * ((1 - γ) * ((1 - u) ^ 2 * S)) :=
      mul_le_mul_of_nonneg_right (by linarith) (mul_nonneg (by linarith) (by positivity))
    rw [e1]
    linarith
  have hi : √(vdot h' h') ≤ (1 + γ) * (1 + u) * D := by
    refine Real.sqrt_le_iff.2 ⟨by positivity, ?_⟩
    have e1 : ((1 + γ) * (1 + u) * D) ^ 2 = (1 + γ) * ((1 + γ) * ((1 + u) ^ 2 * S)) := by rw [← hDS]; ring
    have e2 := mul_le_mul_of_nonneg_left h2 (show 0 ≤ 1 + γ by linarith)
    have e3 : 1 * ((1 + γ) * ((1 + u) ^ 2 * S)) ≤ (1 + γ) * ((1 + γ) * ((1 + u) ^ 2 * S)) :=
      mul_le_mul_of_nonneg_right (by linarith) (by positivity)
    rw [e1]
    linarith
  have h6 := hfl (√(vdot h' h'))
  rw [abs_of_nonneg (Real.sqrt_nonneg _)] at h6
  obtain ⟨h7, h8⟩ := abs_le.1 h6
  have e1 := mul_le_mul_of_nonneg_left hi (show 0 ≤ 1 + u by linarith)
  have e2 := mul_le_mul_of_nonneg_left lo (show 0 ≤ 1 - u by linarith)
  have e3 : 0 ≤ (2 * u ^ 2 + 4 * u * γ) * D := by positivity
  rw [abs_le]
  constructor <;> linarith

/-- **C146** (distances).  With every operation rounded the distance matrix is still exactly symmetric with zero diagonal, whatever the rounding; its entries have relative errors of at most `(1+u)²(1+γ) - 1`. -/
theorem C146_distance (hfl : RelErr u fl) (hu0 : 0 ≤ u) (hu1 : u ≤ 1) (hγ0 : 0 ≤ γ) (hγ1 : γ ≤ 1) (hdot : VecDotErr γ vdot) (s : Fin n → Fin d → ℝ) (i j : Fin n) :
    distanceMatrixF fl vdot s i j = distanceMatrixF fl vdot s j i ∧ distanceMatrixF fl vdot s i i = 0 ∧
    |distanceMatrixF fl vdot s i j - dist (WithLp.toLp 2 (s i) : EuclideanSpace ℝ (Fin d)) (WithLp.toLp 2 (s j))| ≤
      ((1 + u) ^ 2 * (1 + γ) - 1) * dist (WithLp.toLp 2 (s i) : EuclideanSpace ℝ (Fin d)) (WithLp.toLp 2 (s j)) := by
  refine ⟨?_, by simp [distanceMatrixF_apply], ?_⟩
  · simp only [distanceMatrixF_apply, eq_comm (a := i), pairDistF, min_comm i, max_comm i]
  · rw [distanceMatrixF_apply]
    by_cases h : i = j
    · subst h; simp
    · rw [if_neg h, ← siteDist_eq, pairDistF]
      rcases lt_or_gt_of_ne h with h' | h'
      · rw [min_eq_left h'.le, max_eq_right h'.le]
        exact siteDistF_err hfl hu0 hu1 hγ0 hγ1 hdot s i j
      · rw [min_eq_right h'.le, max_eq_left h'.le, siteDist_comm]
        exact siteDistF_err hfl hu0 hu1 hγ0 hγ1 hdot s j i

/-- Relative errors of a rounded product. -/
theorem mul_relErr (hfl : RelErr u fl) (hu0 : 0 ≤ u) {a a' b b' A B : ℝ} (ha : 0 ≤ a) (hb : 0 ≤ b) (hA : 1 ≤ A) (h1 : |a' - a| ≤ (A - 1) * a) (h2 : |b' - b| ≤ (B - 1) * b) :
    |fl (a' * b') - a * b| ≤ ((1 + u) * (A * B) - 1) * (a * b) := by
  have h3 : |a'| ≤ A * a := by
    have := abs_add_le (a' - a) a
    rw [sub_add_cancel, abs_of_nonneg ha] at this
    linarith
  have h4 : |b'| ≤ B * b := by
    have := abs_add_le (b' - b) b
    rw [sub_add_cancel, abs_of_nonneg hb] at this
    linarith
  have h5 : |a' * b'| ≤ A * a * (B * b) := by
    rw [abs_mul]
    exact mul_le_mul h3 h4 (abs_nonneg _) (by positivity)
  have h6 : |a' * b' - a * b| ≤ (A * B - 1) * (a * b) := by
    have e1 : a' * b' - a * b = (a' - a) * b' + a * (b' - b) := by ring
    rw [e1]
    refine (abs_add_le _ _).trans ?_
    rw [abs_mul, abs_mul, abs_of_nonneg ha]
    have e2 := mul_le_mul h1 h4 (abs_nonneg _) (mul_nonneg (by linarith) ha)
    have e3 := mul_le_mul_of_nonneg_left h2 ha
    linarith
  have h7 := hfl (a' * b')
  have h8 := mul_le_mul_of_nonneg_left h5 hu0
  have h9 := abs_add_le (fl (a' * b') - a' * b') (a' * b' - a * b)
  rw [sub_add_sub_cancel] at h9
  linarith

/-- The powers the loop computes. -/
noncomputable def powF (fl : ℝ → ℝ) (x : ℝ) : ℕ → ℝ
  | 0 => 1
  | k + 1 => fl (powF fl x k * x)

theorem polyLoopF_eq (D1 : Fin n → Fin n → ℝ) : ∀ (k c : ℕ) (Sig : List (Fin n → Fin n → ℝ)),
    polyLoopF fl D1 k (fun i j => powF fl (D1 i j) c) Sig = Sig ++ (List.range k).map fun q => fun i j => powF fl (D1 i j) (c + 1 + q)
  | 0, c, Sig => by simp [polyLoopF]
  | k + 1, c, Sig => by
    have e : (fun i j => fl (powF fl (D1 i j) c * D1 i j)) = fun i j => powF fl (D1 i j) (c + 1) := rfl
    simp only [polyLoopF, e]
    rw [polyLoopF_eq D1 k (c + 1), List.range_succ_eq_map, List.map_cons, List.map_map, List.append_assoc]
    congr 1
    simp only [List.singleton_append, List.cons.injEq, add_zero, true_and]
    apply List.map_congr_left
    intro q _
    funext i j
    simp only [Function.comp_apply]
    congr 1
    omega

theorem polyMatrixF_eq (s : Fin n → Fin d → ℝ) (m : ℕ) (hm : 1 ≤ m) :
    polyMatrixF fl vdot s m = (List.range m).map fun q => fun i j => powF fl (distanceMatrixF fl vdot s i j) q := by
  have hone : (fun _ _ => 1 : Fin n → Fin n → ℝ) = fun i j => powF fl (distanceMatrixF fl vdot s i j) 0 := rfl
  unfold polyMatrixF
  simp only
  rw [hone, polyLoopF_eq]
  obtain ⟨m, rfl⟩ : ∃ m', m = m' + 1 := ⟨m - 1, by omega⟩
  have : (((m + 1 : ℕ) : ℤ) - 1).toNat = m := by omega
  rw [this, List.range_succ_eq_map, List.map_cons, List.map_map, List.singleton_append]
  congr 1
  apply List.map_congr_left
  intro q _
  funext i j
  simp only [Function.comp_apply]
  congr 1
  omega

theorem powF_err (hfl : RelErr u fl) (hu0 : 0 ≤ u) {x x' A : ℝ} (hx : 0 ≤ x) (hA : 1 ≤ A) (h : |x' - x| ≤ (A - 1) * x) : ∀ k, |powF fl x' k - x ^ k| ≤ (((1 + u) * A) ^ k - 1) * x ^ k
  | 0 => by simp [powF]
  | k + 1 => by
    have h1 := mul_relErr hfl hu0 (pow_nonneg hx k) hx (one_le_pow₀ (show 1 ≤ (1 + u) * A from one_le_mul_of_one_le_of_one_le (by linarith) hA)) (powF_err hfl hu0 hx hA h k) h
    rw [pow_succ, pow_succ, powF]
    convert h1 using 2
    ring

/-- **C146** (powers).  For `m ≥ 1` there are `m` matrices, each exactly symmetric whatever the rounding; the entries of the `q`-th are the `q`-th powers of the distances, with relative errors of at most
`((1+u)³(1+γ))^q - 1` (the first matrix is exact). -/
theorem C146_poly (hfl : RelErr u fl) (hu0 : 0 ≤ u) (hu1 : u ≤ 1) (hγ0 : 0 ≤ γ) (hγ1 : γ ≤ 1) (hdot : VecDotErr γ vdot) (s : Fin n → Fin d → ℝ) (m : ℕ) (hm : 1 ≤ m) :
    (polyMatrixF fl vdot s m).length = m ∧
    ∀ q i j, ∀ h : q < (polyMatrixF fl vdot s m).length, (polyMatrixF fl vdot s m)[q] i j = (polyMatrixF fl vdot s m)[q] j i ∧
      |(polyMatrixF fl vdot s m)[q] i j - dist (WithLp.toLp 2 (s i) : EuclideanSpace ℝ (Fin d)) (WithLp.toLp 2 (s j)) ^ q| ≤
        (((1 + u) ^ 3 * (1 + γ)) ^ q - 1) * dist (WithLp.toLp 2 (s i) : EuclideanSpace ℝ (Fin d)) (WithLp.toLp 2 (s j)) ^ q := by
  rw [polyMatrixF_eq s m hm]
  refine ⟨by simp, fun q i j h => ?_⟩
  obtain ⟨h1, -, h3⟩ := C146_distance hfl hu0 hu1 hγ0 hγ1 hdot s i j
  simp only [List.getElem_map, List.getElem_range]
  refine ⟨by rw [h1], ?_⟩
  have h4 := powF_err hfl hu0 dist_nonneg (one_le_mul_of_one_le_of_one_le (one_le_pow₀ (by linarith)) (by linarith)) h3 q
  rwa [show (1 + u) * ((1 + u) ^ 2 * (1 + γ)) = (1 + u) ^ 3 * (1 + γ) by ring] at h4

/-- **C146** (the fitted polynomial).  `np.poly1d` with coefficients `a` (lowest power first, as solved for) evaluates to `∑ a_k x^k` with an error of at most `((1+u)^(2·len) - 1)·∑ |a_k| |x|^k`. -/
theorem C146_horner (hfl : RelErr u fl) (hu0 : 0 ≤ u) (a : List ℝ) (x : ℝ) :
    |poly1dEvalF fl a.reverse x - ∑ k ∈ range a.length, a.getD k 0 * x ^ k| ≤ ((1 + u) ^ (2 * a.length) - 1) * ∑ k ∈ range a.length, |a.getD k 0| * |x| ^ k := by
  unfold poly1dEvalF
  induction a with
  | nil => simp
  | cons c a ih =>
    rw [List.reverse_cons, List.foldl_append, List.length_cons, sum_range_succ', sum_range_succ', List.foldl_cons, List.foldl_nil]
    simp only [List.getD_cons_succ, List.getD_cons_zero, pow_zero, mul_one]
    set y := List.foldl (fun y c => fl (fl (y * x) + c)) 0 a.reverse
    set p := ∑ k ∈ range a.length, a.getD k 0 * x ^ k with hp
    set A := ∑ k ∈ range a.length, |a.getD k 0| * |x| ^ k with hA
    have e1 : ∑ k ∈ range a.length, a.getD k 0 * x ^ (k + 1) = p * x := by rw [hp, sum_mul]; exact sum_congr rfl fun k _ => by ring
    have e2 : ∑ k ∈ range a.length, |a.getD k 0| * |x| ^ (k + 1) = A * |x| := by rw [hA, sum_mul]; exact sum_congr rfl fun k _ => by ring
    rw [e1, e2]
    have hpA : |p| ≤ A := (abs_sum_le_sum_abs _ _).trans (le_of_eq (sum_congr rfl fun k _ => by rw [abs_mul, abs_pow]))
    have hA0 : 0 ≤ A := (abs_nonneg _).trans hpA
    set G := (1 + u) ^ (2 * a.length) with hG
    have hG1 : 1 ≤ G := one_le_pow₀ (by linarith)
    rw [show (1 + u) ^ (2 * (a.length + 1)) = (1 + u) * ((1 + u) * G) by rw [hG]; ring]
    have b1 : |fl (y * x) - p * x| ≤ ((1 + u) * G - 1) * (A * |x|) := by
      have c1 := hfl (y * x)
      have c2 : |y * x - p * x| ≤ (G - 1) * A * |x| := by rw [← sub_mul, abs_mul]; exact mul_le_mul_of_nonneg_right ih (abs_nonneg _)
      have c3 : |y * x| ≤ G * A * |x| := by
        have := abs_sub_abs_le_abs_sub (y * x) (p * x)
        have c4 : |p * x| ≤ A * |x| := by rw [abs_mul]; exact mul_le_mul_of_nonneg_right hpA (abs_nonneg _)
        linarith
      have c5 := mul_le_mul_of_nonneg_left c3 hu0
      have c6 := abs_sub_le (fl (y * x)) (y * x) (p * x)
      linarith
    set w := fl (y * x)
    have b2 := hfl (w + c)
    have b3 : |w + c| ≤ (1 + u) * G * (A * |x|) + |c| := by
      have c1 := abs_add_le w c
      have c2 := abs_sub_abs_le_abs_sub w (p * x)
      have c4 : |p * x| ≤ A * |x| := by rw [abs_mul]; exact mul_le_mul_of_nonneg_right hpA (abs_nonneg _)
      linarith
    have b4 := mul_le_mul_of_nonneg_left b3 hu0
    have b5 := abs_sub_le (fl (w + c)) (w + c) (p * x + c)
    rw [show w + c - (p * x + c) = w - p * x by ring] at b5
    have b6 : u * |c| ≤ ((1 + u) * ((1 + u) * G) - 1) * |c| := by
      refine mul_le_mul_of_nonneg_right ?_ (abs_nonneg _)
      have := mul_le_mul_of_nonneg_left hG1 (show 0 ≤ (1 + u) * (1 + u) by positivity)
      have := mul_nonneg hu0 hu0
      linarith
    linarith

/-! ### Non-vacuity -/

/-- Double precision: sites `(0,0)`, `(3,4)`; the stored distance is `5` up to `5·10⁻¹⁵`, both ways the same. -/
example {fl : ℝ → ℝ} (hfl : Nearest 53 fl) : let D := distanceMatrixF fl (vecDot fl) (![![0, 0], ![3, 4]] : Fin 2 → Fin 2 → ℝ)
    D 0 1 = D 1 0 ∧ D 0 0 = 0 ∧ |D 0 1 - 5| ≤ 5e-15 := by
  have hr := hfl.relErr
  have hd : dist (WithLp.toLp 2 ((![![0, 0], ![3, 4]] : Fin 2 → Fin 2 → ℝ) 0) : EuclideanSpace ℝ (Fin 2)) (WithLp.toLp 2 ((![![0, 0], ![3, 4]] : Fin 2 → Fin 2 → ℝ) 1)) = 5 := by
    rw [EuclideanSpace.dist_eq]
    simp only [Fin.sum_univ_two, Real.dist_eq, sq_abs]
    rw [show (5 : ℝ) = Real.sqrt (5 ^ 2) by rw [Real.sqrt_sq]; norm_num]
    congr 1
    norm_num [Matrix.cons_val_zero, Matrix.cons_val_one]
  obtain ⟨h1, h2, h3⟩ := C146_distance hr (by positivity) (by norm_num) (by norm_num) (by norm_num) (vecDot_err (n := 2) hr (by positivity)) (![![0, 0], ![3, 4]] : Fin 2 → Fin 2 → ℝ) 0 1
  rw [hd] at h3
  exact ⟨h1, h2, h3.trans (by norm_num)⟩

/-- Double precision: `1 + 2x - x²` at `3` is `-2` up to `2·10⁻¹⁴`. -/
example {fl : ℝ → ℝ} (hfl : Nearest 53 fl) : |poly1dEvalF fl [-1, 2, 1] 3 - (-2)| ≤ 2e-14 := by
  have h := C146_horner hfl.relErr (by positivity) [1, 2, -1] 3
  simp only [List.reverse_cons, List.reverse_nil, List.nil_append, List.cons_append, List.length_cons, List.length_nil, sum_range_succ, range_zero, sum_empty, List.getD_cons_zero,
    List.getD_cons_succ, zero_add] at h
  norm_num at h ⊢
  exact h.trans (by norm_num)

end Verif
