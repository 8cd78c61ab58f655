import Verif.Model.KernFloat
import Verif.Props.SphereFloat
import Verif.Props.EllFloatSure
import Verif.Proofs.EllWide

/-!
# C149: the kernel matrix of `create_2d_isotropic` with every operation rounded
-/
namespace Verif
open FloatSpec Finset Matrix Ell
variable {n d : ℕ} {u γ κ : ℝ} {fl fexp : ℝ → ℝ} {vdot : (Fin d → ℝ) → (Fin d → ℝ) → ℝ}

/-! ### Which entries are stored -/

/-- The value stored for a pair: the one computed for the smaller index first. -/
def pairKernF (fl fexp : ℝ → ℝ) (vdot : (Fin d → ℝ) → (Fin d → ℝ) → ℝ) (κ : ℝ) (s : Fin n → Fin d → ℝ) (a b : Fin n) : ℝ := gaussKernF fl fexp vdot κ s (min a b) (max a b)

theorem pairKernF_comm (s : Fin n → Fin d → ℝ) (a b : Fin n) : pairKernF fl fexp vdot κ s a b = pairKernF fl fexp vdot κ s b a := by
  rw [pairKernF, pairKernF, min_comm, max_comm]

theorem storeKernF_apply (s : Fin n → Fin d → ℝ) {i j : Fin n} (hij : i ≤ j) (S : Fin n → Fin n → ℝ) (a b : Fin n) :
    storeKernF fl fexp vdot κ s i S j a b = if (a = i ∧ b = j) ∨ (a = j ∧ b = i) then pairKernF fl fexp vdot κ s a b else S a b := by
  have hp : gaussKernF fl fexp vdot κ s i j = pairKernF fl fexp vdot κ s i j := by rw [pairKernF, min_eq_left hij, max_eq_right hij]
  unfold storeKernF
  rw [hp]
  simp only [Function.update_apply]
  by_cases h1 : a = j
  · subst h1
    by_cases h2 : b = i
    · subst h2
      simp [pairKernF_comm s b a]
    · by_cases h3 : a = i
      · subst h3
        by_cases h4 : b = a
        · exact absurd h4 h2
        · simp [h4]
      · simp [h2, h3]
  · by_cases h3 : a = i
    · subst h3
      by_cases h4 : b = j
      · subst h4; simp [h1]
      · simp [h1, h4]
    · simp [h1, h3]

theorem kernRowF_apply (s : Fin n → Fin d → ℝ) (i : Fin n) (l : List (Fin n)) (hl : ∀ j ∈ l, i ≤ j) (S : Fin n → Fin n → ℝ) (a b : Fin n) :
    l.foldl (storeKernF fl fexp vdot κ s i) S a b = if (a = i ∧ b ∈ l) ∨ (b = i ∧ a ∈ l) then pairKernF fl fexp vdot κ s a b else S a b := by
  induction l generalizing S with
  | nil => simp
  | cons j l ih =>
    rw [List.foldl_cons, ih (fun j hj => hl j (List.mem_cons_of_mem _ hj)), storeKernF_apply s (hl j List.mem_cons_self)]
    simp only [List.mem_cons]
    split_ifs <;> first | rfl | (exfalso; tauto)

theorem kernFoldF_apply (s : Fin n → Fin d → ℝ) (l : List (Fin n)) (S : Fin n → Fin n → ℝ) (a b : Fin n) :
    l.foldl (fun S i => ((List.finRange n).filter (i ≤ ·)).foldl (storeKernF fl fexp vdot κ s i) S) S a b =
      if (a ∈ l ∧ a ≤ b) ∨ (b ∈ l ∧ b ≤ a) then pairKernF fl fexp vdot κ s a b else S a b := by
  induction l generalizing S with
  | nil => simp
  | cons i l ih =>
    rw [List.foldl_cons, ih, kernRowF_apply s i _ (by simp)]
    simp only [List.mem_cons, List.mem_filter, List.mem_finRange, true_and, decide_eq_true_eq]
    by_cases h1 : a ∈ l ∧ a ≤ b ∨ b ∈ l ∧ b ≤ a
    · rw [if_pos h1, if_pos (by tauto)]
    · rw [if_neg h1]
      by_cases h2 : a = i ∧ i ≤ b ∨ b = i ∧ i ≤ a
      · rw [if_pos h2, if_pos]
        rcases h2 with ⟨rfl, h2⟩ | ⟨rfl, h2⟩
        · exact .inl ⟨.inl rfl, h2⟩
        · exact .inr ⟨.inl rfl, h2⟩
      · rw [if_neg h2, if_neg]
        rintro (⟨rfl | h3, h4⟩ | ⟨rfl | h3, h4⟩)
        · exact h2 (.inl ⟨rfl, h4⟩)
        · exact h1 (.inl ⟨h3, h4⟩)
        · exact h2 (.inr ⟨rfl, h4⟩)
        · exact h1 (.inr ⟨h3, h4⟩)

theorem isoSigF_apply (s : Fin n → Fin d → ℝ) (a b : Fin n) : isoSigF fl fexp vdot κ s a b = pairKernF fl fexp vdot κ s a b := by
  unfold isoSigF
  rw [kernFoldF_apply, if_pos]
  simp [le_total]

/-! ### Errors -/

/-- What is assumed of `np.exp`: a relative error of at most `u`, and `exp(0) = 1`. -/
structure KernExpErr (u : ℝ) (fexp : ℝ → ℝ) : Prop where
  rel : ∀ x, |fexp x - Real.exp x| ≤ u * Real.exp x
  zero : fexp 0 = 1

theorem exp_neg_lip {x y : ℝ} (hx : 0 ≤ x) (hy : 0 ≤ y) : |Real.exp (-y) - Real.exp (-x)| ≤ |y - x| := by
  have key : ∀ {x y : ℝ}, 0 ≤ x → x ≤ y → Real.exp (-x) - Real.exp (-y) ≤ y - x := fun {x y} hx hxy => by
    have h1 := Real.add_one_le_exp (x - y)
    have h2 : Real.exp (-y) = Real.exp (-x) * Real.exp (x - y) := by rw [← Real.exp_add]; ring_nf
    have h3 : Real.exp (-x) ≤ 1 := Real.exp_le_one_iff.2 (by linarith)
    have h4 := Real.exp_pos (-x)
    rw [h2]
    nlinarith
  rcases le_total x y with h | h
  · rw [abs_of_nonneg (sub_nonneg.2 h), abs_sub_comm, abs_of_nonneg (sub_nonneg.2 (Real.exp_le_exp.2 (by linarith)))]
    exact key hx h
  · rw [abs_sub_comm y x, abs_of_nonneg (sub_nonneg.2 h), abs_of_nonneg (sub_nonneg.2 (Real.exp_le_exp.2 (by linarith)))]
    exact key hy h

/-- A relative error in the exponent changes the kernel by an absolute amount only. -/
theorem exp_neg_rel {x y η : ℝ} (hx : 0 ≤ x) (hη0 : 0 ≤ η) (hη : η ≤ 1 / 2) (h : |y - x| ≤ η * x) : |Real.exp (-y) - Real.exp (-x)| ≤ 2 * η := by
  have h' := abs_le.1 h
  have hy : x / 2 ≤ y := by nlinarith
  have e : ∀ z, Real.exp (-z) = Real.exp (-(x / 2)) * Real.exp (-(z - x / 2)) := fun z => by rw [← Real.exp_add]; ring_nf
  rw [e y, e x, ← mul_sub, abs_mul, abs_of_pos (Real.exp_pos _)]
  have h1 := exp_neg_lip (x := x - x / 2) (y := y - x / 2) (by linarith) (by linarith)
  rw [show y - x / 2 - (x - x / 2) = y - x by ring] at h1
  have h2 : Real.exp (-(x / 2)) * (x / 2) ≤ 1 := by
    rw [Real.exp_neg, inv_mul_le_iff₀ (Real.exp_pos _), mul_one]
    linarith [Real.add_one_le_exp (x / 2)]
  calc Real.exp (-(x / 2)) * |Real.exp (-(y - x / 2)) - Real.exp (-(x - x / 2))| ≤ Real.exp (-(x / 2)) * (η * x) := mul_le_mul_of_nonneg_left (h1.trans h) (Real.exp_pos _).le
    _ = 2 * η * (Real.exp (-(x / 2)) * (x / 2)) := by ring
    _ ≤ 2 * η := mul_le_of_le_one_right (by linarith) h2

/-- Products of numbers with relative errors. -/
theorem rel_mul {x x' y y' A B : ℝ} (hA : 1 ≤ A) (hx : |x' - x| ≤ (A - 1) * |x|) (hy : |y' - y| ≤ (B - 1) * |y|) : |x' * y' - x * y| ≤ (A * B - 1) * |x * y| := by
  rw [show x' * y' - x * y = (x' - x) * (y' - y) + (x' - x) * y + x * (y' - y) by ring, abs_mul]
  have h1 := abs_add_three ((x' - x) * (y' - y)) ((x' - x) * y) (x * (y' - y))
  have h2 := mul_le_mul hx hy (abs_nonneg _) (mul_nonneg (by linarith) (abs_nonneg _))
  have h3 := mul_le_mul_of_nonneg_right hx (abs_nonneg y)
  have h4 := mul_le_mul_of_nonneg_left hy (abs_nonneg x)
  simp only [abs_mul] at h1
  linarith

theorem rel_round (hfl : RelErr u fl) (hu0 : 0 ≤ u) {x x' A : ℝ} (hx : |x' - x| ≤ (A - 1) * |x|) : |fl x' - x| ≤ (A * (1 + u) - 1) * |x| := by
  have h1 := hfl x'
  have h2 : |x'| ≤ A * |x| := by
    have := abs_add_le (x' - x) x
    rw [sub_add_cancel] at this
    linarith
  have h3 := abs_sub_le (fl x') x' x
  have h4 := mul_le_mul_of_nonneg_left h2 hu0
  linarith

/-- One entry: within `2((1+u)⁴(1+γ) - 1) + u` of the exact one, however far apart the sites are. -/
theorem gaussKernF_err (hfl : RelErr u fl) (hu0 : 0 ≤ u) (hγ0 : 0 ≤ γ) (hdot : VecDotErr γ vdot) (hexp : KernExpErr u fexp) (hκ : |κ - 12 / 100| ≤ u * (12 / 100)) (hη : (1 + u) ^ 4 * (1 + γ) - 1 ≤ 1 / 2)
    (s : Fin n → Fin d → ℝ) (i j : Fin n) : |gaussKernF fl fexp vdot κ s i j - gaussKern s i j| ≤ 2 * ((1 + u) ^ 4 * (1 + γ) - 1) + u := by
  unfold gaussKernF gaussKern
  dsimp only
  set h : Fin d → ℝ := fun k => s j k - s i k with hh
  set h' : Fin d → ℝ := fun k => fl (s j k - s i k) with hh'
  set S := ∑ k, h k * h k with hS
  have hS0 : 0 ≤ S := sum_nonneg fun k _ => mul_self_nonneg _
  have hu1 : (1 : ℝ) ≤ 1 + u := by linarith
  have ent : ∀ k, |h' k * h' k - h k * h k| ≤ ((1 + u) * (1 + u) - 1) * (h k * h k) := fun k => by
    have e : |h' k - h k| ≤ (1 + u - 1) * |h k| := by rw [add_sub_cancel_left]; exact hfl _
    have := rel_mul hu1 e e
    rwa [abs_mul_self] at this
  have hsum : |∑ k, h' k * h' k - S| ≤ ((1 + u) * (1 + u) - 1) * S := by
    rw [hS, ← sum_sub_distrib, mul_sum]
    exact (abs_sum_le_sum_abs _ _).trans (sum_le_sum fun k _ => ent k)
  have hd : |vdot h' h' - S| ≤ ((1 + u) * (1 + u) * (1 + γ) - 1) * |S| := by
    have h1 := hdot h' h'
    simp only [abs_mul_self] at h1
    have h2 : ∑ k, h' k * h' k ≤ (1 + u) * (1 + u) * S := by linarith [(abs_le.1 hsum).2]
    have h3 := mul_le_mul_of_nonneg_left h2 hγ0
    have h4 := abs_sub_le (vdot h' h') (h' ⬝ᵥ h') S
    have h5 : |h' ⬝ᵥ h' - S| ≤ ((1 + u) * (1 + u) - 1) * S := hsum
    rw [abs_of_nonneg hS0]
    linarith
  have hk : |(-κ) - (-(12 / 100))| ≤ (1 + u - 1) * |(-(12 / 100) : ℝ)| := by
    rw [show -κ - -(12 / 100) = -(κ - 12 / 100) by ring, abs_neg, abs_neg, abs_of_pos (show (0 : ℝ) < 12 / 100 by norm_num), add_sub_cancel_left]
    exact hκ
  have hr := rel_round hfl hu0 (rel_mul hu1 hk hd)
  have eη : (1 + u) * ((1 + u) * (1 + u) * (1 + γ)) * (1 + u) - 1 = (1 + u) ^ 4 * (1 + γ) - 1 := by ring
  rw [eη] at hr
  set η := (1 + u) ^ 4 * (1 + γ) - 1 with hηd
  have hη0 : 0 ≤ η := by
    have h1 : (1 : ℝ) ≤ (1 + u) ^ 4 := one_le_pow₀ hu1
    nlinarith
  set x := fl (-κ * vdot h' h') with hx
  have hX0 : 0 ≤ 12 / 100 * S := by positivity
  have hr' : |-x - 12 / 100 * S| ≤ η * (12 / 100 * S) := by
    rw [show -x - 12 / 100 * S = -(x - -(12 / 100) * S) by ring, abs_neg]
    refine hr.trans (le_of_eq ?_)
    rw [neg_mul, abs_neg, abs_of_nonneg hX0]
  have hx0 : x ≤ 0 := by
    have := (abs_le.1 hr').1
    nlinarith
  have k1 := exp_neg_rel hX0 hη0 hη hr'
  rw [neg_neg] at k1
  have k2 := (hexp.rel x).trans (mul_le_of_le_one_right hu0 (Real.exp_le_one_iff.2 hx0))
  have k3 := abs_sub_le (fexp x) (Real.exp x) (Real.exp (-(12 / 100 * S)))
  rw [show -(12 / 100) * S = -(12 / 100 * S) by ring]
  linarith

/-- **C149** (entries).  The computed kernel matrix is exactly symmetric with ones on the diagonal, and every entry is within `2((1+u)⁴(1+γ) - 1) + u` of the exact one. -/
theorem C149_entries (hfl : RelErr u fl) (hu0 : 0 ≤ u) (hγ0 : 0 ≤ γ) (hdot : VecDotErr γ vdot) (hexp : KernExpErr u fexp) (hκ : |κ - 12 / 100| ≤ u * (12 / 100)) (hη : (1 + u) ^ 4 * (1 + γ) - 1 ≤ 1 / 2)
    (s : Fin n → Fin d → ℝ) (i j : Fin n) : isoSigF fl fexp vdot κ s i j = isoSigF fl fexp vdot κ s j i ∧ isoSigF fl fexp vdot κ s i i = 1 ∧
      |isoSigF fl fexp vdot κ s i j - isoSig s i j| ≤ 2 * ((1 + u) ^ 4 * (1 + γ) - 1) + u := by
  simp only [isoSigF_apply, isoSig_eq]
  refine ⟨pairKernF_comm s i j, ?_, ?_⟩
  · have f0 : fl 0 = 0 := by simpa using hfl 0
    have d0 : vdot 0 0 = 0 := by simpa using hdot 0 0
    have d0' : vdot (fun _ => 0) (fun _ => 0) = 0 := d0
    simp only [pairKernF, gaussKernF, min_self, max_self, sub_self, d0', mul_zero, f0, hexp.zero]
  · have := gaussKernF_err hfl hu0 hγ0 hdot hexp hκ hη s (min i j) (max i j)
    rcases le_total i j with h | h
    · rw [min_eq_left h, max_eq_right h] at this
      rwa [pairKernF, min_eq_left h, max_eq_right h]
    · rw [min_eq_right h, max_eq_left h, gaussKern_comm s j i] at this
      rwa [pairKernF, min_eq_right h, max_eq_left h]

/-! ### Positive definiteness survives -/

theorem form_diff {A B : Matrix (Fin n) (Fin n) ℝ} {ε : ℝ} (h : ∀ i j, |A i j - B i j| ≤ ε) (y : Fin n → ℝ) : |y ⬝ᵥ A *ᵥ y - y ⬝ᵥ B *ᵥ y| ≤ ε * (n * (y ⬝ᵥ y)) := by
  have e : y ⬝ᵥ A *ᵥ y - y ⬝ᵥ B *ᵥ y = ∑ i, ∑ j, y i * ((A i j - B i j) * y j) := by
    simp only [dotProduct, mulVec, mul_sum]
    rw [← sum_sub_distrib]
    refine sum_congr rfl fun i _ => ?_
    rw [← sum_sub_distrib]
    exact sum_congr rfl fun j _ => by ring
  have hb : ∀ i j, |y i * ((A i j - B i j) * y j)| ≤ ε * ((y i * y i + y j * y j) / 2) := fun i j => by
    rw [abs_mul, abs_mul]
    have h1 : |y i| * |y j| ≤ (y i * y i + y j * y j) / 2 := by
      rw [← abs_mul_abs_self (y i), ← abs_mul_abs_self (y j)]
      linarith [mul_self_nonneg (|y i| - |y j|)]
    have h2 := mul_le_mul (h i j) h1 (mul_nonneg (abs_nonneg _) (abs_nonneg _)) ((abs_nonneg _).trans (h i j))
    linarith
  rw [e]
  refine (abs_sum_le_sum_abs _ _).trans ((sum_le_sum fun i _ => (abs_sum_le_sum_abs _ _).trans (sum_le_sum fun j _ => hb i j)).trans (le_of_eq ?_))
  simp only [← mul_sum, dotProduct]
  congr 1
  simp only [← sum_div, sum_add_distrib, sum_const, card_univ, Fintype.card_fin, nsmul_eq_mul, ← mul_sum]
  ring

theorem posDef_near {A : Matrix (Fin n) (Fin n) ℝ} (hA : A.PosDef) : ∃ ε : ℝ, 0 < ε ∧ ∀ B : Matrix (Fin n) (Fin n) ℝ, Bᵀ = B → (∀ i j, |B i j - A i j| ≤ ε) → B.PosDef := by
  obtain ⟨c, hc⟩ : ∃ c : ℝ, ∀ i j, |A i j| ≤ c := by
    refine ⟨∑ i, ∑ j, |A i j|, fun i j => ?_⟩
    exact (single_le_sum (f := fun j => |A i j|) (fun j _ => abs_nonneg _) (mem_univ j)).trans
      (single_le_sum (f := fun i => ∑ j, |A i j|) (fun i _ => sum_nonneg fun j _ => abs_nonneg _) (mem_univ i))
  set L := |c| * n + 1 with hL
  have hL0 : 0 < L := by positivity
  have hb : ∀ y : Fin n → ℝ, y ⬝ᵥ A *ᵥ y ≤ L * (y ⬝ᵥ y) := fun y => by
    have h1 := form_diff (A := A) (B := 0) (ε := |c|) (fun i j => by simpa using (hc i j).trans (le_abs_self c)) y
    simp only [zero_mulVec, dotProduct_zero, sub_zero] at h1
    have h2 := (le_abs_self _).trans h1
    have h3 : 0 ≤ y ⬝ᵥ y := sum_nonneg fun i _ => mul_self_nonneg _
    linarith
  have hdet := hA.det_pos
  set μ := A.det / L ^ (n - 1) with hμ
  have hμ0 : 0 < μ := by positivity
  have hlow : ∀ y : Fin n → ℝ, μ * (y ⬝ᵥ y) ≤ y ⬝ᵥ A *ᵥ y := fun y => by
    have := min_eig hA hb y
    rw [hμ, div_mul_eq_mul_div, div_le_iff₀ (by positivity)]
    linarith
  refine ⟨μ / (n + 1), by positivity, fun B hB h => ?_⟩
  rw [Matrix.posDef_iff_dotProduct_mulVec]
  refine ⟨by simpa [IsHermitian, conjTranspose_eq_transpose_of_trivial] using hB, fun {y} hy => ?_⟩
  rw [star_trivial]
  have hyy : 0 < y ⬝ᵥ y := by
    have : 0 ≤ y ⬝ᵥ y := sum_nonneg fun i _ => mul_self_nonneg _
    exact lt_of_le_of_ne this fun h0 => hy (dotProduct_self_eq_zero.1 h0.symm)
  have h1 := (abs_le.1 (form_diff h y)).1
  have h2 := hlow y
  have h3 : μ / (n + 1) * (n * (y ⬝ᵥ y)) = μ * (y ⬝ᵥ y) - μ / (n + 1) * (y ⬝ᵥ y) := by field_simp; ring
  have h4 : 0 < μ / (n + 1) * (y ⬝ᵥ y) := by positivity
  linarith

/-- The exact kernel at moved sites. -/
theorem gaussKern_move {s s' : Fin n → Fin d → ℝ} {B e : ℝ} (he : 0 ≤ e) (hB : ∀ i k, |s i k| ≤ B) (h : ∀ i k, |s' i k - s i k| ≤ e) (i j : Fin n) : |gaussKern s' i j - gaussKern s i j| ≤ d * (2 * e * (4 * B + 2 * e)) := by
  unfold gaussKern
  have hS : ∀ t : Fin n → Fin d → ℝ, 0 ≤ ∑ k, (t j k - t i k) * (t j k - t i k) := fun t => sum_nonneg fun k _ => mul_self_nonneg _
  have h1 := exp_neg_lip (x := 12 / 100 * ∑ k, (s j k - s i k) * (s j k - s i k)) (y := 12 / 100 * ∑ k, (s' j k - s' i k) * (s' j k - s' i k)) (by have := hS s; positivity) (by have := hS s'; positivity)
  rw [neg_mul, neg_mul]
  refine h1.trans ?_
  rw [← mul_sub, abs_mul, abs_of_pos (by norm_num), ← sum_sub_distrib]
  have hk : ∀ k, |(s' j k - s' i k) * (s' j k - s' i k) - (s j k - s i k) * (s j k - s i k)| ≤ 2 * e * (4 * B + 2 * e) := fun k => by
    have a1 := abs_le.1 (h i k)
    have a2 := abs_le.1 (h j k)
    have a3 := abs_le.1 (hB i k)
    have a4 := abs_le.1 (hB j k)
    rw [show (s' j k - s' i k) * (s' j k - s' i k) - (s j k - s i k) * (s j k - s i k) = ((s' j k - s j k) - (s' i k - s i k)) * ((s' j k - s' i k) + (s j k - s i k)) by ring, abs_mul]
    exact mul_le_mul (abs_le.2 ⟨by linarith, by linarith⟩) (abs_le.2 ⟨by linarith, by linarith⟩) (abs_nonneg _) (by linarith)
  have h2 : |∑ k, ((s' j k - s' i k) * (s' j k - s' i k) - (s j k - s i k) * (s j k - s i k))| ≤ d * (2 * e * (4 * B + 2 * e)) := by
    refine (abs_sum_le_sum_abs _ _).trans ((sum_le_sum fun k _ => hk k).trans (le_of_eq ?_))
    simp
  have h3 := abs_nonneg (∑ k, ((s' j k - s' i k) * (s' j k - s' i k) - (s j k - s i k) * (s j k - s i k)))
  linarith

/-- **C149** (positive definite).  For pairwise different sites there are a precision and a distance of the sites from which on the computed kernel matrix is positive definite. -/
theorem C149_posdef {s : Fin n → Fin d → ℝ} (hs : Function.Injective s) : ∃ e₀ u₀ : ℝ, 0 < e₀ ∧ 0 < u₀ ∧ ∀ s' : Fin n → Fin d → ℝ, (∀ i k, |s' i k - s i k| ≤ e₀) → ∀ u, 0 ≤ u → u ≤ u₀ →
    ∀ fl fexp vdot κ, RelErr u fl → KernExpErr u fexp → VecDotErr u vdot → |κ - 12 / 100| ≤ u * (12 / 100) → (Matrix.of (isoSigF fl fexp vdot κ s')).PosDef := by
  obtain ⟨ε, hε, hnear⟩ := posDef_near ((C88_kernel_pd s).2 hs)
  obtain ⟨B, hB⟩ : ∃ B : ℝ, ∀ i k, |s i k| ≤ B := by
    refine ⟨∑ i, ∑ k, |s i k|, fun i k => ?_⟩
    exact (single_le_sum (f := fun k => |s i k|) (fun k _ => abs_nonneg _) (mem_univ k)).trans
      (single_le_sum (f := fun i => ∑ k, |s i k|) (fun i _ => sum_nonneg fun k _ => abs_nonneg _) (mem_univ i))
  obtain ⟨e₀, he₀, he⟩ := small_of_cont (g := fun e => d * (2 * e * (4 * B + 2 * e))) (c := ε / 2) (by fun_prop) (by simpa using hε)
  obtain ⟨u₁, hu₁, hu₁'⟩ := small_of_cont (g := fun u => (1 + u) ^ 4 * (1 + u) - 1) (c := 1 / 2) (by fun_prop) (by norm_num)
  obtain ⟨u₂, hu₂, hu₂'⟩ := small_of_cont (g := fun u => 2 * ((1 + u) ^ 4 * (1 + u) - 1) + u) (c := ε / 2) (by fun_prop) (by simpa using hε)
  refine ⟨e₀, min u₁ u₂, he₀, lt_min hu₁ hu₂, fun s' hs' u hu0 hu fl fexp vdot κ hfl hexp hdot hκ => ?_⟩
  have hE := fun i j => C149_entries hfl hu0 hu0 hdot hexp hκ (hu₁' u hu0 (hu.trans (min_le_left _ _))) s' i j
  refine hnear _ (Matrix.ext fun i j => (hE j i).1) fun i j => ?_
  have h1 := (hE i j).2.2.trans (hu₂' u hu0 (hu.trans (min_le_right _ _)))
  have h2 := (gaussKern_move he₀.le hB hs' i j).trans (he e₀ he₀.le le_rfl)
  rw [← isoSig_eq, ← isoSig_eq] at h2
  have h3 := abs_sub_le (isoSigF fl fexp vdot κ s' i j) (isoSig s' i j) (isoSig s i j)
  rw [of_apply, of_apply]
  linarith

theorem getD_lt {α : Type _} {l : List α} {a : α} {i : ℕ} (h : i < l.length) : l.getD i a = l[i] := by simp [h]

/-- **C149** (whole).  For `nx·ny > 0` sites there is a precision from which on the rounded `create_2d_sites` followed by the rounded kernel matrix gives a positive definite matrix, on which a Cholesky routine honouring its contract does
not raise. -/
theorem C149_create {nx ny : ℤ} (hn : 0 < nx * ny) : ∃ p₀ : ℕ, ∀ p, p₀ ≤ p → ∀ (flq : ℚ → ℚ) (fl : ℝ → ℝ), Nearest p flq → Nearest p fl → ∃ s, (∀ r, Create2dSitesF flq nx ny r ↔ r = .ok s) ∧ s.length = (nx * ny).toNat ∧
    ∀ fexp κ, KernExpErr (1 / 2 ^ p) fexp → |κ - 12 / 100| ≤ 1 / 2 ^ p * (12 / 100) →
      let K : Matrix (Fin (nx * ny).toNat) (Fin (nx * ny).toNat) ℝ := Matrix.of (isoSigF fl fexp (vecDot fl) κ fun i k => ((s.getD i 0 k : ℚ) : ℝ))
      K.PosDef ∧ ∀ chol, IsNpCholesky chol → ∃ A, chol K = .ok A := by
  obtain ⟨r, hr, -, hr'⟩ := C87_create_2d_sites nx ny
  obtain ⟨s₀, rfl, hlen₀, hnd, -⟩ := hr' hn
  set N := (nx * ny).toNat with hN
  have hNz : (N : ℤ) = nx * ny := Int.toNat_of_nonneg hn.le
  have hl₀ : s₀.length = N := by omega
  have hinj : Function.Injective fun i : Fin N => s₀.getD i 0 := fun i j hij => by
    simp only at hij
    rw [getD_lt (by rw [hl₀]; exact i.2), getD_lt (by rw [hl₀]; exact j.2)] at hij
    exact Fin.ext ((hnd.getElem_inj_iff).1 hij)
  obtain ⟨e₀, u₀, he₀, hu₀, hpd⟩ := C149_posdef hinj
  obtain ⟨w₀, hw₀, hw⟩ := small_of_cont (g := fun u => (1 + u) ^ 3 - 1) (c := u₀) (by fun_prop) (by simpa using hu₀)
  obtain ⟨L, hL⟩ : ∃ L : ℕ, N < 2 ^ L := ⟨N, Nat.lt_two_pow_self⟩
  obtain ⟨M, hM⟩ : ∃ M : ℕ, N < 3 ^ M := ⟨N, Nat.lt_pow_self (by norm_num)⟩
  obtain ⟨p₁, hp₁⟩ := exists_pow_lt_of_lt_one (show 0 < min w₀ (e₀ / (8 * (M + 3))) by positivity) (show (1 / 2 : ℝ) < 1 by norm_num)
  refine ⟨max p₁ (max (L + 2) ((M + 3) * 3 ^ M)), fun p hp flq fl hflq hfl => ?_⟩
  have q1 : p₁ ≤ p := (le_max_left _ _).trans hp
  have q2 : L + 2 ≤ p := (le_max_left _ _).trans ((le_max_right _ _).trans hp)
  have q3 : (M + 3) * 3 ^ M ≤ p := (le_max_right _ _).trans ((le_max_right _ _).trans hp)
  have hup : (1 / 2 ^ p : ℝ) ≤ min w₀ (e₀ / (8 * (M + 3))) := by
    rw [show (1 / 2 ^ p : ℝ) = (1 / 2) ^ p by rw [_root_.one_div_pow]]
    exact (pow_le_pow_of_le_one (by norm_num) (by norm_num) q1).trans hp₁.le
  obtain ⟨s, h1, h2, -, -, s₁, h3, h4, h5⟩ := C148_sites hflq hn (L := L) (M := M) (by rw [← hNz]; exact_mod_cast hL) (by rw [← hNz]; exact_mod_cast hM) q2 (q3.trans Nat.lt_two_pow_self.le)
  have : s₁ = s₀ := by simpa using (hr _).1 h3
  subst this
  have hls : s.length = N := by omega
  refine ⟨s, h1, hls, fun fexp κ hexp hκ => ?_⟩
  have hu0 : (0 : ℝ) ≤ 1 / 2 ^ p := by positivity
  have hrel := hfl.relErr
  have hM0 : (0 : ℝ) < 8 * (M + 3) := by positivity
  have hue : 8 * ((M : ℝ) + 3) / 2 ^ p ≤ e₀ := by
    have := hup.trans (min_le_right _ _)
    rw [le_div_iff₀ hM0] at this
    rw [div_eq_mul_one_div]
    linarith
  have hdist : ∀ (i : Fin N) (k : Fin 2), |((s.getD i 0 k : ℚ) : ℝ) - s₁.getD i 0 k| ≤ e₀ := fun i k => by
    have hi : (i : ℕ) < s.length := by rw [hls]; exact i.2
    have hi' : (i : ℕ) < s₁.length := by rw [hl₀]; exact i.2
    rw [getD_lt hi, getD_lt hi']
    obtain ⟨g1, g2⟩ := h5 i hi hi'
    fin_cases k
    · refine g1.trans (le_trans ?_ hue)
      refine div_le_div_of_nonneg_right ?_ (by positivity)
      have : (0 : ℝ) ≤ M := Nat.cast_nonneg _
      linarith
    · exact g2.trans hue
  have hw1 := hw _ hu0 (hup.trans (min_le_left _ _))
  set u : ℝ := 1 / 2 ^ p with hu
  set w := (1 + u) ^ 3 - 1 with hwd
  have hmono : ∀ i, i ≤ 3 → (1 + u) ^ i - 1 ≤ w := fun i hi => sub_le_sub_right (pow_le_pow_right₀ (by linarith) hi) 1
  have huw : u ≤ w := by have := hmono 1 (by omega); simpa using this
  have hw0 : 0 ≤ w := hu0.trans huw
  have r1 : RelErr w fl := fun x => (hrel x).trans (mul_le_mul_of_nonneg_right huw (abs_nonneg _))
  have r2 : KernExpErr w fexp := ⟨fun x => (hexp.rel x).trans (mul_le_mul_of_nonneg_right huw (Real.exp_pos _).le), hexp.zero⟩
  have r3 : VecDotErr w (vecDot (n := 2) fl) := fun x y => (vecDot_err hrel hu0 x y).trans (mul_le_mul_of_nonneg_right (hmono _ (by omega)) (sum_nonneg fun _ _ => abs_nonneg _))
  have hP := hpd _ hdist w hw0 hw1 fl fexp (vecDot fl) κ r1 r2 r3 (hκ.trans (mul_le_mul_of_nonneg_right huw (by norm_num)))
  refine ⟨hP, fun chol hc => ?_⟩
  obtain ⟨A, hA, -⟩ := hc.ok _ hP
  exact ⟨A, hA⟩

/-! ### Non-vacuity -/

/-- The rounded exponential with `exp(0) = 1` is such a function, and the rounded `0.12` such a constant. -/
theorem kernExpErr_ieee {p : ℕ} (hp : 1 ≤ p) : KernExpErr (1 / 2 ^ p) (fun x => (ieee p (Real.exp x) : ℝ)) := by
  have hfl : Nearest p (ieee p : ℝ → ℝ) := ieee_nearest hp
  refine ⟨fun x => ?_, ?_⟩
  · have := hfl.relErr (Real.exp x)
    rwa [abs_of_pos (Real.exp_pos x)] at this
  · rw [Real.exp_zero]
    simpa using hfl.rounding.exact _ (rep_pow (α := ℝ) 0)

/-- The 80 sites of the tests, in every large enough precision. -/
example : ∃ p₀ : ℕ, ∀ p, p₀ ≤ p → 1 ≤ p → ∃ s, (∀ r, Create2dSitesF (ieee p) 10 8 r ↔ r = .ok s) ∧
    (Matrix.of (isoSigF (ieee p) (fun x => ieee p (Real.exp x)) (vecDot (ieee p)) (ieee p (12 / 100)) fun (i : Fin 80) k => ((s.getD i 0 k : ℚ) : ℝ))).PosDef := by
  obtain ⟨p₀, h⟩ := C149_create (nx := 10) (ny := 8) (by norm_num)
  refine ⟨p₀, fun p hp hp1 => ?_⟩
  obtain ⟨s, h1, -, h2⟩ := h p hp (ieee p) (ieee p) (ieee_nearest hp1) (ieee_nearest hp1)
  have hk := (ieee_nearest (α := ℝ) hp1).relErr (12 / 100)
  rw [abs_of_pos (show (0 : ℝ) < 12 / 100 by norm_num)] at hk
  exact ⟨s, h1, (h2 _ _ (kernExpErr_ieee hp1) hk).1⟩

end Verif
