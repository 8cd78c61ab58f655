import Mathlib.Tactic.Linarith
import Mathlib.Tactic.FieldSimp
import Mathlib.Order.Monotone.Union
import Verif.Model.Bspline
import Verif.Props.Corr

/-!
# C111: the spline correlation function

`generate_bspline_info` and `corr_bspline` with the splines of scipy written out.  `unif δ` are the knots `0, δ, 2δ, ...`.
-/
namespace Verif
open Finset

section unif
variable {δ : ℝ}

/-- Equally spaced knots. -/
def unif (δ : ℝ) (j : ℕ) : ℝ := j * δ

/-- The polynomial piece `l` of a quadratic spline on equally spaced knots; `u` is the position relative to knot `l`. -/
noncomputable def piece (c : ℕ → ℝ) (l : ℕ) (u : ℝ) : ℝ :=
  c (l - 2) * ((1 - u) ^ 2 / 2) + c (l - 1) * ((1 + 2 * u - 2 * u ^ 2) / 2) + c l * (u ^ 2 / 2)

theorem cox_two (hδ : δ ≠ 0) {l : ℕ} (hl : 2 ≤ l) (x : ℝ) (j : ℕ) :
    coxDeBoor (unif δ) l x 2 j = if j + 2 = l then (1 - (x / δ - l)) ^ 2 / 2 else
      if j + 1 = l then (1 + 2 * (x / δ - l) - 2 * (x / δ - l) ^ 2) / 2 else if j = l then (x / δ - l) ^ 2 / 2 else 0 := by
  simp only [coxDeBoor, unif]
  push_cast
  have h1 : ((j : ℝ) + 1 + 1) * δ - (j + 1) * δ = δ := by ring
  have h2 : ((j : ℝ) + 1) * δ - j * δ = δ := by ring
  have h3 : ((j : ℝ) + 0 + 1) * δ - j * δ = δ := by ring
  rcases eq_or_ne (j + 2) l with rfl | n2
  · rw [if_pos rfl, if_neg (by omega), if_neg (by omega), if_pos (by omega)]
    push_cast
    field_simp
    ring
  rcases eq_or_ne (j + 1) l with rfl | n1
  · rw [if_neg (by omega : ¬ j = j + 1), if_pos rfl, if_neg (by omega : ¬ j + 1 + 1 = j + 1), if_neg n2, if_pos rfl]
    push_cast
    field_simp
    ring
  rcases eq_or_ne j l with rfl | n0
  · rw [if_pos rfl, if_neg n1, if_neg (by omega : ¬ j + 1 + 1 = j), if_neg n2, if_neg n1, if_pos rfl]
    field_simp
    ring
  · rw [if_neg n0, if_neg n1, if_neg (by omega : ¬ j + 1 + 1 = l), if_neg n2, if_neg n1, if_neg n0]
    ring

theorem sum_cox (hδ : δ ≠ 0) {l m : ℕ} (hl : 2 ≤ l) (hm : l < m) (x : ℝ) (c : ℕ → ℝ) :
    ∑ j : Fin m, c j * coxDeBoor (unif δ) l x 2 j = piece c l (x / δ - l) := by
  rw [← Finset.sum_range fun j => c j * coxDeBoor (unif δ) l x 2 j]
  obtain ⟨k, rfl⟩ : ∃ k, l = k + 2 := ⟨l - 2, by omega⟩
  have hsub : ({k, k + 1, k + 2} : Finset ℕ) ⊆ range m := by
    intro a ha
    simp only [mem_insert, mem_singleton] at ha
    rw [mem_range]; omega
  rw [← Finset.sum_subset hsub fun j _ hj => ?_]
  · rw [Finset.sum_insert (by simp), Finset.sum_insert (by simp), Finset.sum_singleton]
    simp only [cox_two hδ hl]
    unfold piece
    rw [if_pos trivial, if_neg (by omega), if_pos trivial, if_neg (by omega), if_neg (by omega), if_pos trivial]
    simp only [Nat.add_sub_cancel, show k + 2 - 1 = k + 1 by omega]
    ring
  · simp only [mem_insert, mem_singleton, not_or] at hj
    rw [cox_two hδ hl, if_neg (by omega), if_neg (by omega), if_neg (by omega), mul_zero]

theorem intervalFrom_spec {t : ℕ → ℝ} {x : ℝ} (f l : ℕ) :
    l ≤ bsplIntervalFrom t x f l ∧ bsplIntervalFrom t x f l ≤ l + f ∧
    (bsplIntervalFrom t x f l = l ∨ t (bsplIntervalFrom t x f l) ≤ x) ∧
    (bsplIntervalFrom t x f l = l + f ∨ x < t (bsplIntervalFrom t x f l + 1)) := by
  induction f generalizing l with
  | zero => simp [bsplIntervalFrom]
  | succ f ih =>
    simp only [bsplIntervalFrom]
    split_ifs with h
    · obtain ⟨h1, h2, h3, h4⟩ := ih (l + 1)
      refine ⟨by omega, by omega, .inr ?_, ?_⟩
      · rcases h3 with h3 | h3
        · rw [h3]; exact h
        · exact h3
      · rcases h4 with h4 | h4
        · left; omega
        · exact .inr h4
    · exact ⟨le_rfl, by omega, .inl rfl, .inr (not_le.1 h)⟩

/-- The value of a quadratic spline with `m ≥ 3` coefficients on equally spaced knots: some piece `l`, the one containing `x` or, outside
the base interval `[2δ, mδ)`, the first or last one. -/
theorem bsplEval_unif (hδ : 0 < δ) {m : ℕ} (hm : 3 ≤ m) (c : ℕ → ℝ) (x : ℝ) :
    ∃ l, 2 ≤ l ∧ l < m ∧ (l = 2 ∨ l ≤ x / δ) ∧ (l + 1 = m ∨ x / δ < l + 1) ∧
      bsplEval 2 (unif δ) (fun j : Fin m => c j) x = piece c l (x / δ - l) := by
  obtain ⟨h1, h2, h3, h4⟩ := intervalFrom_spec (t := unif δ) (x := x) (m - 1 - 2) 2
  refine ⟨bsplInterval (unif δ) 2 m x, h1, ?_, ?_, ?_, ?_⟩
  · unfold bsplInterval; omega
  · unfold bsplInterval
    refine h3.imp id fun h => ?_
    rw [le_div_iff₀ hδ]; exact h
  · unfold bsplInterval
    refine h4.imp (fun h => by omega) fun h => ?_
    rw [div_lt_iff₀ hδ]
    have := h
    unfold unif at this
    push_cast at this
    exact this
  · exact sum_cox hδ.ne' h1 (by omega) x c

theorem piece_diff (c : ℕ → ℝ) (l : ℕ) (u v : ℝ) :
    piece c l v - piece c l u = (v - u) * ((c (l - 1) - c (l - 2)) * (1 - (u + v) / 2) + (c l - c (l - 1)) * ((u + v) / 2)) := by
  unfold piece; ring

theorem piece_glue (c : ℕ → ℝ) {l : ℕ} (hl : 2 ≤ l) : piece c l 1 = piece c (l + 1) 0 := by
  unfold piece
  rw [show l + 1 - 2 = l - 1 by omega, show l + 1 - 1 = l by omega]
  ring

/-- Within a piece the spline does not increase if its two slopes are not positive. -/
theorem piece_anti {c : ℕ → ℝ} {l : ℕ} (h1 : c (l - 1) ≤ c (l - 2)) (h2 : c l ≤ c (l - 1)) {u v : ℝ} (hu : 0 ≤ u) (huv : u ≤ v) (hv : v ≤ 1) :
    piece c l v ≤ piece c l u := by
  have h := piece_diff c l u v
  have e1 := mul_nonneg (sub_nonneg.2 h1) (by linarith : 0 ≤ 1 - (u + v) / 2)
  have e2 := mul_nonneg (sub_nonneg.2 h2) (by linarith : 0 ≤ (u + v) / 2)
  have : 0 ≤ (v - u) * -((c (l - 1) - c (l - 2)) * (1 - (u + v) / 2) + (c l - c (l - 1)) * ((u + v) / 2)) :=
    mul_nonneg (by linarith) (by nlinarith)
  linarith

/-- Across pieces. -/
theorem pieces_anti {c : ℕ → ℝ} {m : ℕ} (hc : ∀ i, i + 1 < m → c (i + 1) ≤ c i) {l l' : ℕ} (hl : 2 ≤ l) (hll : l ≤ l') (hm : l' < m) {x y : ℝ}
    (hx : l ≤ x) (hx1 : x ≤ l + 1) (hy : l' ≤ y) (hy1 : y ≤ l' + 1) (hxy : x ≤ y) : piece c l' (y - l') ≤ piece c l (x - l) := by
  have hd : ∀ i, 2 ≤ i → i < m → c (i - 1) ≤ c (i - 2) ∧ c i ≤ c (i - 1) := by
    intro i hi hm
    obtain ⟨k, rfl⟩ : ∃ k, i = k + 2 := ⟨i - 2, by omega⟩
    exact ⟨hc k (by omega), hc (k + 1) (by omega)⟩
  induction l', hll using Nat.le_induction generalizing y with
  | base => exact piece_anti (hd l hl hm).1 (hd l hl hm).2 (by linarith) (by linarith) (by linarith)
  | succ j hj ih =>
    push_cast at hy hy1
    have h1 := piece_anti (hd (j + 1) (by omega) hm).1 (hd (j + 1) (by omega) hm).2 (u := 0) (v := y - (j + 1 : ℕ)) le_rfl
      (by push_cast; linarith) (by push_cast; linarith)
    have hjl : (l : ℝ) ≤ j := by exact_mod_cast hj
    have h2 := ih (by omega) (y := j + 1) (by linarith) le_rfl (by linarith)
    rw [show (j : ℝ) + 1 - j = 1 by ring, piece_glue c (by omega)] at h2
    exact h1.trans h2

end unif

/-! ### What the matrices are -/

section info
variable {N d : ℕ}

/-- The distance of the first and the last site is what the knots are scaled with. -/
theorem bsplKnots_eq (s : Fin (N + 1) → Fin d → ℝ) (m : ℕ) :
    bsplKnots s m = unif (dist (WithLp.toLp 2 (s 0) : EuclideanSpace ℝ (Fin d)) (WithLp.toLp 2 (s (Fin.last N))) * (12 / 10) / (m + 2 : ℕ)) := by
  funext j
  unfold bsplKnots unif
  rw [dist_comm, EuclideanSpace.dist_eq]
  simp only [Real.dist_eq, sq_abs]

/-- **C111**: what the constructor `BSpline` accepts: enough coefficients, knots in order, and a base interval that is not a point. -/
theorem C111_check {α : Type _} [LinearOrder α] (k n : ℕ) (t : ℕ → α) :
    bsplCheck k n t = .ok () ↔ k < n ∧ MonotoneOn t (Set.Iic (n + k)) ∧ t k < t n := by
  have hm : (∀ i < n + k, t i ≤ t (i + 1)) ↔ MonotoneOn t (Set.Iic (n + k)) := by
    refine ⟨fun h => ?_, fun h i hi => h (by simp; omega) (by simpa using hi) (by omega)⟩
    intro i _ j hj hij
    obtain ⟨r, rfl⟩ := Nat.exists_eq_add_of_le hij
    clear hij
    induction r with
    | zero => exact le_rfl
    | succ r ih =>
      have hj' : i + (r + 1) ≤ n + k := hj
      exact (ih (show i + r ≤ n + k by omega)).trans (h (i + r) (by omega))
  unfold bsplCheck
  split_ifs with h1 h2 h3
  · simp; intro h; omega
  · simp; intro h4 _; exact (h3 n h4.le le_rfl).le
  · simp
    refine ⟨by omega, hm.1 h2, ?_⟩
    push Not at h3
    obtain ⟨i, h4, h5, h6⟩ := h3
    have hmon := hm.1 h2
    have h7 : t k ≤ t i := hmon (show k ≤ n + k by omega) (show i ≤ n + k by omega) h4
    have h8 : t i ≤ t n := hmon (show i ≤ n + k by omega) (show n ≤ n + k by omega) h5
    exact (lt_of_le_of_ne h7 (Ne.symm h6)).trans_le h8
  · simp; intro _ h; exact absurd (hm.2 h) h2

theorem bsplCheck_unif {δ : ℝ} (hδ : 0 ≤ δ) (m : ℕ) :
    bsplCheck 2 m (unif δ) = if m < 3 ∨ δ = 0 then .error .valueError else .ok () := by
  unfold bsplCheck
  by_cases hm : m < 3
  · rw [if_pos (by omega), if_pos (.inl hm)]
  rw [if_neg (by omega), if_neg]
  swap
  · rw [not_not]
    intro i _
    unfold unif
    push_cast
    nlinarith
  by_cases h0 : δ = 0
  · rw [if_pos (by intro i _ _; simp [unif, h0]), if_pos (.inr h0)]
  · rw [if_neg, if_neg (by tauto)]
    intro h
    have := h 3 (by omega) (by omega)
    unfold unif at this
    push_cast at this
    exact h0 (by linarith)

/-- **C111** (failure).  `generate_bspline_info(s, m)` raises `ValueError` exactly if `m` is 1 or 2, or the first and the last site coincide
(and `m ≥ 1`); nothing else is raised. -/
theorem C111_info_raises (s : Fin (N + 1) → Fin d → ℝ) (m : ℕ) (e : PyErr) :
    generateBsplineInfo s m = .error e ↔ e = .valueError ∧ 0 < m ∧ (m < 3 ∨ s 0 = s (Fin.last N)) := by
  have hd : (dist (WithLp.toLp 2 (s 0) : EuclideanSpace ℝ (Fin d)) (WithLp.toLp 2 (s (Fin.last N))) * (12 / 10) / (m + 2 : ℕ) = 0) ↔
      s 0 = s (Fin.last N) := by
    have h2 : ((m + 2 : ℕ) : ℝ) ≠ 0 := by positivity
    rw [div_eq_zero_iff, or_iff_left h2, mul_eq_zero, or_iff_left (by norm_num), dist_eq_zero]
    exact (WithLp.toLp_injective 2).eq_iff
  unfold generateBsplineInfo
  simp only [bsplKnots_eq]
  rcases Nat.eq_zero_or_pos m with rfl | hm
  · simp
  · rw [if_neg hm.ne', bsplCheck_unif (by positivity)]
    by_cases h : m < 3 ∨ dist (WithLp.toLp 2 (s 0) : EuclideanSpace ℝ (Fin d)) (WithLp.toLp 2 (s (Fin.last N))) * (12 / 10) / (m + 2 : ℕ) = 0
    · rw [if_pos h]
      rw [hd] at h
      simp only [Except.error.injEq, hm, h, and_true]
      exact eq_comm
    · rw [if_neg h]
      rw [hd] at h
      simp [hm, h]

/-- Spline evaluation is linear in the coefficients. -/
theorem bsplEval_linear {m : ℕ} (t : ℕ → ℝ) (c : Fin m → ℝ) (x : ℝ) :
    bsplEval 2 t c x = ∑ k, c k * bsplEval 2 t (Pi.single k 1) x := by
  unfold bsplEval
  refine Finset.sum_congr rfl fun k _ => ?_
  congr 1
  rw [Finset.sum_eq_single k]
  · simp
  · intro j _ hj; simp [hj]
  · simp

/-- **C111** (matrices).  Otherwise, for `m ≥ 3`: the knots are equally spaced from 0 to 1.2 times the distance of the first and last site; the matrices are
symmetric and add up to the all-ones matrix; their diagonal entries are `9/2, -11/2, 2, 0, ..., 0` (distance 0 lies outside the base
interval of the splines and is served by extrapolation). -/
theorem C111_info (s : Fin (N + 1) → Fin d → ℝ) {m : ℕ} (hm : 3 ≤ m) (hs : s 0 ≠ s (Fin.last N)) :
    ∃ Sig t δ, generateBsplineInfo s m = .ok (Sig, t) ∧ 0 < δ ∧ (∀ j, t j = j * δ) ∧
      t (m + 2) = 12 / 10 * dist (WithLp.toLp 2 (s 0) : EuclideanSpace ℝ (Fin d)) (WithLp.toLp 2 (s (Fin.last N))) ∧
      (∀ k i j, Sig k i j = Sig k j i) ∧ (∀ i j, ∑ k, Sig k i j = 1) ∧
      ∀ k i, Sig k i i = if k.val = 0 then 9 / 2 else if k.val = 1 then -11 / 2 else if k.val = 2 then 2 else 0 := by
  set δ := dist (WithLp.toLp 2 (s 0) : EuclideanSpace ℝ (Fin d)) (WithLp.toLp 2 (s (Fin.last N))) * (12 / 10) / (m + 2 : ℕ) with hδdef
  have hpos : 0 < dist (WithLp.toLp 2 (s 0) : EuclideanSpace ℝ (Fin d)) (WithLp.toLp 2 (s (Fin.last N))) := by
    rw [dist_pos]; exact fun h => hs (WithLp.toLp_injective 2 h)
  have hδ : 0 < δ := by positivity
  have hk := bsplKnots_eq s m
  rw [← hδdef] at hk
  refine ⟨bsplineSig (bsplEval 2) (bsplKnots s m) s, bsplKnots s m, δ, ?_, hδ, ?_, ?_, ?_, ?_, ?_⟩
  · unfold generateBsplineInfo
    simp only
    rw [if_neg (by omega), hk, bsplCheck_unif hδ.le, if_neg (by rintro (h | h); omega; exact hδ.ne' h)]
  · intro j; rw [hk]; rfl
  · rw [hk]; unfold unif
    rw [hδdef]
    have h2 : ((m + 2 : ℕ) : ℝ) ≠ 0 := by positivity
    field_simp
  · intro k i j; simp only [bsplineSig, (C54_distance_matrix s i j).2.1]
  · intro i j
    have := bsplEval_linear (bsplKnots s m) (fun _ : Fin m => 1) (constructDistanceMatrix s i j)
    simp only [one_mul] at this
    simp only [bsplineSig]
    rw [← this, hk]
    obtain ⟨l, -, -, -, -, h⟩ := bsplEval_unif hδ hm (fun _ => 1) (constructDistanceMatrix s i j)
    rw [h]
    unfold piece; ring
  · intro k i
    simp only [bsplineSig]
    rw [(C54_distance_matrix s i i).2.2, hk]
    obtain ⟨l, h1, h2, h3, -, h⟩ := bsplEval_unif hδ hm (fun j => if j = k.val then 1 else 0) 0
    have hl : l = 2 := by
      rcases h3 with h3 | h3
      · exact h3
      · rw [zero_div] at h3
        have : l ≤ 0 := by exact_mod_cast h3
        omega
    have e : (Pi.single k 1 : Fin m → ℝ) = fun j : Fin m => if j.val = k.val then 1 else 0 := by
      funext j
      rw [Pi.single_apply]
      simp only [Fin.ext_iff]
    rw [e, h, hl]
    unfold piece
    obtain ⟨k, hk⟩ := k
    rcases k with _ | _ | _ | k <;> norm_num
    omega

/-! ### Monotonicity of the fitted function -/

/-- **C111** (base interval).  If the `m ≥ 3` coefficients do not increase, the spline does not increase on the base interval `[t[2], t[m]]`, where its
values lie between the last and the first coefficient. -/
theorem C111_monotone {δ : ℝ} (hδ : 0 < δ) {m : ℕ} (hm : 3 ≤ m) {c : ℕ → ℝ} (hc : ∀ i, i + 1 < m → c (i + 1) ≤ c i) :
    AntitoneOn (bsplEval 2 (unif δ) (fun j : Fin m => c j)) (Set.Icc (2 * δ) (m * δ)) ∧
    ∀ x ∈ Set.Icc (2 * δ) (m * δ), c (m - 1) ≤ bsplEval 2 (unif δ) (fun j : Fin m => c j) x ∧
      bsplEval 2 (unif δ) (fun j : Fin m => c j) x ≤ c 0 := by
  have key : ∀ x ∈ Set.Icc (2 * δ) (m * δ), ∃ l : ℕ, 2 ≤ l ∧ l < m ∧ l ≤ x / δ ∧ x / δ ≤ l + 1 ∧ (l + 1 = m ∨ x / δ < l + 1) ∧
      bsplEval 2 (unif δ) (fun j : Fin m => c j) x = piece c l (x / δ - l) := by
    rintro x ⟨hx1, hx2⟩
    obtain ⟨l, h1, h2, h3, h4, h5⟩ := bsplEval_unif hδ hm c x
    refine ⟨l, h1, h2, ?_, ?_, h4, h5⟩
    · rcases h3 with rfl | h3
      · rw [le_div_iff₀ hδ]; exact_mod_cast hx1
      · exact h3
    · rcases h4 with h4 | h4
      · rw [div_le_iff₀ hδ]
        have : ((l : ℝ) + 1) = m := by exact_mod_cast h4
        rw [this]; exact hx2
      · exact h4.le
  have hanti : AntitoneOn (bsplEval 2 (unif δ) (fun j : Fin m => c j)) (Set.Icc (2 * δ) (m * δ)) := by
    intro x hx y hy hxy
    obtain ⟨l, a1, a2, a3, a4, a5, a6⟩ := key x hx
    obtain ⟨l', b1, b2, b3, b4, b5, b6⟩ := key y hy
    rw [a6, b6]
    have hxy' : x / δ ≤ y / δ := by gcongr
    have hll : l ≤ l' := by
      rcases b5 with h | h
      · omega
      · have : (l : ℝ) < l' + 1 := by linarith
        have : l < l' + 1 := by exact_mod_cast this
        omega
    exact pieces_anti hc a1 hll b2 a3 a4 b3 b4 hxy'
  refine ⟨hanti, fun x hx => ?_⟩
  have hm' : (3 : ℝ) ≤ m := by exact_mod_cast hm
  have hlo : 2 * δ ∈ Set.Icc (2 * δ) (m * δ) := ⟨le_rfl, by nlinarith⟩
  have hhi : m * δ ∈ Set.Icc (2 * δ) (m * δ) := ⟨by nlinarith, le_rfl⟩
  constructor
  · refine le_trans ?_ (hanti hx hhi hx.2)
    obtain ⟨l, a1, a2, a3, a4, a5, a6⟩ := key _ hhi
    rw [mul_div_assoc, div_self hδ.ne', mul_one] at *
    have hl : l + 1 = m := by
      rcases a5 with h | h
      · exact h
      · have : m < l + 1 := by exact_mod_cast h
        omega
    subst hl
    rw [a6]
    unfold piece
    obtain ⟨k, rfl⟩ : ∃ k, l = k + 2 := ⟨l - 2, by omega⟩
    have := hc (k + 1) (by omega)
    simp only [show k + 2 + 1 - 1 = k + 2 by omega, show k + 2 - 1 = k + 1 by omega]
    push_cast
    nlinarith
  · refine le_trans (hanti hlo hx hx.1) ?_
    obtain ⟨l, a1, a2, a3, a4, a5, a6⟩ := key _ hlo
    rw [mul_div_assoc, div_self hδ.ne', mul_one] at *
    have hl : l = 2 := by
      have : (l : ℝ) ≤ (2 : ℕ) := by exact_mod_cast a3
      have : l ≤ 2 := by exact_mod_cast this
      omega
    subst hl
    rw [a6]
    unfold piece
    have := hc 0 (by omega)
    norm_num at this ⊢
    linarith

theorem slope_nonpos {a b : ℝ} (h : ∀ ε, 0 < ε → ε ≤ 2 → a + b * ε ≤ 0) : a ≤ 0 := by
  by_contra ha
  rw [not_le] at ha
  have hb : 0 < |b| + 1 := by positivity
  have h1 := h (min 2 (a / (2 * (|b| + 1)))) (lt_min two_pos (by positivity)) (min_le_left _ _)
  have h2 : |b| * min 2 (a / (2 * (|b| + 1))) ≤ a / 2 := by
    calc |b| * min 2 (a / (2 * (|b| + 1))) ≤ (|b| + 1) * (a / (2 * (|b| + 1))) := by
          apply mul_le_mul (by linarith) (min_le_right _ _) (le_min two_pos.le (by positivity)) hb.le
      _ = a / 2 := by field_simp
  have h3 : -(|b| * min 2 (a / (2 * (|b| + 1)))) ≤ b * min 2 (a / (2 * (|b| + 1))) := by
    rw [← neg_mul]
    exact mul_le_mul_of_nonneg_right (neg_abs_le b) (le_min two_pos.le (by positivity))
  linarith

/-- **C111** (all knots).  Non-increasing coefficients are not enough for the whole span `[t[0], t[m+2]]` of the knots, which includes the distance 0: there
the spline does not increase exactly if in addition the first drop is at least two thirds of the second and the last at least two thirds of
the one before. -/
theorem C111_monotone_span {δ : ℝ} (hδ : 0 < δ) {m : ℕ} (hm : 3 ≤ m) {c : ℕ → ℝ} (hc : ∀ i, i + 1 < m → c (i + 1) ≤ c i) :
    AntitoneOn (bsplEval 2 (unif δ) (fun j : Fin m => c j)) (Set.Icc 0 ((m + 2) * δ)) ↔
      2 * (c 1 - c 2) ≤ 3 * (c 0 - c 1) ∧ 2 * (c (m - 3) - c (m - 2)) ≤ 3 * (c (m - 2) - c (m - 1)) := by
  have hm' : (3 : ℝ) ≤ m := by exact_mod_cast hm
  have hleft : ∀ x, x ≤ 2 * δ → bsplEval 2 (unif δ) (fun j : Fin m => c j) x = piece c 2 (x / δ - 2) := by
    intro x hx
    obtain ⟨l, h1, h2, h3, -, h5⟩ := bsplEval_unif hδ hm c x
    have hl : l = 2 := by
      rcases h3 with h3 | h3
      · exact h3
      · have : x / δ ≤ 2 := by rw [div_le_iff₀ hδ]; exact hx
        have : (l : ℝ) ≤ (2 : ℕ) := by push_cast; linarith
        have : l ≤ 2 := by exact_mod_cast this
        omega
    subst hl
    exact_mod_cast h5
  have hright : ∀ x, (m - 1) * δ ≤ x → bsplEval 2 (unif δ) (fun j : Fin m => c j) x = piece c (m - 1) (x / δ - (m - 1)) := by
    intro x hx
    obtain ⟨l, h1, h2, -, h4, h5⟩ := bsplEval_unif hδ hm c x
    have hl : l = m - 1 := by
      rcases h4 with h4 | h4
      · omega
      · have : (m : ℝ) - 1 ≤ x / δ := by rw [le_div_iff₀ hδ]; exact hx
        have : (m : ℝ) < (l + 2 : ℕ) := by push_cast; linarith
        have : m < l + 2 := by exact_mod_cast this
        omega
    subst hl
    rw [h5, Nat.cast_sub (by omega), Nat.cast_one]
  have i2 : m - 1 - 2 = m - 3 := by omega
  have i1 : m - 1 - 1 = m - 2 := by omega
  constructor
  · intro h
    constructor
    · have : 3 * (c 1 - c 0) - 2 * (c 2 - c 1) ≤ 0 := by
        apply slope_nonpos (b := (c 2 - 2 * c 1 + c 0) / 2)
        intro ε he he2
        have h1 := h (a := 0) (b := ε * δ) ⟨le_rfl, by positivity⟩ ⟨by positivity, by nlinarith⟩ (by positivity)
        rw [hleft 0 (by positivity), hleft (ε * δ) (by nlinarith), mul_div_assoc, div_self hδ.ne', mul_one, zero_div] at h1
        have h2 := piece_diff c 2 (0 - 2) (ε - 2)
        norm_num at h2
        have h3 : ε * ((c 1 - c 0) * (1 - (-2 + (ε - 2)) / 2) + (c 2 - c 1) * ((-2 + (ε - 2)) / 2)) ≤ 0 := by
          norm_num at h1; linarith
        have h4 := nonpos_of_mul_nonpos_right h3 he
        linarith
      linarith
    · have : 3 * (c (m - 1) - c (m - 2)) - 2 * (c (m - 2) - c (m - 3)) ≤ 0 := by
        apply slope_nonpos (b := -(c (m - 1) - 2 * c (m - 2) + c (m - 3)) / 2)
        intro ε he he2
        have h1 := h (a := (m + 2 - ε) * δ) (b := (m + 2) * δ) ⟨by apply mul_nonneg <;> linarith, by nlinarith⟩ ⟨by positivity, le_rfl⟩ (by nlinarith)
        rw [hright ((m + 2 - ε) * δ) (by nlinarith), hright ((m + 2) * δ) (by nlinarith), mul_div_assoc, mul_div_assoc, div_self hδ.ne', mul_one, mul_one] at h1
        have h2 := piece_diff c (m - 1) (m + 2 - ε - (m - 1)) (m + 2 - (m - 1))
        rw [i2, i1, show (m : ℝ) + 2 - (m - 1) - (m + 2 - ε - (m - 1)) = ε by ring] at h2
        have h3 := sub_nonpos.2 h1
        rw [h2] at h3
        have h4 := nonpos_of_mul_nonpos_right h3 he
        nlinarith
      linarith
  · rintro ⟨h1, h2⟩
    have ha := (C111_monotone hδ hm hc).1
    have hL : AntitoneOn (bsplEval 2 (unif δ) (fun j : Fin m => c j)) (Set.Icc 0 (2 * δ)) := by
      rintro x ⟨hx0, hx1⟩ y ⟨hy0, hy1⟩ hxy
      rw [hleft x hx1, hleft y hy1]
      have e := piece_diff c 2 (x / δ - 2) (y / δ - 2)
      norm_num at e
      have a1 : 0 ≤ x / δ := by positivity
      have a2 : y / δ ≤ 2 := by rw [div_le_iff₀ hδ]; exact hy1
      have a3 : x / δ ≤ y / δ := by gcongr
      have a4 := hc 0 (by omega)
      have : 0 ≤ (y / δ - x / δ) * -((c 1 - c 0) * (1 - (x / δ - 2 + (y / δ - 2)) / 2) + (c 2 - c 1) * ((x / δ - 2 + (y / δ - 2)) / 2)) := by
        apply mul_nonneg (by linarith)
        norm_num at a4
        nlinarith
      linarith
    have hR : AntitoneOn (bsplEval 2 (unif δ) (fun j : Fin m => c j)) (Set.Icc (m * δ) ((m + 2) * δ)) := by
      rintro x ⟨hx0, hx1⟩ y ⟨hy0, hy1⟩ hxy
      rw [hright x (by nlinarith), hright y (by nlinarith)]
      have e := piece_diff c (m - 1) (x / δ - (m - 1)) (y / δ - (m - 1))
      rw [i2, i1] at e
      have a1 : (m : ℝ) ≤ x / δ := by rw [le_div_iff₀ hδ]; exact hx0
      have a2 : y / δ ≤ m + 2 := by rw [div_le_iff₀ hδ]; exact hy1
      have a3 : x / δ ≤ y / δ := by gcongr
      have a4 : c (m - 1) ≤ c (m - 2) := by
        have := hc (m - 2) (by omega)
        rwa [show m - 2 + 1 = m - 1 by omega] at this
      set w := (x / δ - (m - 1) + (y / δ - (m - 1))) / 2 with hw
      have b1 : 1 ≤ w := by rw [hw]; linarith
      have b2 : w ≤ 3 := by rw [hw]; linarith
      have : 0 ≤ (y / δ - x / δ) * -((c (m - 2) - c (m - 3)) * (1 - w) + (c (m - 1) - c (m - 2)) * w) := by
        apply mul_nonneg (by linarith)
        nlinarith
      nlinarith
    have h12 := AntitoneOn.union_right hL ha (isGreatest_Icc (by positivity)) (isLeast_Icc (by nlinarith))
    rw [Set.Icc_union_Icc_eq_Icc (by positivity) (by nlinarith)] at h12
    have h3 := AntitoneOn.union_right h12 hR (isGreatest_Icc (by positivity)) (isLeast_Icc (by nlinarith))
    rwa [Set.Icc_union_Icc_eq_Icc (by positivity) (by nlinarith)] at h3

/-- **C111** (finding).  The coefficients `0, 0, -1` pass the monotonicity check, yet the fitted function rises from `-2` at distance 0 to `0` at the second knot. -/
theorem C111_not_monotone {δ : ℝ} (hδ : 0 < δ) : monoOracle ([0, 0, -1] : List ℝ) = none ∧
    bsplEval 2 (unif δ) (![0, 0, -1] : Fin 3 → ℝ) 0 = -2 ∧ bsplEval 2 (unif δ) (![0, 0, -1] : Fin 3 → ℝ) (2 * δ) = 0 := by
  have e : (![0, 0, -1] : Fin 3 → ℝ) = fun j : Fin 3 => if j.val = 2 then -1 else 0 := by
    funext j; fin_cases j <;> simp
  refine ⟨?_, ?_, ?_⟩
  · rw [(C53_mono_oracle _).1]
    intro i hi
    simp only [List.length_cons, List.length_nil] at hi
    obtain rfl | rfl : i = 0 ∨ i = 1 := by omega
    all_goals norm_num
  · obtain ⟨l, h1, h2, -, -, h⟩ := bsplEval_unif hδ le_rfl (fun j => if j = 2 then (-1 : ℝ) else 0) 0
    obtain rfl : l = 2 := by omega
    rw [e, h]; unfold piece; norm_num
  · obtain ⟨l, h1, h2, -, -, h⟩ := bsplEval_unif hδ le_rfl (fun j => if j = 2 then (-1 : ℝ) else 0) (2 * δ)
    obtain rfl : l = 2 := by omega
    rw [e, h]; unfold piece
    rw [mul_div_assoc, div_self hδ.ne']; norm_num

/-- **C111** (finding).  When the coefficient vector itself is the search variable (as with `mle_oracle`), `mono_decreasing_oracle2` leaves its last entry
unchecked: `0, 0, 1` is passed on to the wrapped oracle, and the fitted function rises on the base interval. -/
theorem C111_last_unchecked {δ : ℝ} (hδ : 0 < δ) {W : Type _} (basis : W → List ℝ → ℝ → Except PyErr (W × (List ℝ × ℝ) × Option ℝ)) (w : W) (t : ℝ) :
    monoDecreasing2 basis w [0, 0, 1] t = basis w [0, 0, 1] t ∧
    bsplEval 2 (unif δ) (![0, 0, 1] : Fin 3 → ℝ) (2 * δ) = 0 ∧ bsplEval 2 (unif δ) (![0, 0, 1] : Fin 3 → ℝ) (3 * δ) = 1 / 2 := by
  have e : (![0, 0, 1] : Fin 3 → ℝ) = fun j : Fin 3 => if j.val = 2 then 1 else 0 := by
    funext j; fin_cases j <;> simp
  refine ⟨?_, ?_, ?_⟩
  · exact (C53_mono_decreasing2 basis w _ t).1 (by intro i hi; simp at hi; subst hi; simp)
  · obtain ⟨l, h1, h2, -, -, h⟩ := bsplEval_unif hδ le_rfl (fun j => if j = 2 then (1 : ℝ) else 0) (2 * δ)
    obtain rfl : l = 2 := by omega
    rw [e, h]; unfold piece
    rw [mul_div_assoc, div_self hδ.ne']; norm_num
  · obtain ⟨l, h1, h2, -, -, h⟩ := bsplEval_unif hδ le_rfl (fun j => if j = 2 then (1 : ℝ) else 0) (3 * δ)
    obtain rfl : l = 2 := by omega
    rw [e, h]; unfold piece
    rw [mul_div_assoc, div_self hδ.ne']; norm_num

/-! ### `corr_bspline` -/

/-- **C111** (`corr_bspline`).  For `m ≥ 3` and distinct first and last sites the call raises what the solver raises, and otherwise returns the spline with the
solver's coefficients; at the distance of two sites it takes the value of the fitted matrix `Σ c_k Sig_k` there, `Sig` being the matrices given to the oracle. -/
theorem C111_corr_bspline {m : ℕ} {O P Y I : Type _} (y : Y) (s : Fin (N + 1) → Fin d → ℝ) (hm : 3 ≤ m) (hs : s 0 ≠ s (Fin.last N))
    (oracle : (Fin m → Fin (N + 1) → Fin (N + 1) → ℝ) → Y → O) (mono : O → P) (corrCore : Y → ℕ → P → Except PyErr ((Fin m → ℝ) × I × Bool)) :
    ∃ Sig t, generateBsplineInfo s m = .ok (Sig, t) ∧
      (∀ e, corrCore y m (mono (oracle Sig y)) = .error e → corrBsplineSci y s oracle mono corrCore = .error e) ∧
      ∀ c it fe, corrCore y m (mono (oracle Sig y)) = .ok (c, it, fe) →
        corrBsplineSci y s oracle mono corrCore = .ok ((t, c), it, fe) ∧
        ∀ i j, bsplEval 2 t c (dist (WithLp.toLp 2 (s i) : EuclideanSpace ℝ (Fin d)) (WithLp.toLp 2 (s j))) = ∑ k, c k * Sig k i j := by
  obtain ⟨Sig, t, δ, h1, hδ, h2, -, h3, -⟩ := C111_info s hm hs
  have hS : Sig = bsplineSig (bsplEval 2) t s := by
    unfold generateBsplineInfo at h1
    simp only at h1
    split at h1
    · simp at h1
    · simp only [Except.ok.injEq, Prod.mk.injEq] at h1
      rw [← h1.1, ← h1.2]
  have ht : t = unif δ := funext h2
  refine ⟨Sig, t, h1, fun e he => ?_, fun c it fe hc => ⟨?_, fun i j => ?_⟩⟩
  · unfold corrBsplineSci; simp only [h1, he]
  · unfold corrBsplineSci
    simp only [h1, hc]
    rw [ht, bsplCheck_unif hδ.le, if_neg (by rintro (h | h); omega; exact hδ.ne' h)]
  · rw [bsplEval_linear, hS]
    simp only [bsplineSig, (C54_distance_matrix s i j).1]

/-- **C111** (`corr_bspline`, failure).  With `m = 1, 2` or coinciding first and last sites `ValueError` is raised before the solver is called. -/
theorem C111_corr_bspline_raises {m : ℕ} {O P Y I : Type _} (y : Y) (s : Fin (N + 1) → Fin d → ℝ) (hm0 : 0 < m) (h : m < 3 ∨ s 0 = s (Fin.last N))
    (oracle : (Fin m → Fin (N + 1) → Fin (N + 1) → ℝ) → Y → O) (mono : O → P) (corrCore : Y → ℕ → P → Except PyErr ((Fin m → ℝ) × I × Bool)) :
    corrBsplineSci y s oracle mono corrCore = .error .valueError := by
  unfold corrBsplineSci
  rw [(C111_info_raises s m .valueError).2 ⟨rfl, hm0, h⟩]

end info

/-- The hypotheses are met: two sites at distance 5, three coefficients. -/
example : ∃ Sig t δ, generateBsplineInfo (![![0, 0], ![3, 4]] : Fin 2 → Fin 2 → ℝ) 3 = .ok (Sig, t) ∧ 0 < δ ∧ (∀ j, t j = j * δ) ∧ Sig 1 0 0 = -11 / 2 := by
  obtain ⟨Sig, t, δ, h1, h2, h3, -, -, -, h4⟩ := C111_info (N := 1) (![![0, 0], ![3, 4]] : Fin 2 → Fin 2 → ℝ) (m := 3) le_rfl
    (by intro h; have := congrFun h 0; simp at this)
  exact ⟨Sig, t, δ, h1, h2, h3, by rw [h4]; simp⟩

/-- Coefficients `4, 2, 1, 0, -2` meet both conditions: the fitted function does not increase on the whole span. -/
example : AntitoneOn (bsplEval 2 (unif 1) (fun j : Fin 5 => (![4, 2, 1, 0, -2] : Fin 5 → ℝ) j)) (Set.Icc 0 7) := by
  have := C111_monotone_span (δ := 1) one_pos (m := 5) (by norm_num) (c := fun j => if j = 0 then 4 else if j = 1 then 2 else if j = 2 then 1 else if j = 3 then 0 else -2)
    (by intro i hi; obtain rfl | rfl | rfl | rfl : i = 0 ∨ i = 1 ∨ i = 2 ∨ i = 3 := by omega
        all_goals norm_num)
  have h2 := this.2 ⟨by norm_num, by norm_num⟩
  norm_num at h2
  convert h2 using 3 with j
  fin_cases j <;> rfl

end Verif
