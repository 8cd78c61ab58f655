import Mathlib.Tactic.Ring
import Mathlib.Tactic.Linarith
import Mathlib.Tactic.FieldSimp
import Mathlib.Tactic.Positivity
import Mathlib.Algebra.Order.Round
import Verif.Spec.FloatSpec
import Verif.Spec.RelErr

set_option linter.unusedSectionVars false

namespace Verif
namespace FloatSpec
variable {α : Type _} [Field α] [LinearOrder α] [IsStrictOrderedRing α] {p : ℕ} {fl : α → α}

theorem Rep.neg {x : α} (h : Rep p x) : Rep p (-x) := by
  obtain ⟨m, e, hm, rfl⟩ := h
  exact ⟨-m, e, by rwa [abs_neg], by push_cast; ring⟩

theorem rep_pow (k : ℤ) : Rep p ((2 : α) ^ k) := ⟨1, k, by simpa using one_le_pow₀ (by norm_num), by simp⟩

theorem rep_int {z : ℤ} (h : |z| ≤ 2 ^ p) : Rep p (z : α) := ⟨z, 0, h, by simp⟩

theorem rep_zero : Rep p (0 : α) := ⟨0, 0, by simp, by simp⟩

theorem Rep.scale {x : α} (h : Rep p x) (k : ℤ) : Rep p (x * 2 ^ k) := by
  obtain ⟨m, e, hm, rfl⟩ := h
  exact ⟨m, e + k, hm, by rw [zpow_add₀ two_ne_zero]; ring⟩

/-- Every rounding to nearest is a rounding in the sense needed. -/
theorem Nearest.rounding (h : Nearest p fl) : Rounding p fl := by
  refine ⟨fun x y hxy => ?_, fun x hx => ?_⟩
  · by_contra hc
    push Not at hc
    have h1 := (h x).2 _ (h y).1
    have h2 := (h y).2 _ (h x).1
    have e1 : fl x + fl y ≤ 2 * x := by
      rcases abs_cases (fl x - x) with ⟨a, b⟩ | ⟨a, b⟩ <;> rcases abs_cases (fl y - x) with ⟨c, d⟩ | ⟨c, d⟩ <;> linarith
    have e2 : 2 * y ≤ fl x + fl y := by
      rcases abs_cases (fl y - y) with ⟨a, b⟩ | ⟨a, b⟩ <;> rcases abs_cases (fl x - y) with ⟨c, d⟩ | ⟨c, d⟩ <;> linarith
    have : x = y := by linarith
    subst this
    exact lt_irrefl _ hc
  · have := (h x).2 x hx
    rw [sub_self, abs_zero] at this
    exact sub_eq_zero.1 (abs_nonpos_iff.1 this)

variable [FloorRing α]

theorem evenRound_nearest (y : α) (k : ℤ) : |(evenRound y : α) - y| ≤ |(k : α) - y| := by
  have h0 := Int.floor_add_fract y
  have h1 := Int.fract_nonneg y
  have h2 := Int.fract_lt_one y
  set f := ⌊y⌋ with hf
  set r := Int.fract y with hr
  have hk : |(k : α) - y| ≥ r ∨ |(k : α) - y| ≥ 1 - r := by
    rcases le_or_gt k f with h | h
    · left
      have : (k : α) ≤ f := by exact_mod_cast h
      rw [abs_sub_comm]
      exact le_trans (by linarith) (le_abs_self _)
    · right
      have : (f : α) + 1 ≤ k := by exact_mod_cast h
      exact le_trans (by linarith) (le_abs_self _)
  have hk1 : |(k : α) - y| ≥ min r (1 - r) := by
    rcases hk with h | h
    · exact (min_le_left _ _).trans h
    · exact (min_le_right _ _).trans h
  refine le_trans ?_ hk1
  have ef : |(f : α) - y| = r := by rw [← h0, abs_sub_comm, abs_of_nonneg] <;> linarith
  have eg : |((f + 1 : ℤ) : α) - y| = 1 - r := by push_cast; rw [abs_of_nonneg] <;> linarith
  unfold evenRound
  rw [← hf, ← hr]
  split_ifs with a b c
  · rw [ef]; exact le_min le_rfl (by linarith)
  · rw [eg]; exact le_min (by linarith) le_rfl
  · rw [ef]; exact le_min le_rfl (by linarith)
  · rw [eg]; exact le_min (by linarith) le_rfl

theorem ieee_nearest (hp : 1 ≤ p) : Nearest p (ieee p : α → α) := by
  intro x
  by_cases hx : x = 0
  · subst hx
    simp only [ieee, if_true]
    exact ⟨rep_zero, fun r _ => by simp⟩
  unfold ieee
  rw [if_neg hx]
  dsimp only
  set e := Int.log 2 |x| - ((p : ℤ) - 1) with he
  have hpos : 0 < |x| := abs_pos.2 hx
  have hE : (0 : α) < 2 ^ e := zpow_pos two_pos _
  have hlo : (2 : α) ^ ((p : ℤ) - 1) * 2 ^ e ≤ |x| := by
    rw [← zpow_add₀ two_ne_zero, show (p : ℤ) - 1 + e = Int.log 2 |x| by omega]
    exact_mod_cast Int.zpow_log_le_self (b := 2) (by norm_num) hpos
  have hhi : |x| < 2 ^ p * 2 ^ e := by
    rw [← zpow_natCast, ← zpow_add₀ two_ne_zero, show (p : ℤ) + e = Int.log 2 |x| + 1 by omega]
    exact_mod_cast Int.lt_zpow_succ_log_self (b := 2) (by norm_num) |x|
  set y := x / 2 ^ e with hy
  have hxy : x = y * 2 ^ e := by rw [hy]; field_simp
  have hdist : ∀ z : α, |z * 2 ^ e - x| = |z - y| * 2 ^ e := by
    intro z
    rw [hxy, ← sub_mul, abs_mul, abs_of_pos hE]
  have hyabs : |x| = |y| * 2 ^ e := by rw [hxy, abs_mul, abs_of_pos hE]
  have hint : ((2 : ℤ) ^ (p - 1) : ℤ) = (2 : α) ^ ((p : ℤ) - 1) := by
    push_cast
    rw [← zpow_natCast]
    congr 1
    omega
  refine ⟨⟨evenRound y, e, ?_, rfl⟩, fun r hr => ?_⟩
  · have h1 : |y| < 2 ^ p := by
      rw [hyabs] at hhi
      exact lt_of_mul_lt_mul_right hhi hE.le
    rw [abs_lt] at h1
    have h2 := evenRound_nearest y (2 ^ p)
    have h3 := evenRound_nearest y (-2 ^ p)
    have h4 : (evenRound y : α) ≤ 2 ^ p := by
      push_cast at h2
      rw [abs_of_pos (by linarith : 0 < (2 : α) ^ p - y)] at h2
      have := le_abs_self ((evenRound y : α) - y)
      linarith
    have h5 : -2 ^ p ≤ (evenRound y : α) := by
      push_cast at h3
      rw [abs_of_neg (by linarith : -(2 : α) ^ p - y < 0)] at h3
      have := neg_abs_le ((evenRound y : α) - y)
      linarith
    rw [abs_le]
    constructor
    · exact_mod_cast h5
    · exact_mod_cast h4
  · rw [hdist]
    obtain ⟨m, e', hm, rfl⟩ := hr
    rcases le_or_gt e e' with h | h
    · obtain ⟨k, rfl⟩ := Int.le.dest h
      have : (m : α) * 2 ^ (e + (k : ℤ)) = ((m * 2 ^ k : ℤ) : α) * 2 ^ e := by
        push_cast; rw [zpow_add₀ two_ne_zero, zpow_natCast]; ring
      rw [this, hdist]
      exact mul_le_mul_of_nonneg_right (evenRound_nearest _ _) hE.le
    · have hr : |(m : α) * 2 ^ e'| ≤ 2 ^ ((p : ℤ) - 1) * 2 ^ e := by
        rw [abs_mul, abs_of_pos (zpow_pos two_pos _ : (0 : α) < 2 ^ e')]
        have h1 : |(m : α)| ≤ 2 ^ (p : ℤ) := by rw [zpow_natCast]; exact_mod_cast hm
        refine (mul_le_mul_of_nonneg_right h1 (zpow_pos two_pos _).le).trans ?_
        rw [← zpow_add₀ two_ne_zero, ← zpow_add₀ two_ne_zero]
        exact zpow_le_zpow_right₀ (by norm_num) (by omega)
      have h2 : |x| - 2 ^ ((p : ℤ) - 1) * 2 ^ e ≤ |(m : α) * 2 ^ e' - x| := by
        have := abs_sub_abs_le_abs_sub x ((m : α) * 2 ^ e')
        rw [abs_sub_comm] at this
        linarith
      refine le_trans ?_ h2
      rw [hyabs, ← sub_mul]
      refine mul_le_mul_of_nonneg_right ?_ hE.le
      have h3 : (2 : α) ^ ((p : ℤ) - 1) ≤ |y| := by
        rw [hyabs] at hlo
        exact le_of_mul_le_mul_right hlo hE
      rcases abs_cases y with ⟨a, -⟩ | ⟨a, -⟩
      · have := evenRound_nearest y (2 ^ (p - 1))
        rw [hint] at this
        refine this.trans ?_
        rw [abs_of_nonpos] <;> linarith
      · have := evenRound_nearest y (-2 ^ (p - 1))
        rw [show ((-2 ^ (p - 1) : ℤ) : α) = -((2 ^ (p - 1) : ℤ) : α) by push_cast; ring, hint] at this
        refine this.trans ?_
        rw [abs_of_nonneg] <;> linarith

theorem ieee_rounding (hp : 1 ≤ p) : Rounding p (ieee p : α → α) := (ieee_nearest hp).rounding

variable {x : α}

/-- Between neighbouring powers of two the representable numbers are equally spaced. -/
theorem binade (p : ℕ) (hx : x ≠ 0) : ∃ e : ℤ, (2 : α) ^ p * 2 ^ e ≤ 2 * |x| ∧ |x| < 2 ^ p * 2 ^ e := by
  refine ⟨Int.log 2 |x| + 1 - p, ?_, ?_⟩
  · rw [← zpow_natCast, ← zpow_add₀ two_ne_zero, show (p : ℤ) + (Int.log 2 |x| + 1 - p) = Int.log 2 |x| + 1 by omega,
      zpow_add_one₀ two_ne_zero]
    have : (2 : α) ^ Int.log 2 |x| ≤ |x| := by exact_mod_cast Int.zpow_log_le_self (b := 2) (by norm_num) (abs_pos.2 hx)
    linarith
  · rw [← zpow_natCast, ← zpow_add₀ two_ne_zero, show (p : ℤ) + (Int.log 2 |x| + 1 - p) = Int.log 2 |x| + 1 by omega]
    exact_mod_cast Int.lt_zpow_succ_log_self (b := 2) (by norm_num) |x|

/-- A representable number of absolute value at least `2 ^ (p - 1) * 2 ^ e` is a multiple of `2 ^ e`. -/
theorem Rep.multiple (hp : 1 ≤ p) {e : ℤ} (h : Rep p x) (hx : (2 : α) ^ p * 2 ^ e ≤ 2 * |x|) : ∃ z : ℤ, x = z * 2 ^ e := by
  obtain ⟨m, e', hm, rfl⟩ := h
  rcases le_or_gt e e' with he | he
  · obtain ⟨k, rfl⟩ := Int.le.dest he
    exact ⟨m * 2 ^ k, by push_cast; rw [zpow_add₀ two_ne_zero, zpow_natCast]; ring⟩
  · obtain ⟨k, hk⟩ := Int.le.dest (show e' + 1 ≤ e by omega)
    rw [← hk, abs_mul, abs_of_pos (zpow_pos two_pos _ : (0 : α) < 2 ^ e')] at hx
    rw [zpow_add₀ two_ne_zero, zpow_add_one₀ two_ne_zero, zpow_natCast] at hx
    have hE : (0 : α) < 2 ^ e' := zpow_pos two_pos _
    have h1 : (2 : α) ^ p * 2 ^ k ≤ |(m : α)| := by
      refine le_of_mul_le_mul_right (a := 2 * 2 ^ e') ?_ (by positivity)
      linarith
    have h2 : |(m : α)| ≤ 2 ^ p := by exact_mod_cast hm
    have hk0 : k = 0 := by
      by_contra hk0
      have : (2 : α) ≤ 2 ^ k := le_self_pow₀ (by norm_num) hk0
      have hp : (0 : α) < 2 ^ p := by positivity
      nlinarith
    subst hk0
    have h3 : |(m : α)| = 2 ^ p := le_antisymm h2 (by simpa using h1)
    have h4 : |m| = 2 ^ p := by exact_mod_cast h3
    obtain ⟨q, rfl⟩ : ∃ q, p = q + 1 := ⟨p - 1, by omega⟩
    have hke : e = e' + 1 := by rw [← hk]; simp
    rcases abs_eq (by positivity) |>.1 h4 with rfl | rfl
    · exact ⟨2 ^ q, by rw [hke, zpow_add_one₀ two_ne_zero]; push_cast; ring⟩
    · exact ⟨-2 ^ q, by rw [hke, zpow_add_one₀ two_ne_zero]; push_cast; ring⟩

theorem Nearest.abs_err (h : Nearest p fl) {e : ℤ} (hx : |x| ≤ 2 ^ p * 2 ^ e) : 2 * |fl x - x| ≤ 2 ^ e := by
  have hE : (0 : α) < 2 ^ e := zpow_pos two_pos _
  set y := x / 2 ^ e with hy
  have hxy : x = y * 2 ^ e := by rw [hy]; field_simp
  have hr := abs_sub_round y
  have hyabs : |y| ≤ 2 ^ p := by
    rw [hxy, abs_mul, abs_of_pos hE] at hx
    exact le_of_mul_le_mul_right hx hE
  have hm : |round y| ≤ 2 ^ p := by
    have h1 : |(round y : α)| < 2 ^ p + 1 := by
      have := abs_sub_abs_le_abs_sub (round y : α) y
      rw [abs_sub_comm] at this
      linarith
    have h2 : |round y| < 2 ^ p + 1 := by exact_mod_cast h1
    omega
  have := (h x).2 _ ⟨round y, e, hm, rfl⟩
  have e1 : |(round y : α) * 2 ^ e - x| = |y - round y| * 2 ^ e := by
    rw [abs_sub_comm]
    conv_lhs => rw [hxy]
    rw [← sub_mul, abs_mul, abs_of_pos hE]
  rw [e1] at this
  nlinarith

/-- The relative rounding error. -/
theorem Nearest.err (h : Nearest p fl) (x : α) : |fl x - x| ≤ |x| / 2 ^ p := by
  by_cases hx : x = 0
  · subst hx
    rw [h.rounding.exact 0 rep_zero]
    simp
  obtain ⟨e, h1, h2⟩ := binade p hx
  have := h.abs_err h2.le
  rw [le_div_iff₀ (by positivity)]
  nlinarith [show (0 : α) < 2 ^ p by positivity]

theorem Nearest.relErr (h : Nearest p fl) : RelErr (1 / 2 ^ p) fl := fun x => by
  have := h.err x
  rwa [div_mul_eq_mul_div, one_mul]

/-- A value closer than half a unit in the last place to a representable one is rounded to it. -/
theorem Nearest.eq (h : Nearest p fl) (hp : 1 ≤ p) {x : α} {m e : ℤ} (hm : 2 ^ (p - 1) ≤ m) (hm' : m ≤ 2 ^ p)
    (hx : 2 ^ (p - 1) * (2 : α) ^ e ≤ x) (hxm : 2 * |m * 2 ^ e - x| < 2 ^ e) : fl x = m * 2 ^ e := by
  have hE : (0 : α) < 2 ^ e := zpow_pos two_pos _
  have hpp : (2 : α) ^ p = 2 * 2 ^ (p - 1) := by rw [← pow_succ']; congr 1; omega
  have hr : Rep p ((m : α) * 2 ^ e) := ⟨m, e, by rw [abs_of_nonneg (le_trans (by positivity) hm)]; exact hm', rfl⟩
  have hlow : Rep p (2 ^ (p - 1) * (2 : α) ^ e) := ⟨2 ^ (p - 1), e, by
    rw [abs_of_nonneg (by positivity)]; exact pow_le_pow_right₀ (by norm_num) (by omega), by push_cast; rfl⟩
  have h1 : 2 ^ (p - 1) * (2 : α) ^ e ≤ fl x := by rw [← h.rounding.exact _ hlow]; exact h.rounding.mono hx
  have h0 : (0 : α) < 2 ^ (p - 1) * (2 : α) ^ e := by positivity
  obtain ⟨z, hz⟩ := (h x).1.multiple hp (e := e) (by rw [hpp, abs_of_pos (h0.trans_le h1)]; linarith)
  have h2 := (h x).2 _ hr
  rw [hz] at h2 ⊢
  have h3 : |((z - m : ℤ) : α)| * 2 ^ e < 1 * 2 ^ e := by
    have : |((z - m : ℤ) : α)| * 2 ^ e = |(z * 2 ^ e - x) - (m * 2 ^ e - x)| := by
      rw [← abs_of_pos hE, ← abs_mul, abs_of_pos hE]; push_cast; congr 1; ring
    rw [this, one_mul]
    calc _ ≤ |z * 2 ^ e - x| + |m * 2 ^ e - x| := abs_sub _ _
      _ < _ := by linarith
  have h4 : |z - m| < 1 := by
    have := lt_of_mul_lt_mul_right h3 hE.le
    exact_mod_cast this
  have h5 : z = m := by have := Int.abs_lt_one_iff.1 h4; omega
  rw [h5]

theorem Nearest.neg (h : Nearest p fl) : Nearest p fun x => -fl (-x) := fun x =>
  ⟨(h _).1.neg, fun r hr => by
    have := (h (-x)).2 (-r) hr.neg
    rw [show -r - -x = -(r - x) by ring, abs_neg, show fl (-x) - -x = -(-fl (-x) - x) by ring, abs_neg] at this
    exact this⟩

end FloatSpec
end Verif
