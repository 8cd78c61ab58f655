import Verif.Model.Ell1dFloat
import Verif.Spec.Ell1dSpec
import Verif.Spec.RelErr
import Mathlib.Algebra.Order.Field.Basic
import Mathlib.Algebra.Order.Group.MinMax
import Mathlib.Tactic.Linarith
import Mathlib.Tactic.FieldSimp
import Mathlib.Tactic.NormNum
import Mathlib.Tactic.Ring

/-! # One update of a rounded `ell1d` -/
namespace Verif
namespace Ell1d
variable {α : Type _} [Field α] [LinearOrder α] [IsStrictOrderedRing α] {u M : α} {fl : α → α}

/-- An absolute error from a relative one. -/
theorem abs_err (hfl : RelErr u fl) (hu : 0 ≤ u) {k x : α} (hx : |x| ≤ k * M) : |fl x - x| ≤ k * (u * M) :=
  (hfl x).trans (by calc u * |x| ≤ u * (k * M) := mul_le_mul_of_nonneg_left hx hu
                     _ = _ := by ring)

/-- Rebuilding an interval from its computed end points. -/
theorem rebuild (hfl : RelErr u fl) (hu : 0 ≤ u) (hu1 : u ≤ 1 / 100) (hM : 0 ≤ M) {lo up : α} (hl : |lo| ≤ 104 / 100 * M)
    (hp : |up| ≤ 104 / 100 * M) :
    |fl (lo + fl (fl (up - lo) / 2)) - fl (fl (up - lo) / 2) - lo| ≤ 11 / 10 * (u * M) ∧
      |fl (lo + fl (fl (up - lo) / 2)) + fl (fl (up - lo) / 2) - up| ≤ 55 / 10 * (u * M) := by
  have hv : u * M ≤ 1 / 100 * M := mul_le_mul_of_nonneg_right hu1 hM
  have hv0 : 0 ≤ u * M := mul_nonneg hu hM
  rw [abs_le] at hl hp
  have h1 := abs_err hfl hu (M := M) (k := 21 / 10) (x := up - lo) (by rw [abs_le]; constructor <;> linarith)
  rw [abs_le] at h1
  set d := fl (up - lo)
  have h2 := abs_err hfl hu (M := M) (k := 11 / 10) (x := d / 2) (by rw [abs_le]; constructor <;> linarith)
  rw [abs_le] at h2
  set r := fl (d / 2)
  have h3 := abs_err hfl hu (M := M) (k := 11 / 10) (x := lo + r) (by rw [abs_le]; constructor <;> linarith)
  rw [abs_le] at h3
  constructor <;> rw [abs_le] <;> constructor <;> linarith

/-- How the new interval relates to the exact one. -/
theorem step_err (hfl : RelErr u fl) (hu : 0 ≤ u) (hu1 : u ≤ 1 / 100) {E : Ell1d α} (hM : |E.xc| + |E.r| ≤ M) {g β : α} (hg : g ≠ 0) :
    ∃ E' st tsq, updateF fl (g, β) E = .ok (E', st, tsq) ∧ st ≠ .smallenough ∧ (st ≠ .success → E' = E) ∧
      (st = .success → |E'.xc| + |E'.r| ≤ (1 + 10 * u) * M ∧
        |β / g| ≤ |E.r| + u * M ∧
        (0 < g → |E'.xc - E'.r - (E.xc - E.r)| ≤ 10 * (u * M) ∧ |E'.xc + E'.r - (E.xc - β / g)| ≤ 10 * (u * M)) ∧
        (g < 0 → |E'.xc + E'.r - (E.xc + E.r)| ≤ 10 * (u * M) ∧ |E'.xc - E'.r - (E.xc - β / g)| ≤ 10 * (u * M))) ∧
      (st = .nosoln → (1 - u) * |E.r| < β / |g|) ∧ (st = .noeffect → β / |g| < 0) := by
  have hM0 : 0 ≤ M := (add_nonneg (abs_nonneg _) (abs_nonneg _)).trans hM
  have hv : u * M ≤ 1 / 100 * M := mul_le_mul_of_nonneg_right hu1 hM0
  have hv0 : 0 ≤ u * M := mul_nonneg hu hM0
  have hup : |E.xc + E.r| ≤ M := (abs_add_le _ _).trans hM
  have hlo : |E.xc - E.r| ≤ M := (abs_sub _ _).trans hM
  have hrM : |E.r| ≤ M := by linarith [abs_nonneg E.xc]
  have hxM : |E.xc| ≤ M := by linarith [abs_nonneg E.r]
  have hga : 0 < |g| := abs_pos.2 hg
  have hτ := hfl (E.r * g)
  rw [abs_mul] at hτ
  -- the computed `tau`
  have hτu : |fl (E.r * g)| ≤ (1 + u) * (|E.r| * |g|) := by
    have := abs_sub_abs_le_abs_sub (fl (E.r * g)) (E.r * g)
    rw [abs_mul] at this
    linarith
  have hτl : (1 - u) * (|E.r| * |g|) ≤ |fl (E.r * g)| := by
    have := abs_sub_abs_le_abs_sub (E.r * g) (fl (E.r * g))
    rw [abs_mul, abs_sub_comm] at this
    linarith
  have hmax : ∀ {a b K : α}, |a + b| ≤ K → |a - b| ≤ K → |a| + |b| ≤ K := fun {a b K} h1 h2 => by
    rw [abs_le] at h1 h2
    rcases abs_cases a with ⟨h, -⟩ | ⟨h, -⟩ <;> rcases abs_cases b with ⟨h', -⟩ | ⟨h', -⟩ <;> rw [h, h'] <;> linarith
  by_cases hβ : β = 0
  · subst hβ
    refine ⟨_, _, _, by simp only [updateF]; rw [if_pos trivial], by simp, fun h => absurd rfl h, fun _ => ?_, by simp, by simp⟩
    have h1 := abs_err hfl hu (M := M) (k := 1 / 2) (x := E.r / 2) (by rw [abs_div, abs_two]; linarith)
    rw [abs_le] at h1 hup hlo hrM hxM
    set r := fl (E.r / 2)
    have h2 : ∀ s : α, s = r ∨ s = -r → |fl (E.xc + s) - (E.xc + s)| ≤ 2 * (u * M) := fun s hs =>
      abs_err hfl hu (by rw [abs_le]; rcases hs with rfl | rfl <;> constructor <;> linarith)
    simp only [zero_div, sub_zero, abs_zero]
    have hn : 0 ≤ |E.r| + u * M := add_nonneg (abs_nonneg _) hv0
    rcases lt_or_gt_of_ne hg with h | h
    · rw [if_neg (not_lt.2 h.le)]
      have h3 := abs_le.1 (h2 r (.inl rfl))
      refine ⟨hmax ?_ ?_, hn, fun h' => absurd h' (not_lt.2 h.le), fun _ => ⟨by rw [abs_le]; constructor <;> linarith, by rw [abs_le]; constructor <;> linarith⟩⟩ <;> rw [abs_le] <;> constructor <;> linarith
    · rw [if_pos h]
      have h3 := abs_le.1 (h2 (-r) (.inr rfl))
      refine ⟨hmax ?_ ?_, hn, fun _ => ⟨by rw [abs_le]; constructor <;> linarith, by rw [abs_le]; constructor <;> linarith⟩, fun h' => absurd h' (not_lt.2 h.le)⟩ <;> rw [abs_le] <;> constructor <;> linarith
  by_cases h1 : β > |fl (E.r * g)|
  · refine ⟨E, .nosoln, _, by simp only [updateF]; rw [if_neg hβ, if_pos h1], by simp, fun _ => rfl, by simp, fun _ => ?_, by simp⟩
    rw [lt_div_iff₀ hga]; linarith
  by_cases h2 : β < -|fl (E.r * g)|
  · refine ⟨E, .noeffect, _, by simp only [updateF]; rw [if_neg hβ, if_neg h1, if_pos h2], by simp, fun _ => rfl, by simp, by simp, fun _ => ?_⟩
    exact div_neg_of_neg_of_pos (by linarith [abs_nonneg (fl (E.r * g))]) hga
  -- the general case
  have hq : |β / g| ≤ |E.r| + u * M := by
    have h3 : |β| ≤ |fl (E.r * g)| := abs_le.2 ⟨not_lt.1 h2, not_lt.1 h1⟩
    rw [abs_div, div_le_iff₀ hga]
    have h4 : u * |E.r| ≤ u * M := mul_le_mul_of_nonneg_left hrM hu
    have h5 := mul_le_mul_of_nonneg_right h4 hga.le
    linarith
  have hB : |E.xc - β / g| ≤ M + u * M := (abs_sub _ _).trans (by linarith)
  have e1 := abs_err hfl hu (M := M) (k := 101 / 100) (x := β / g) (by linarith)
  rw [abs_le] at e1 hB
  set q := fl (β / g) with hqd
  have e2 := abs_err hfl hu (M := M) (k := 103 / 100) (x := E.xc - q) (by rw [abs_le]; constructor <;> linarith)
  rw [abs_le] at e2
  set b := fl (E.xc - q) with hbd
  have hbM : |b| ≤ 104 / 100 * M := by rw [abs_le]; constructor <;> linarith
  have e3 := abs_le.1 (abs_err hfl hu (M := M) (k := 1) (x := E.xc + E.r) (by linarith))
  have e4 := abs_le.1 (abs_err hfl hu (M := M) (k := 1) (x := E.xc - E.r) (by linarith))
  rw [abs_le] at hup hlo
  refine ⟨_, _, _, by simp only [updateF, pyDiv]; rw [if_neg hβ, if_neg h1, if_neg h2, if_neg hg], by simp, fun h => absurd rfl h, fun _ => ?_, by simp, by simp⟩
  simp only [← hqd, ← hbd]
  rcases lt_or_gt_of_ne hg with h | h
  · simp only [if_neg (not_lt.2 h.le)]
    obtain ⟨f1, f2⟩ := rebuild hfl hu hu1 hM0 (lo := b) (up := fl (E.xc + E.r)) hbM (by rw [abs_le]; constructor <;> linarith)
    rw [abs_le] at f1 f2
    refine ⟨hmax ?_ ?_, hq, fun h' => absurd h' (not_lt.2 h.le), fun _ => ⟨by rw [abs_le]; constructor <;> linarith, by rw [abs_le]; constructor <;> linarith⟩⟩ <;> rw [abs_le] <;> constructor <;> linarith
  · simp only [if_pos h]
    obtain ⟨f1, f2⟩ := rebuild hfl hu hu1 hM0 (lo := fl (E.xc - E.r)) (up := b) (by rw [abs_le]; constructor <;> linarith) hbM
    rw [abs_le] at f1 f2
    refine ⟨hmax ?_ ?_, hq, fun _ => ⟨by rw [abs_le]; constructor <;> linarith, by rw [abs_le]; constructor <;> linarith⟩, fun h' => absurd h' (not_lt.2 h.le)⟩ <;> rw [abs_le] <;> constructor <;> linarith

end Ell1d
end Verif
