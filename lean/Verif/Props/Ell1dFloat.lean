import Verif.Proofs.Ell1dFloat
import Verif.Proofs.Feas
import Verif.Proofs.AnySpace
import Verif.Proofs.Float
import Verif.Proofs.CholFloat
import Verif.Props.Ell1d

/-!
# C128: `ell1d` in floating point

An update keeps every point that satisfies the cut, up to an *additive* error of a few units in the last place, so the errors
of a run add up and do not multiply.
-/
namespace Verif
open Ell1d FloatSpec
variable {α : Type _} [Field α] [LinearOrder α]

/-- The half-line of a cut moved outwards by `η`. -/
def halfLineUpTo (η c : α) (cut : α × α) : Set α := {x | cut.1 * (x - c) + cut.2 ≤ η * |cut.1|}

/-- The interval of an `ell1d`, enlarged by `e` at both ends. -/
def Ell1d.ptsUpTo (e : α) (E : Ell1d α) : Set α := {x | |x - E.xc| ≤ E.r + e}

variable [IsStrictOrderedRing α] {u M η e : α} {fl : α → α} {E : Ell1d α}

theorem ptsUpTo_zero : E.ptsUpTo 0 = E.pts := by
  ext x
  simp only [Ell1d.ptsUpTo, Ell1d.pts, Set.mem_ofPred_eq, add_zero, abs_le]
  constructor <;> rintro ⟨a, b⟩ <;> constructor <;> linarith

omit [IsStrictOrderedRing α] in
theorem halfLineUpTo_zero (c : α) (cut : α × α) : halfLineUpTo 0 c cut = halfLine c cut := by
  ext x; simp [halfLineUpTo, halfLine]

omit [IsStrictOrderedRing α] in
/-- **C128**: without rounding it is the update of the exact model. -/
theorem C128_exact (cut : α × α) : updateF id cut E = update cut E := by
  simp only [updateF, update, id, ← sq]; rfl

/-- **C128**: `tau**2`, and an update never raises, even with `g = 0`. -/
theorem C128_total (hfl : RelErr u fl) (hu : 0 ≤ u) (hu1 : u ≤ 1 / 100) (cut : α × α) :
    ∃ E' st tsq, updateF fl cut E = .ok (E', st, tsq) ∧ |tsq - (E.r * cut.1) ^ 2| ≤ 4 * u * (E.r * cut.1) ^ 2 := by
  have h0 : fl 0 = 0 := by have := hfl 0; simpa using this
  have hex : ∃ E' st, updateF fl cut E = .ok (E', st, fl (|fl (E.r * cut.1)| * |fl (E.r * cut.1)|)) := by
    by_cases hg : cut.1 = 0
    · simp only [updateF, hg, mul_zero, h0, abs_zero, neg_zero]
      by_cases h1 : cut.2 = 0
      · rw [if_pos h1]; exact ⟨_, _, rfl⟩
      rw [if_neg h1]
      rcases lt_or_gt_of_ne h1 with h2 | h2
      · rw [if_neg (not_lt.2 h2.le), if_pos h2]; exact ⟨_, _, rfl⟩
      · rw [if_pos h2]; exact ⟨_, _, rfl⟩
    · simp only [updateF, pyDiv, if_neg hg]
      split_ifs <;> exact ⟨_, _, rfl⟩
  obtain ⟨E', st, h⟩ := hex
  refine ⟨E', st, _, h, ?_⟩
  set x := E.r * cut.1
  have h1 := hfl x
  have h2 := hfl (|fl x| * |fl x|)
  rw [abs_mul_abs_self] at h2 ⊢
  rw [abs_of_nonneg (mul_self_nonneg (fl x))] at h2
  have hx0 := sq_nonneg x
  have h3 : |fl x * fl x - x ^ 2| ≤ 21 / 10 * u * x ^ 2 := by
    have e1 : fl x * fl x - x ^ 2 = (fl x - x) * (fl x + x) := by ring
    have e2 : |fl x + x| ≤ (2 + u) * |x| := by
      have : fl x + x = (fl x - x) + 2 * x := by ring
      rw [this]
      refine (abs_add_le _ _).trans ?_
      rw [abs_mul, abs_two]; linarith
    rw [e1, abs_mul]
    refine (mul_le_mul h1 e2 (abs_nonneg _) (mul_nonneg hu (abs_nonneg _))).trans ?_
    have e3 : u * |x| * ((2 + u) * |x|) = u * (2 + u) * x ^ 2 := by rw [← sq_abs x]; ring
    rw [e3]
    refine mul_le_mul_of_nonneg_right ?_ hx0
    nlinarith
  have h4 : fl x * fl x ≤ (1 + 21 / 10 * u) * x ^ 2 := by linarith [(abs_le.1 h3).2]
  have h5 : u * (fl x * fl x) ≤ u * ((1 + 21 / 10 * u) * x ^ 2) := mul_le_mul_of_nonneg_left h4 hu
  have h6 : u * ((1 + 21 / 10 * u) * x ^ 2) ≤ 11 / 10 * u * x ^ 2 := by
    have : u * (1 + 21 / 10 * u) ≤ 11 / 10 * u := by nlinarith
    calc _ = u * (1 + 21 / 10 * u) * x ^ 2 := by ring
      _ ≤ _ := mul_le_mul_of_nonneg_right this hx0
  have h7 := abs_add_le (fl (fl x * fl x) - fl x * fl x) (fl x * fl x - x ^ 2)
  rw [sub_add_sub_cancel] at h7
  have h8 : 0 ≤ u * x ^ 2 := mul_nonneg hu hx0
  linarith

/-- **C128** (one update).  `M` bounds both ends of the interval.  A rejected cut changes nothing.  Unless the verdict is "no solution",
every point of the interval (enlarged by `e`) that satisfies the cut (up to `η`) is in the new interval enlarged by `e + η + 10uM`.  If the
verdict is "no solution", all these points together lie within `e + η + uM` of one another. -/
theorem C128_update (hfl : RelErr u fl) (hu : 0 ≤ u) (hu1 : u ≤ 1 / 100) (hM : |E.xc| + |E.r| ≤ M) {cut : α × α} (hc : cut ≠ (0, 0))
    (he : 0 ≤ e) (hη : 0 ≤ η) {E' : Ell1d α} {st : CUTStatus} {tsq : α} (h : updateF fl cut E = .ok (E', st, tsq)) :
    |E'.xc| + |E'.r| ≤ (1 + 10 * u) * M ∧ (st ≠ .success → E' = E) ∧ st ≠ .smallenough ∧
    (st ≠ .nosoln → ∀ x ∈ E.ptsUpTo e, x ∈ halfLineUpTo η E.xc cut → x ∈ E'.ptsUpTo (e + η + 10 * (u * M))) ∧
    (st = .nosoln → ∀ x ∈ E.ptsUpTo e, x ∈ halfLineUpTo η E.xc cut → ∀ y ∈ E.ptsUpTo e, y ∈ halfLineUpTo η E.xc cut →
      |x - y| ≤ e + η + u * M) := by
  have hM0 : 0 ≤ M := (add_nonneg (abs_nonneg _) (abs_nonneg _)).trans hM
  have hv0 : 0 ≤ u * M := mul_nonneg hu hM0
  have hMM : M ≤ (1 + 10 * u) * M := by linarith
  have hrM : u * |E.r| ≤ u * M := mul_le_mul_of_nonneg_left (by linarith [abs_nonneg E.xc]) hu
  obtain ⟨g, β⟩ := cut
  by_cases hg : g = 0
  · subst hg
    have hβ : β ≠ 0 := fun hβ => hc (by rw [hβ])
    have h0 : fl 0 = 0 := by have := hfl 0; simpa using this
    simp only [updateF, mul_zero, h0, abs_zero, neg_zero] at h
    rw [if_neg hβ] at h
    split_ifs at h with h1 h2
    · simp only [Except.ok.injEq, Prod.mk.injEq] at h
      obtain ⟨rfl, rfl, rfl⟩ := h
      refine ⟨by linarith, by simp, by simp, by simp, fun _ x _ hx => ?_⟩
      simp [halfLineUpTo] at hx
      linarith
    · simp only [Except.ok.injEq, Prod.mk.injEq] at h
      obtain ⟨rfl, rfl, rfl⟩ := h
      refine ⟨by linarith, by simp, by simp, fun _ x hx _ => ?_, by simp⟩
      simp only [Ell1d.ptsUpTo, Set.mem_ofPred_eq] at hx ⊢
      linarith
    all_goals exact absurd (le_antisymm (not_lt.1 h1) (not_lt.1 h2)) hβ
  · obtain ⟨E₁, st₁, tsq₁, k1, k2, k3, k4, k5, k6⟩ := step_err hfl hu hu1 hM hg (β := β)
    rw [k1] at h
    simp only [Except.ok.injEq, Prod.mk.injEq] at h
    obtain ⟨rfl, rfl, rfl⟩ := h
    have hga : 0 < |g| := abs_pos.2 hg
    -- the cut as a bound on `x`
    have hpos : 0 < g → ∀ x ∈ halfLineUpTo η E.xc (g, β), x - E.xc + β / g ≤ η := fun hg x hx => by
      have hx : g * (x - E.xc) + β ≤ η * |g| := hx
      rw [abs_of_pos hg] at hx
      have : g * (x - E.xc + β / g) ≤ g * η := by rw [mul_add, mul_div_cancel₀ _ hg.ne']; linarith
      exact le_of_mul_le_mul_left this hg
    have hneg : g < 0 → ∀ x ∈ halfLineUpTo η E.xc (g, β), -η ≤ x - E.xc + β / g := fun hg x hx => by
      have hx : g * (x - E.xc) + β ≤ η * |g| := hx
      rw [abs_of_neg hg] at hx
      have : -g * -(x - E.xc + β / g) ≤ -g * η := by rw [neg_mul_neg, mul_add, mul_div_cancel₀ _ hg.ne]; linarith
      linarith [le_of_mul_le_mul_left this (by linarith : 0 < -g)]
    refine ⟨?_, k3, k2, fun hst x hx hxc => ?_, fun hst x hx hxc y hy hyc => ?_⟩
    · by_cases hs : st₁ = .success
      · exact (k4 hs).1
      · rw [k3 hs]; linarith
    · by_cases hs : st₁ = .success
      · obtain ⟨-, -, k7, k8⟩ := k4 hs
        simp only [Ell1d.ptsUpTo, Set.mem_ofPred_eq, abs_le] at hx ⊢
        rcases lt_or_gt_of_ne hg with hg | hg
        · have := hneg hg x hxc
          obtain ⟨a, b⟩ := k8 hg
          rw [abs_le] at a b
          constructor <;> linarith
        · have := hpos hg x hxc
          obtain ⟨a, b⟩ := k7 hg
          rw [abs_le] at a b
          constructor <;> linarith
      · rw [k3 hs]
        simp only [Ell1d.ptsUpTo, Set.mem_ofPred_eq] at hx ⊢
        linarith
    · have k7 := k5 hst
      have hr := le_abs_self E.r
      simp only [Ell1d.ptsUpTo, Set.mem_ofPred_eq, abs_le] at hx hy
      rcases lt_or_gt_of_ne hg with hg | hg
      · have hx' := hneg hg x hxc
        have hy' := hneg hg y hyc
        rw [abs_of_neg hg, div_neg] at k7
        rw [abs_le]; constructor <;> linarith
      · have hx' := hpos hg x hxc
        have hy' := hpos hg y hyc
        rw [abs_of_pos hg] at k7
        rw [abs_le]; constructor <;> linarith

/-- **C128** (one update): with `beta ≥ 0` the radius is halved up to rounding.  It can become negative, but only by rounding. -/
theorem C128_radius (hfl : RelErr u fl) (hu : 0 ≤ u) (hu1 : u ≤ 1 / 100) (hM : |E.xc| + |E.r| ≤ M) {cut : α × α} (hc : cut ≠ (0, 0))
    (hβ : 0 ≤ cut.2) {E' : Ell1d α} {st : CUTStatus} {tsq : α} (h : updateF fl cut E = .ok (E', st, tsq)) :
    (st = .success → E'.r ≤ max E.r 0 / 2 + 10 * (u * M) ∧ min E.r 0 - 11 * (u * M) ≤ E'.r) ∧ st ≠ .noeffect := by
  obtain ⟨g, β⟩ := cut
  have hM0 : 0 ≤ M := (add_nonneg (abs_nonneg _) (abs_nonneg _)).trans hM
  have hv0 : 0 ≤ u * M := mul_nonneg hu hM0
  simp only at hβ
  by_cases hg : g = 0
  · subst hg
    have hβ' : β ≠ 0 := fun hβ => hc (by rw [hβ])
    have h0 : fl 0 = 0 := by have := hfl 0; simpa using this
    simp only [updateF, mul_zero, h0, abs_zero, neg_zero] at h
    rw [if_neg hβ', if_pos (lt_of_le_of_ne hβ hβ'.symm)] at h
    simp only [Except.ok.injEq, Prod.mk.injEq] at h
    obtain ⟨rfl, rfl, rfl⟩ := h
    simp
  · obtain ⟨E₁, st₁, tsq₁, k1, k2, k3, k4, k5, k6⟩ := step_err hfl hu hu1 hM hg (β := β)
    rw [k1] at h
    simp only [Except.ok.injEq, Prod.mk.injEq] at h
    obtain ⟨rfl, rfl, rfl⟩ := h
    have hga : 0 < |g| := abs_pos.2 hg
    refine ⟨fun hs => ?_, fun hs => absurd (k6 hs) (not_lt.2 (div_nonneg hβ hga.le))⟩
    obtain ⟨-, k7, k8, k9⟩ := k4 hs
    rw [abs_le] at k7
    rcases lt_or_gt_of_ne hg with hg | hg
    · obtain ⟨a, b⟩ := k9 hg
      have hq : β / g ≤ 0 := div_nonpos_of_nonneg_of_nonpos hβ hg.le
      rw [abs_le] at a b
      rcases le_total E.r 0 with h0 | h0
      · rw [max_eq_right h0, min_eq_left h0]
        rw [abs_of_nonpos h0] at k7
        constructor <;> linarith
      · rw [max_eq_left h0, min_eq_right h0]
        rw [abs_of_nonneg h0] at k7
        constructor <;> linarith
    · obtain ⟨a, b⟩ := k8 hg
      have hq : 0 ≤ β / g := div_nonneg hβ hg.le
      rw [abs_le] at a b
      rcases le_total E.r 0 with h0 | h0
      · rw [max_eq_right h0, min_eq_left h0]
        rw [abs_of_nonpos h0] at k7
        constructor <;> linarith
      · rw [max_eq_left h0, min_eq_right h0]
        rw [abs_of_nonneg h0] at k7
        constructor <;> linarith

/-! ### Whole runs of `cutting_plane_feas` -/

variable {W : Type _} {ω : α → W → Except PyErr (W × Option (α × α))} {m : Int} {tol : α} {w w' : W × Ell1d α} {info : CInfo}

omit [IsStrictOrderedRing α] in
/-- One round of the loop. -/
theorem ell1dF_round {v v1 v2 : W × Ell1d α} {c : α × α} {st : CUTStatus} {tsq : α}
    (hq : liftOracle (ω v.2.xc) v = .ok (v1, some c)) (hu : ((Ell1d.spaceF fl).beside W).update c v1 = .ok (v2, st, tsq)) :
    ω v.2.xc v.1 = .ok (v1.1, some c) ∧ updateF fl c v.2 = .ok (v2.2, st, tsq) := by
  obtain ⟨hq1, hq2⟩ := liftOracle_ok hq
  refine ⟨hq1, ?_⟩
  simp only [Space.beside, Ell1d.spaceF] at hu
  rw [hq2] at hu
  split at hu
  · simp at hu
  · rename_i E1 st1 t1 hE
    simp only [Except.ok.injEq, Prod.mk.injEq] at hu
    obtain ⟨rfl, rfl, rfl⟩ := hu
    exact hE

/-- What holds after `j` rounds: both ends are bounded, and no point of `K` has been lost by more than `j(η + 20uM)`. -/
theorem ell1dF_rounds (hfl : RelErr u fl) (hu : 0 ≤ u) (hu1 : u ≤ 1 / 100) (hM : |w.2.xc| + |w.2.r| ≤ M) (hη : 0 ≤ η) {K : Set α}
    (hω : ∀ x u u' c, ω x u = .ok (u', some c) → c ≠ (0, 0) ∧ ∀ z ∈ K, z ∈ halfLineUpTo η x c) {j : ℕ} {s : FeasSt (W × Ell1d α)}
    (hr : Rounds (feasBody (fun x => liftOracle (ω x)) ((Ell1d.spaceF fl).beside W) tol) 0 ⟨w, false, .success⟩ j s)
    (hj : 20 * (j * u) ≤ 1) :
    |s.w.2.xc| + |s.w.2.r| ≤ (1 + 20 * (j * u)) * M ∧ s.feasible = false ∧ s.status = .success ∧
      ∀ z ∈ K, z ∈ w.2.pts → z ∈ s.w.2.ptsUpTo (j * (η + 20 * (u * M))) := by
  have hM0 : 0 ≤ M := (add_nonneg (abs_nonneg _) (abs_nonneg _)).trans hM
  have hv0 : 0 ≤ u * M := mul_nonneg hu hM0
  refine Rounds.inv (fun j s => 20 * (j * u) ≤ 1 → |s.w.2.xc| + |s.w.2.r| ≤ (1 + 20 * (j * u)) * M ∧ s.feasible = false ∧ s.status = .success ∧
      ∀ z ∈ K, z ∈ w.2.pts → z ∈ s.w.2.ptsUpTo (j * (η + 20 * (u * M)))) (fun _ => ⟨by simpa using hM, rfl, rfl, fun z _ hz => by
        rw [Nat.cast_zero, zero_mul, ptsUpTo_zero]; exact hz⟩) ?_ hr hj
  intro j s s' ih hb hj1
  have hju : 0 ≤ (j : α) * u := mul_nonneg (Nat.cast_nonneg _) hu
  push_cast at hj1 ⊢
  obtain ⟨h1, h2, h3, h4⟩ := ih (by linarith)
  obtain ⟨w1, c, w2, tsq, hq, hup, ht, rfl⟩ := feasBody_cont hb
  obtain ⟨hq1, hu2⟩ := ell1dF_round hq hup
  obtain ⟨hc, hK⟩ := hω _ _ _ _ hq1
  have hX : (1 + 20 * (j * u)) * M ≤ 2 * M := mul_le_mul_of_nonneg_right (by linarith) hM0
  have hX' : u * ((1 + 20 * (j * u)) * M) ≤ u * (2 * M) := mul_le_mul_of_nonneg_left hX hu
  obtain ⟨k1, -, -, k2, -⟩ := C128_update hfl hu hu1 h1 hc (e := j * (η + 20 * (u * M)))
    (mul_nonneg (Nat.cast_nonneg _) (by linarith)) hη hu2
  refine ⟨k1.trans ?_, h2, h3, fun z hz hzw => ?_⟩
  · have : (1 + 10 * u) * (1 + 20 * (j * u)) ≤ 1 + 20 * ((j + 1) * u) := by
      have : 20 * (j * u) * u ≤ 1 * u := mul_le_mul_of_nonneg_right (by linarith) hu
      linarith
    calc _ = (1 + 10 * u) * (1 + 20 * (j * u)) * M := by ring
      _ ≤ _ := mul_le_mul_of_nonneg_right this hM0
  · have := k2 (by simp) z (h4 z hz hzw) (hK z hz)
    simp only [Ell1d.ptsUpTo, Set.mem_ofPred_eq] at this ⊢
    linarith

/-- **C128** (verdicts of a run).  The oracle's cuts keep `K` up to `η`; `k` iterations were made, `20ku ≤ 1`.  If the run ends with "no
solution", the points of `K` in the initial interval lie within `k(η + 20uM)` of one another.  If it ends with "small enough" and no cut has
`|g| < gmin`, any two of them that are further apart than `2(d + k(η + 20uM))` would give `tol > (1 - 4u)(gmin·d)²`. -/
theorem C128_feas_verdict (hfl : RelErr u fl) (hu : 0 ≤ u) (hu1 : u ≤ 1 / 100) (hM : |w.2.xc| + |w.2.r| ≤ M) (hη : 0 ≤ η) {K : Set α}
    (hω : ∀ x u u' c, ω x u = .ok (u', some c) → c ≠ (0, 0) ∧ ∀ z ∈ K, z ∈ halfLineUpTo η x c)
    (h : cuttingPlaneFeas (fun x => liftOracle (ω x)) ((Ell1d.spaceF fl).beside W) ⟨m, tol⟩ w = .ok (w', info))
    (hk : 20 * (info.numIters * u) ≤ 1) :
    (info.status = .nosoln → ∀ x ∈ K, x ∈ w.2.pts → ∀ y ∈ K, y ∈ w.2.pts → |x - y| ≤ info.numIters * (η + 20 * (u * M))) ∧
    (info.status = .smallenough → ∀ x ∈ K, x ∈ w.2.pts → ∀ y ∈ K, y ∈ w.2.pts → ∀ gmin d, 0 ≤ gmin → 0 ≤ d →
      (∀ x u u' c, ω x u = .ok (u', some c) → gmin ≤ |c.1|) → d + info.numIters * (η + 20 * (u * M)) ≤ |x - y| / 2 →
      (1 - 4 * u) * (gmin * d) ^ 2 < tol) := by
  have hM0 : 0 ≤ M := (add_nonneg (abs_nonneg _) (abs_nonneg _)).trans hM
  have hv0 : 0 ≤ u * M := mul_nonneg hu hM0
  obtain ⟨s, i, hf, rfl, rfl⟩ := feas_ok h
  push_cast at hk
  have hiu : 0 ≤ (i : α) * u := mul_nonneg (Nat.cast_nonneg _) hu
  rcases forRange_ok hf with ⟨s1, hi, hrr, hb⟩ | ⟨hi, hrr⟩
  · obtain ⟨h1, h2, h3, h4⟩ := ell1dF_rounds hfl hu hu1 hM hη hω hrr (by linarith)
    have hX : (1 + 20 * (i * u)) * M ≤ 2 * M := mul_le_mul_of_nonneg_right (by linarith) hM0
    have hX' : u * ((1 + 20 * (i * u)) * M) ≤ u * (2 * M) := mul_le_mul_of_nonneg_left hX hu
    rcases feasBody_brk hb with ⟨w1, hq, rfl⟩ | ⟨w1, c, w2, st, tsq, hq, hup, hne, rfl⟩ |
      ⟨w1, c, w2, tsq, hq, hup, ht, rfl⟩
    · simp only; rw [h3]; simp
    · obtain ⟨hq1, hu2⟩ := ell1dF_round hq hup
      obtain ⟨hc, hK⟩ := hω _ _ _ _ hq1
      obtain ⟨-, -, k0, -, k2⟩ := C128_update hfl hu hu1 h1 hc (e := i * (η + 20 * (u * M)))
        (mul_nonneg (Nat.cast_nonneg _) (by linarith)) hη hu2
      refine ⟨fun hs x hx hx' y hy hy' => ?_, fun hs => absurd hs k0⟩
      have := k2 hs x (h4 x hx hx') (hK x hx) y (h4 y hy hy') (hK y hy)
      push_cast
      linarith
    · obtain ⟨hq1, hu2⟩ := ell1dF_round hq hup
      refine ⟨by simp, fun _ x hx hx' y hy hy' gmin d hg hd hgm hxy => ?_⟩
      obtain ⟨E₂, st₂, tsq₂, hk1, hk2⟩ := C128_total (E := s1.w.2) hfl hu hu1 c
      rw [hu2] at hk1
      simp only [Except.ok.injEq, Prod.mk.injEq] at hk1
      obtain ⟨-, -, rfl⟩ := hk1
      have a := h4 x hx hx'
      have b := h4 y hy hy'
      simp only [Ell1d.ptsUpTo, Set.mem_ofPred_eq] at a b
      have hd' : d ≤ |s1.w.2.r| := by
        have e1 := abs_sub_le x s1.w.2.xc y
        rw [abs_sub_comm s1.w.2.xc y] at e1
        push_cast at hxy
        have := le_abs_self s1.w.2.r
        linarith
      have hgd : (gmin * d) ^ 2 ≤ (s1.w.2.r * c.1) ^ 2 := by
        rw [← sq_abs (s1.w.2.r * c.1), abs_mul, mul_comm |s1.w.2.r|]
        exact pow_le_pow_left₀ (mul_nonneg hg hd) (mul_le_mul (hgm _ _ _ _ hq1) hd' hd (abs_nonneg _)) 2
      have e2 := (abs_le.1 hk2).1
      have e3 := mul_le_mul_of_nonneg_left hgd (show 0 ≤ 1 - 4 * u by linarith)
      linarith
  · by_cases hi1 : s.status = .success
    · simp only; rw [hi1]; simp
    · obtain ⟨-, -, h3, -⟩ := ell1dF_rounds (K := ∅) (η := 0) hfl hu hu1 hM le_rfl (fun x u u' c hc => ⟨(hω x u u' c hc).1, by simp⟩) hrr
        (by push_cast; linarith)
      exact absurd h3 hi1

/-- **C128** (length of a run).  With `beta ≥ 0` and `|g| ≤ gmax`, `N + 1` iterations are enough as soon as `N` halvings bring the computed
`tsq` below `tol` with `40(N + 1)uM` to spare for rounding; and the run ends with one of the three verdicts. -/
theorem C128_feas_stops (hfl : RelErr u fl) (hu : 0 ≤ u) (hu1 : u ≤ 1 / 100) (hr : 0 ≤ w.2.r) (hM : |w.2.xc| + |w.2.r| ≤ M) {gmax : α} {N : ℕ}
    (hω : ∀ x u u' c, ω x u = .ok (u', some c) → c ≠ (0, 0) ∧ 0 ≤ c.2 ∧ |c.1| ≤ gmax)
    (hN : (1 + 4 * u) * ((w.2.r / 2 ^ N + 40 * (N + 1) * (u * M)) * gmax) ^ 2 < tol) (hNu : 20 * ((N + 1) * u) ≤ 1) (hm : (N : Int) < m)
    (h : cuttingPlaneFeas (fun x => liftOracle (ω x)) ((Ell1d.spaceF fl).beside W) ⟨m, tol⟩ w = .ok (w', info)) :
    info.numIters ≤ N + 1 ∧ (info.feasible = true ∨ info.status = .smallenough ∨ info.status = .nosoln) := by
  have hM0 : 0 ≤ M := (add_nonneg (abs_nonneg _) (abs_nonneg _)).trans hM
  have hv0 : 0 ≤ u * M := mul_nonneg hu hM0
  obtain ⟨s, i, hf, rfl, rfl⟩ := feas_ok h
  have bound : ∀ {j s1}, Rounds (feasBody (fun x => liftOracle (ω x)) ((Ell1d.spaceF fl).beside W) tol) 0 ⟨w, false, .success⟩ j s1 →
      j ≤ N + 1 → |s1.w.2.xc| + |s1.w.2.r| ≤ 2 * M ∧ s1.status = .success := fun {j s1} hrr hj => by
    have hj' : (j : α) ≤ N + 1 := by exact_mod_cast hj
    have hju : (j : α) * u ≤ (N + 1) * u := mul_le_mul_of_nonneg_right hj' hu
    obtain ⟨a, -, b, -⟩ := ell1dF_rounds (K := ∅) (η := 0) hfl hu hu1 hM le_rfl (fun x u u' c hc => ⟨(hω x u u' c hc).1, by simp⟩) hrr
      (by linarith)
    exact ⟨a.trans (mul_le_mul_of_nonneg_right (by linarith) hM0), b⟩
  have key : ∀ {j s1}, Rounds (feasBody (fun x => liftOracle (ω x)) ((Ell1d.spaceF fl).beside W) tol) 0 ⟨w, false, .success⟩ j s1 →
      j ≤ N ∧ s1.w.2.r ≤ w.2.r / 2 ^ j + 40 * (u * M) ∧ -(22 * (j * (u * M))) ≤ s1.w.2.r := by
    intro j s1 hrr
    induction hrr with
    | refl => refine ⟨Nat.zero_le _, ?_, ?_⟩ <;> simp <;> linarith
    | @snoc j s s' hrr hb ih =>
      obtain ⟨h1, h2, h3⟩ := ih
      obtain ⟨hb1, -⟩ := bound hrr (by omega)
      obtain ⟨w1, c, w2, tsq, hq, hup, ht, rfl⟩ := feasBody_cont hb
      obtain ⟨hq1, hu2⟩ := ell1dF_round hq hup
      obtain ⟨hc, hβ, hg⟩ := hω _ _ _ _ hq1
      obtain ⟨k1, -⟩ := C128_radius hfl hu hu1 hb1 hc hβ hu2
      obtain ⟨k2, k3⟩ := k1 rfl
      have hr2 : 0 ≤ w.2.r / 2 ^ j := by positivity
      have hju : 0 ≤ (j : α) * (u * M) := mul_nonneg (Nat.cast_nonneg _) hv0
      refine ⟨?_, ?_, ?_⟩
      · by_contra hcon
        obtain rfl : j = N := by omega
        apply ht
        obtain ⟨E₂, st₂, tsq₂, hk1, hk2⟩ := C128_total (E := s.w.2) hfl hu hu1 c
        rw [hu2] at hk1
        simp only [Except.ok.injEq, Prod.mk.injEq] at hk1
        obtain ⟨-, -, rfl⟩ := hk1
        have e1 := (abs_le.1 hk2).2
        have e2 : |s.w.2.r| ≤ w.2.r / 2 ^ j + 40 * (j + 1) * (u * M) := by
          rw [abs_le]; constructor <;> linarith
        have e3 : (s.w.2.r * c.1) ^ 2 ≤ ((w.2.r / 2 ^ j + 40 * (j + 1) * (u * M)) * gmax) ^ 2 := by
          rw [← sq_abs, abs_mul]
          exact pow_le_pow_left₀ (mul_nonneg (abs_nonneg _) (abs_nonneg _)) (mul_le_mul e2 hg (abs_nonneg _) ((abs_nonneg _).trans e2)) 2
        have e4 := mul_le_mul_of_nonneg_left e3 (show 0 ≤ 1 + 4 * u by linarith)
        linarith
      · have : max s.w.2.r 0 ≤ w.2.r / 2 ^ j + 40 * (u * M) := max_le h2 (by linarith)
        rw [pow_succ, ← div_div]
        dsimp only
        linarith
      · have : -(22 * (j * (u * M))) ≤ min s.w.2.r 0 := le_min h3 (by linarith)
        push_cast
        linarith
  rcases forRange_ok hf with ⟨s1, hi, hrr, hb⟩ | ⟨hi, hrr⟩
  · have hj := (key hrr).1
    obtain ⟨hb1, -⟩ := bound hrr (by omega)
    refine ⟨by dsimp only; omega, ?_⟩
    rcases feasBody_brk hb with ⟨w1, hq, rfl⟩ | ⟨w1, c, w2, st, tsq, hq, hup, hne, rfl⟩ |
      ⟨w1, c, w2, tsq, hq, hup, ht, rfl⟩
    · exact .inl rfl
    · obtain ⟨hq1, hu2⟩ := ell1dF_round hq hup
      obtain ⟨hc, hβ, hg⟩ := hω _ _ _ _ hq1
      have k1 := (C128_radius hfl hu hu1 hb1 hc hβ hu2).2
      have k2 := (C128_update hfl hu hu1 hb1 hc (e := 0) (η := 0) le_rfl le_rfl hu2).2.2.1
      right; right
      cases st <;> simp_all
    · exact .inr (.inl rfl)
  · have := (key hrr).1
    exfalso
    dsimp only at hi
    omega

/-- **C128** (finding the fat sets).  Cuts with `beta ≥ 0`, `gmin ≤ |g| ≤ gmax`, valid for `K` up to `η`; `N` as before.  If `K` has two
points in the initial interval with distance at least `2(d + (N + 1)(η + 20uM))`, `d > 0` and `(1 - 4u)(gmin·d)² ≥ tol`, the run finds a point the
oracle accepts. -/
theorem C128_feas_finds (hfl : RelErr u fl) (hu : 0 ≤ u) (hu1 : u ≤ 1 / 100) (hr : 0 ≤ w.2.r) (hM : |w.2.xc| + |w.2.r| ≤ M) (hη : 0 ≤ η) {gmin gmax : α}
    {N : ℕ} {K : Set α} (hgm : 0 < gmin)
    (hω : ∀ x u u' c, ω x u = .ok (u', some c) → (∀ z ∈ K, z ∈ halfLineUpTo η x c) ∧ 0 ≤ c.2 ∧ gmin ≤ |c.1| ∧ |c.1| ≤ gmax)
    (hN : (1 + 4 * u) * ((w.2.r / 2 ^ N + 40 * (N + 1) * (u * M)) * gmax) ^ 2 < tol) (hNu : 20 * ((N + 1) * u) ≤ 1) (hm : (N : Int) < m)
    {x y d : α} (hx : x ∈ K) (hxw : x ∈ w.2.pts) (hy : y ∈ K) (hyw : y ∈ w.2.pts) (hd : 0 < d) (htol : tol ≤ (1 - 4 * u) * (gmin * d) ^ 2)
    (hxy : d + (N + 1) * (η + 20 * (u * M)) ≤ |x - y| / 2)
    (h : cuttingPlaneFeas (fun x => liftOracle (ω x)) ((Ell1d.spaceF fl).beside W) ⟨m, tol⟩ w = .ok (w', info)) :
    info.feasible = true ∧ ∃ w₁, ω w'.2.xc w₁ = .ok (w'.1, none) := by
  have hM0 : 0 ≤ M := (add_nonneg (abs_nonneg _) (abs_nonneg _)).trans hM
  have hv0 : 0 ≤ u * M := mul_nonneg hu hM0
  have hne : ∀ x u u' c, ω x u = .ok (u', some c) → c ≠ (0, 0) := fun x u u' c hc h0 => by
    have := (hω x u u' c hc).2.2.1
    rw [h0, abs_zero] at this
    linarith
  obtain ⟨h1, h2⟩ := C128_feas_stops hfl hu hu1 hr hM (fun x u u' c hc => ⟨hne x u u' c hc, (hω x u u' c hc).2.1, (hω x u u' c hc).2.2.2⟩) hN hNu hm h
  have h1' : (info.numIters : α) ≤ N + 1 := by exact_mod_cast h1
  have h1u := mul_le_mul_of_nonneg_right h1' hu
  have h1v := mul_le_mul_of_nonneg_right h1' (show 0 ≤ η + 20 * (u * M) by linarith)
  obtain ⟨h3, h4⟩ := C128_feas_verdict hfl hu hu1 hM hη (fun x u u' c hc => ⟨hne x u u' c hc, (hω x u u' c hc).1⟩) h (by linarith)
  have hfe : info.feasible = true := by
    rcases h2 with h2 | h2 | h2
    · exact h2
    · have := h4 h2 x hx hxw y hy hyw gmin d hgm.le hd.le (fun x u u' c hc => (hω x u u' c hc).2.2.1) (by linarith)
      linarith
    · have := h3 h2 x hx hxw y hy hyw
      have h5 : 0 ≤ (info.numIters : α) * (η + 20 * (u * M)) := mul_nonneg (Nat.cast_nonneg _) (by linarith)
      linarith
  obtain ⟨w0, E0⟩ := w
  obtain ⟨w1, E1⟩ := w'
  obtain ⟨-, h5⟩ := feas_any (I := fun _ => True) (fun _ _ _ _ _ _ => trivial) trivial h
  obtain ⟨w₁, -, h6⟩ := h5 hfe
  exact ⟨hfe, w₁, h6⟩

/-! ### Verdicts, construction and copies -/

/-- **C128**: the verdict is the exact one except within a relative `u` of the two thresholds `|β/g| = |r|`. -/
theorem C128_verdict (hfl : RelErr u fl) {g β : α} (hg : g ≠ 0) {E' : Ell1d α} {st : CUTStatus} {tsq : α}
    (h : updateF fl (g, β) E = .ok (E', st, tsq)) :
    ((1 + u) * |E.r| < β / |g| → st = .nosoln) ∧ (β / |g| < -((1 + u) * |E.r|) → st = .noeffect) ∧
      (|β / g| ≤ (1 - u) * |E.r| → st = .success) := by
  have hga : 0 < |g| := abs_pos.2 hg
  have hτ := hfl (E.r * g)
  rw [abs_mul] at hτ
  have hτu : |fl (E.r * g)| ≤ (1 + u) * (|E.r| * |g|) := by
    have := abs_sub_abs_le_abs_sub (fl (E.r * g)) (E.r * g)
    rw [abs_mul] at this
    linarith
  have hτl : (1 - u) * (|E.r| * |g|) ≤ |fl (E.r * g)| := by
    have := abs_sub_abs_le_abs_sub (E.r * g) (fl (E.r * g))
    rw [abs_mul, abs_sub_comm] at this
    linarith
  simp only [updateF, pyDiv, if_neg hg] at h
  have hu : 0 ≤ u := by simpa using (abs_nonneg _).trans (hfl 1)
  have h0 : 0 ≤ (1 + u) * |E.r| := mul_nonneg (by linarith) (abs_nonneg _)
  refine ⟨fun h1 => ?_, fun h1 => ?_, fun h1 => ?_⟩
  · have h2 : 0 < β := by by_contra hc; linarith [div_nonpos_of_nonpos_of_nonneg (not_lt.1 hc) hga.le]
    rw [lt_div_iff₀ hga] at h1
    rw [if_neg h2.ne', if_pos (show β > _ by linarith)] at h
    simp only [Except.ok.injEq, Prod.mk.injEq] at h
    exact h.2.1.symm
  · have h2 : β < 0 := by by_contra hc; linarith [div_nonneg (not_lt.1 hc) hga.le]
    rw [div_lt_iff₀ hga] at h1
    rw [if_neg h2.ne, if_neg (by linarith [abs_nonneg (fl (E.r * g))]), if_pos (by linarith)] at h
    simp only [Except.ok.injEq, Prod.mk.injEq] at h
    exact h.2.1.symm
  · rw [abs_div, div_le_iff₀ hga] at h1
    have h2 := abs_le.1 (show |β| ≤ |fl (E.r * g)| by linarith)
    rw [if_neg (show ¬β > _ from not_lt.2 h2.2), if_neg (not_lt.2 h2.1)] at h
    split_ifs at h <;> simp only [Except.ok.injEq, Prod.mk.injEq] at h <;> exact h.2.1.symm

/-- **C128**: `ell1d([l, h])` has the ends `l` and `h` up to `6uM`. -/
theorem C128_init (hfl : RelErr u fl) (hu : 0 ≤ u) (hu1 : u ≤ 1 / 100) {l h : α} (hl : |l| ≤ M) (hh : |h| ≤ M) :
    |(initF fl l h).xc - (initF fl l h).r - l| ≤ 6 * (u * M) ∧ |(initF fl l h).xc + (initF fl l h).r - h| ≤ 6 * (u * M) := by
  have hM0 : 0 ≤ M := (abs_nonneg _).trans hl
  have hv0 : 0 ≤ u * M := mul_nonneg hu hM0
  obtain ⟨h1, h2⟩ := rebuild hfl hu hu1 hM0 (lo := l) (up := h) (by linarith) (by linarith)
  exact ⟨by simp only [initF]; linarith, by simp only [initF]; linarith⟩

/-- **C128**: a copy has the same ends up to `7uM`. -/
theorem C128_copy (hfl : RelErr u fl) (hu : 0 ≤ u) (hu1 : u ≤ 1 / 100) (hM : |E.xc| + |E.r| ≤ M) :
    |(copyF fl E).xc - (copyF fl E).r - (E.xc - E.r)| ≤ 7 * (u * M) ∧ |(copyF fl E).xc + (copyF fl E).r - (E.xc + E.r)| ≤ 7 * (u * M) := by
  have hM0 : 0 ≤ M := (add_nonneg (abs_nonneg _) (abs_nonneg _)).trans hM
  have hv0 : 0 ≤ u * M := mul_nonneg hu hM0
  have hv : u * M ≤ 1 / 100 * M := mul_le_mul_of_nonneg_right hu1 hM0
  have hup : |E.xc + E.r| ≤ M := (abs_add_le _ _).trans hM
  have hlo : |E.xc - E.r| ≤ M := (abs_sub _ _).trans hM
  have e3 := abs_le.1 (Ell1d.abs_err hfl hu (M := M) (k := 1) (x := E.xc + E.r) (by linarith))
  have e4 := abs_le.1 (Ell1d.abs_err hfl hu (M := M) (k := 1) (x := E.xc - E.r) (by linarith))
  rw [abs_le] at hup hlo
  obtain ⟨h1, h2⟩ := rebuild hfl hu hu1 hM0 (lo := fl (E.xc - E.r)) (up := fl (E.xc + E.r)) (by rw [abs_le]; constructor <;> linarith)
    (by rw [abs_le]; constructor <;> linarith)
  rw [abs_le] at h1 h2
  simp only [copyF, initF, abs_le]
  refine ⟨⟨?_, ?_⟩, ⟨?_, ?_⟩⟩ <;> linarith

/-- **C128** (finding): a copy is in general not the same interval.  In double precision the copy of `[2⁵⁵ - 1, 2⁵⁵ + 1]` has radius 0. -/
theorem C128_copy_loses {fl : ℚ → ℚ} (hfl : Nearest 53 fl) : copyF fl (⟨1, 2 ^ 55⟩ : Ell1d ℚ) = ⟨0, 2 ^ 55⟩ := by
  have h1 : fl (2 ^ 55 - 1) = 2 ^ 55 := by
    rw [hfl.eq (m := 2 ^ 53) (e := 2) (by norm_num) (by norm_num) (by norm_num) (by norm_num) (by norm_num [abs_of_pos])]; norm_num
  have h2 : fl (2 ^ 55 + 1) = 2 ^ 55 := by
    rw [hfl.eq (m := 2 ^ 52) (e := 3) (by norm_num) (by norm_num) (by norm_num) (by norm_num) (by norm_num [abs_of_pos])]; norm_num
  have h0 : fl 0 = 0 := hfl.rounding.exact _ rep_zero
  have h3 : fl (2 ^ 55) = 2 ^ 55 := hfl.rounding.exact _ (by simpa using rep_pow (α := ℚ) (p := 53) 55)
  simp only [copyF, initF, h1, h2, sub_self, h0, zero_div, add_zero, h3]

/-- **C128** (finding): the radius can become negative.  In double precision a deep cut that (by rounding `tau`) is still accepted leaves an
interval whose upper end is below its lower end. -/
theorem C128_negative_radius {fl : ℚ → ℚ} (hfl : Nearest 53 fl) : ∃ xc tsq,
    updateF fl (9, 36028797018964032) (⟨4003199668773781, 0⟩ : Ell1d ℚ) = .ok (⟨-1 / 4, xc⟩, .success, tsq) := by
  have h1 : fl (4003199668773781 * 9) = 36028797018964032 := by
    rw [hfl.eq (m := 4503599627370504) (e := 3) (by norm_num) (by norm_num) (by norm_num) (by norm_num) (by norm_num [abs_of_pos])]; norm_num
  have h2 : fl (36028797018964032 / 9) = 4003199668773781 + 1 / 2 := by
    rw [hfl.eq (m := 8006399337547563) (e := -1) (by norm_num) (by norm_num) (by norm_num) (by norm_num) (by norm_num [abs_of_pos])]; norm_num
  have h3 : fl (0 - (4003199668773781 + 1 / 2)) = -(4003199668773781 + 1 / 2) :=
    by rw [zero_sub]; exact hfl.rounding.exact _ ⟨-8006399337547563, -1, by norm_num, by norm_num⟩
  have h4 : fl (0 - 4003199668773781) = -4003199668773781 :=
    by rw [zero_sub]; exact hfl.rounding.exact _ ⟨-4003199668773781, 0, by norm_num, by norm_num⟩
  have h5 : fl (-(4003199668773781 + 1 / 2) - -4003199668773781) = -1 / 2 :=
    by rw [show (-(4003199668773781 + 1 / 2) - -4003199668773781 : ℚ) = -1 / 2 by norm_num]; exact hfl.rounding.exact _ ⟨-1, -1, by norm_num, by norm_num⟩
  have h6 : fl (-1 / 2 / 2) = -1 / 4 :=
    by rw [show (-1 / 2 / 2 : ℚ) = -1 / 4 by norm_num]; exact hfl.rounding.exact _ ⟨-1, -2, by norm_num, by norm_num⟩
  refine ⟨fl (-4003199668773781 + -1 / 4), fl (|36028797018964032| * |36028797018964032|), ?_⟩
  simp only [updateF, h1, pyDiv]
  rw [if_neg (by norm_num), if_neg (by norm_num), if_neg (by norm_num), if_neg (by norm_num)]
  simp only [h2, h3, h4, if_pos (show (9 : ℚ) > 0 by norm_num), h5, h6]

/-! ### A run in double precision -/

/-- Points of `[3, 4]` are accepted; other points get a central cut. -/
def window34 (x : ℚ) (w : Unit) : Except PyErr (Unit × Option (ℚ × ℚ)) :=
  .ok (w, if x < 3 then some (-1, 0) else if 4 < x then some (1, 0) else none)

/-- Doubles, `[0, 10]`, `tol = 1/20`: at most 6 iterations, and a point of `[3, 4]` is found. -/
example (w' : Unit × Ell1d ℚ) (info : CInfo)
    (h : cuttingPlaneFeas (fun x => liftOracle (window34 x)) ((Ell1d.spaceF (ieee 53)).beside Unit) ⟨2000, 1 / 20⟩ ((), ⟨5, 5⟩) = .ok (w', info)) :
    info.numIters ≤ 6 ∧ info.feasible = true ∧ 3 ≤ w'.2.xc ∧ w'.2.xc ≤ 4 := by
  have hfl : RelErr (1 / 2 ^ 53) (ieee 53 : ℚ → ℚ) := (ieee_nearest (by norm_num)).relErr
  have hω : ∀ (x : ℚ) (u u' : Unit) (c : ℚ × ℚ), window34 x u = .ok (u', some c) → (∀ z ∈ Set.Icc (3 : ℚ) 4, z ∈ halfLineUpTo 0 x c) ∧ 0 ≤ c.2 ∧ 1 ≤ |c.1| ∧ |c.1| ≤ 1 := by
    intro x u u' c h
    simp only [window34, Except.ok.injEq, Prod.mk.injEq, true_and] at h
    split_ifs at h with h1 h2
    · obtain rfl := Option.some.inj h
      refine ⟨fun z hz => ?_, by norm_num⟩
      simp only [halfLineUpTo, Set.mem_ofPred_eq]
      linarith [hz.1]
    · obtain rfl := Option.some.inj h
      refine ⟨fun z hz => ?_, by norm_num⟩
      simp only [halfLineUpTo, Set.mem_ofPred_eq]
      linarith [hz.2]
  have hs := C128_feas_stops hfl (by norm_num) (by norm_num) (M := 10) (gmax := 1) (N := 5) (by norm_num) (by norm_num [abs_of_pos])
    (fun x u u' c hc => ⟨fun h0 => by have := (hω x u u' c hc).2.2.1; rw [h0] at this; norm_num at this, (hω x u u' c hc).2.1, (hω x u u' c hc).2.2.2⟩)
    (by norm_num) (by norm_num) (by norm_num) h
  obtain ⟨h1, w₁, h2⟩ := C128_feas_finds hfl (by norm_num) (by norm_num) (M := 10) (gmin := 1) (gmax := 1) (N := 5) (η := 0) (K := Set.Icc 3 4) (d := 1 / 4)
    (x := 4) (y := 3) (by norm_num) (by norm_num [abs_of_pos]) le_rfl (by norm_num) hω (by norm_num) (by norm_num) (by norm_num)
    (by norm_num) (by simp [Ell1d.pts]; norm_num) (by norm_num) (by simp [Ell1d.pts]; norm_num) (by norm_num) (by norm_num) (by norm_num [abs_of_pos]) h
  refine ⟨hs.1, h1, ?_⟩
  simp only [window34, Except.ok.injEq, Prod.mk.injEq, true_and] at h2
  split_ifs at h2 with h3 h4
  exact ⟨not_lt.1 h3, not_lt.1 h4⟩

/-- The hypotheses of `C128_update`, for a deep cut in double precision. -/
example : ∃ E' tsq, updateF (ieee 53) (3, 1) (⟨1, 1⟩ : Ell1d ℚ) = .ok (E', .success, tsq) ∧
    |E'.xc - 1 / 3| ≤ 20 / 2 ^ 53 ∧ ∀ x, 0 ≤ x → x ≤ 2 / 3 → |x - E'.xc| ≤ E'.r + 20 / 2 ^ 53 := by
  have hfl : RelErr (1 / 2 ^ 53) (ieee 53 : ℚ → ℚ) := (ieee_nearest (by norm_num)).relErr
  obtain ⟨E', st, tsq, k1, k2, k3, k4, k5, k6⟩ := step_err hfl (by norm_num) (by norm_num) (E := ⟨1, 1⟩) (M := 2) (g := 3) (β := 1) (by norm_num) (by norm_num)
  obtain rfl : st = .success := (C128_verdict hfl (by norm_num) k1).2.2 (by norm_num [abs_of_pos])
  refine ⟨E', tsq, k1, ?_, fun x hx hx' => ?_⟩
  · obtain ⟨a, b⟩ := (k4 rfl).2.2.1 (by norm_num)
    rw [abs_le] at a b ⊢
    constructor <;> linarith
  · have := (C128_update hfl (by norm_num) (by norm_num) (E := ⟨1, 1⟩) (M := 2) (e := 0) (η := 0) (by norm_num) (by norm_num) le_rfl le_rfl k1).2.2.2.1 (by simp) x
      (by simp only [Ell1d.ptsUpTo, Set.mem_ofPred_eq, abs_le]; constructor <;> linarith)
      (by simp only [halfLineUpTo, Set.mem_ofPred_eq]; linarith)
    simp only [Ell1d.ptsUpTo, Set.mem_ofPred_eq] at this
    linarith

end Verif
