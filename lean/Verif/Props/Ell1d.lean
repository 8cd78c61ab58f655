import Verif.Spec.Ell1dSpec
import Verif.Spec.Sound
import Verif.Props.Feas
import Verif.Props.Dc
import Mathlib.Tactic

/-! # C26-C28: `ell1d` -/
namespace Verif
variable {α : Type _} [Field α] [LinearOrder α] [IsStrictOrderedRing α]

/-- No division by zero is reachable. -/
theorem C26_ell1d_total (E : Ell1d α) (cut : α × α) :
    ∃ E' st, Ell1d.update cut E = .ok (E', st, (E.r * cut.1) ^ 2) := by
  unfold Ell1d.update
  dsimp only
  rw [sq_abs]
  by_cases h1 : cut.2 = 0
  · rw [if_pos h1]; exact ⟨_, _, rfl⟩
  rw [if_neg h1]
  by_cases h2 : cut.2 > |E.r * cut.1|
  · rw [if_pos h2]; exact ⟨_, _, rfl⟩
  rw [if_neg h2]
  by_cases h3 : cut.2 < -|E.r * cut.1|
  · rw [if_pos h3]; exact ⟨_, _, rfl⟩
  · rw [if_neg h3]
    have hg : cut.1 ≠ 0 := by
      intro h
      rw [h, mul_zero, abs_zero] at h2 h3
      exact h1 (le_antisymm (not_lt.1 h2) (by simpa using h3))
    rw [pyDiv, if_neg hg]
    exact ⟨_, _, rfl⟩

/-- C26.  For a cut different from `(0, 0)`: on success the new interval is exactly the intersection
and the radius stays nonnegative; `nosoln` exactly when the intersection is empty; otherwise nothing
changes and the whole interval satisfies the cut. -/
theorem C26_ell1d_exact {E E' : Ell1d α} {cut : α × α} {st : CUTStatus} {tsq : α}
    (hr : 0 ≤ E.r) (hcut : cut ≠ (0, 0)) (h : Ell1d.update cut E = .ok (E', st, tsq)) :
    (st = .success → E'.pts = E.pts ∩ halfLine E.xc cut ∧ 0 ≤ E'.r) ∧
    (st = .nosoln ↔ E.pts ∩ halfLine E.xc cut = ∅) ∧
    (st ≠ .success → E' = E) ∧
    (st = .noeffect → E.pts ⊆ halfLine E.xc cut) ∧
    st ≠ .smallenough := by
  obtain ⟨g, beta⟩ := cut
  obtain ⟨r, c⟩ := E
  unfold Ell1d.update at h
  dsimp only at h hr ⊢
  -- sign analysis of `|r g|`
  have habs : |r * g| = r * |g| := by rw [abs_mul, abs_of_nonneg hr]
  rw [habs] at h
  by_cases h1 : beta = 0
  · -- central cut
    rw [if_pos h1] at h
    simp only [Except.ok.injEq, Prod.mk.injEq] at h
    obtain ⟨rfl, rfl, -⟩ := h
    subst h1
    have hg : g ≠ 0 := by rintro rfl; exact hcut rfl
    have key : ({ r := r / 2, xc := c + (if g > 0 then -(r / 2) else r / 2) } : Ell1d α).pts =
        Ell1d.pts ⟨r, c⟩ ∩ halfLine c (g, 0) := by
      ext x
      simp only [Ell1d.pts, halfLine, Set.mem_ofPred_eq, Set.mem_inter_iff, add_zero]
      rcases lt_or_gt_of_ne hg with hneg | hpos
      · rw [if_neg (not_lt.2 hneg.le)]
        have : g * (x - c) ≤ 0 ↔ c ≤ x := by
          constructor
          · intro h; by_contra hc
            nlinarith [mul_pos_of_neg_of_neg hneg (show x - c < 0 by linarith [not_le.1 hc])]
          · intro h; nlinarith
        rw [this]
        constructor
        · rintro ⟨a, b⟩; exact ⟨⟨by linarith, by linarith⟩, by linarith⟩
        · rintro ⟨⟨a, b⟩, d⟩; exact ⟨by linarith, by linarith⟩
      · rw [if_pos hpos]
        have : g * (x - c) ≤ 0 ↔ x ≤ c := by
          constructor
          · intro h; by_contra hc
            nlinarith [mul_pos hpos (show 0 < x - c by linarith [not_le.1 hc])]
          · intro h; nlinarith
        rw [this]
        constructor
        · rintro ⟨a, b⟩; exact ⟨⟨by linarith, by linarith⟩, by linarith⟩
        · rintro ⟨⟨a, b⟩, d⟩; exact ⟨by linarith, by linarith⟩
    refine ⟨fun _ => ⟨key, by dsimp only; linarith⟩, ?_, by simp, by simp, by simp⟩
    simp only [reduceCtorEq, false_iff]
    apply Set.Nonempty.ne_empty
    refine ⟨c, ⟨?_, ?_⟩, ?_⟩
    · dsimp only; linarith
    · dsimp only; linarith
    · simp [halfLine]
  rw [if_neg h1] at h
  by_cases h2 : beta > r * |g|
  · -- no solution
    rw [if_pos h2] at h
    simp only [Except.ok.injEq, Prod.mk.injEq] at h
    obtain ⟨rfl, rfl, -⟩ := h
    refine ⟨by simp, ?_, by simp, by simp, by simp⟩
    simp only [true_iff]
    ext x
    simp only [Ell1d.pts, halfLine, Set.mem_inter_iff, Set.mem_ofPred_eq, Set.mem_empty_iff_false,
      iff_false, not_and]
    rintro ⟨a, b⟩ hc
    have hx : |x - c| ≤ r := abs_le.2 ⟨by linarith, by linarith⟩
    have h4 : |g * (x - c)| ≤ r * |g| := by
      rw [abs_mul, mul_comm]; exact mul_le_mul_of_nonneg_right hx (abs_nonneg g)
    have := (abs_le.1 h4).1
    linarith
  rw [if_neg h2] at h
  by_cases h3 : beta < -(r * |g|)
  · -- no effect
    rw [if_pos h3] at h
    simp only [Except.ok.injEq, Prod.mk.injEq] at h
    obtain ⟨rfl, rfl, -⟩ := h
    have hsub : Ell1d.pts ⟨r, c⟩ ⊆ halfLine c (g, beta) := by
      rintro x ⟨a, b⟩
      dsimp only at a b
      have hx : |x - c| ≤ r := abs_le.2 ⟨by linarith, by linarith⟩
      have h4 : |g * (x - c)| ≤ r * |g| := by
        rw [abs_mul, mul_comm]; exact mul_le_mul_of_nonneg_right hx (abs_nonneg g)
      have := (abs_le.1 h4).2
      show g * (x - c) + beta ≤ 0
      linarith
    refine ⟨by simp, ?_, by simp, fun _ => hsub, by simp⟩
    simp only [reduceCtorEq, false_iff]
    apply Set.Nonempty.ne_empty
    have hc : c ∈ Ell1d.pts ⟨r, c⟩ := ⟨by dsimp only; linarith, by dsimp only; linarith⟩
    exact ⟨c, hc, hsub hc⟩
  · -- proper cut
    rw [if_neg h3] at h
    have hg : g ≠ 0 := by
      rintro rfl
      rw [abs_zero, mul_zero] at h2 h3
      exact h1 (le_antisymm (not_lt.1 h2) (by simpa using h3))
    rw [pyDiv, if_neg hg] at h
    simp only [Except.ok.injEq, Prod.mk.injEq] at h
    obtain ⟨rfl, rfl, -⟩ := h
    obtain ⟨q, hq⟩ : ∃ q, beta = q * g := ⟨beta / g, (div_mul_cancel₀ _ hg).symm⟩
    have hqd : beta / g = q := by rw [hq, mul_div_assoc, div_self hg, mul_one]
    rw [hqd]
    push Not at h2 h3
    rw [hq] at h2 h3
    have hq1 : |q| ≤ r := by
      have h4 : |q * g| ≤ r * |g| := abs_le.2 ⟨by linarith, h2⟩
      rw [abs_mul] at h4
      exact le_of_mul_le_mul_right h4 (abs_pos.2 hg)
    have hq2 := abs_le.1 hq1
    have hhalf : ∀ x, x ∈ halfLine c (g, beta) ↔ g * (x - (c - q)) ≤ 0 := by
      intro x; simp only [halfLine, Set.mem_ofPred_eq, hq]
      constructor <;> intro h <;> nlinarith
    have hmem : c - q ∈ Ell1d.pts ⟨r, c⟩ ∩ halfLine c (g, beta) := by
      refine ⟨⟨by dsimp only; linarith, by dsimp only; linarith⟩, ?_⟩
      rw [hhalf]; simp
    refine ⟨fun _ => ?_, ?_, by simp, by simp, by simp⟩
    · rcases lt_or_gt_of_ne hg with hneg | hpos
      · have : ¬ g > 0 := not_lt.2 hneg.le
        simp only [this, if_false]
        refine ⟨?_, by linarith⟩
        ext x
        rw [Set.mem_inter_iff, hhalf]
        have hx : g * (x - (c - q)) ≤ 0 ↔ c - q ≤ x := by
          constructor
          · intro h; by_contra hc
            nlinarith [mul_pos_of_neg_of_neg hneg (show x - (c - q) < 0 by linarith [not_le.1 hc])]
          · intro h; nlinarith
        rw [hx]
        simp only [Ell1d.pts, Set.mem_ofPred_eq]
        constructor
        · rintro ⟨a, b⟩; exact ⟨⟨by linarith, by linarith⟩, by linarith⟩
        · rintro ⟨⟨a, b⟩, d⟩; exact ⟨by linarith, by linarith⟩
      · simp only [hpos, if_true]
        refine ⟨?_, by linarith⟩
        ext x
        rw [Set.mem_inter_iff, hhalf]
        have hx : g * (x - (c - q)) ≤ 0 ↔ x ≤ c - q := by
          constructor
          · intro h; by_contra hc
            nlinarith [mul_pos hpos (show 0 < x - (c - q) by linarith [not_le.1 hc])]
          · intro h; nlinarith
        rw [hx]
        simp only [Ell1d.pts, Set.mem_ofPred_eq]
        constructor
        · rintro ⟨a, b⟩; exact ⟨⟨by linarith, by linarith⟩, by linarith⟩
        · rintro ⟨⟨a, b⟩, d⟩; exact ⟨by linarith, by linarith⟩
    · simp only [reduceCtorEq, false_iff]
      exact Set.Nonempty.ne_empty ⟨_, hmem⟩

/-- C26, finding: for the zero cut `(0, 0)`, satisfied by every point, the code reports `success` but
drops the left half of the interval. -/
theorem C26_ell1d_zero_cut_counterexample :
    ∃ (E E' : Ell1d ℚ) (tsq : ℚ), Ell1d.update (0, 0) E = .ok (E', .success, tsq) ∧ 0 ≤ E.r ∧
      halfLine E.xc ((0 : ℚ), (0 : ℚ)) = Set.univ ∧ E'.pts ≠ E.pts := by
  refine ⟨⟨1, 0⟩, ⟨1 / 2, 1 / 2⟩, 0, ?_, by norm_num, ?_, ?_⟩
  · norm_num [Ell1d.update]
  · ext; simp [halfLine]
  · intro h
    have : (-1 : ℚ) ∈ Ell1d.pts ⟨(1 : ℚ), 0⟩ := by norm_num [Ell1d.pts]
    rw [← h] at this
    norm_num [Ell1d.pts] at this

/-- C23 for `ell1d`: `tsq` is the maximum of `(g (x - xc))²` over the interval. -/
theorem C23_ell1d_tsq {E E' : Ell1d α} {cut : α × α} {st : CUTStatus} {tsq : α} (hr : 0 ≤ E.r)
    (h : Ell1d.update cut E = .ok (E', st, tsq)) :
    (∀ x ∈ E.pts, (cut.1 * (x - E.xc)) ^ 2 ≤ tsq) ∧
    ∃ x ∈ E.pts, (cut.1 * (x - E.xc)) ^ 2 = tsq := by
  obtain ⟨E'', st', h'⟩ := C26_ell1d_total E cut
  rw [h'] at h
  simp only [Except.ok.injEq, Prod.mk.injEq] at h
  obtain ⟨-, -, rfl⟩ := h
  refine ⟨fun x hx => ?_, E.xc + E.r, ⟨by linarith, by linarith⟩, by ring⟩
  have hx : |x - E.xc| ≤ E.r := abs_le.2 ⟨by linarith [hx.1], by linarith [hx.2]⟩
  have h2 : (x - E.xc) ^ 2 ≤ E.r ^ 2 := sq_le_sq' (abs_le.1 hx).1 (abs_le.1 hx).2
  rw [mul_pow, mul_pow, mul_comm (E.r ^ 2)]
  exact mul_le_mul_of_nonneg_left h2 (sq_nonneg _)

/-! ## Histories -/

/-- Apply a list of cuts; returns the final object and the trace `(centre, cut, status)`. -/
def Ell1d.run : List (α × α) → Ell1d α → Except PyErr (Ell1d α × List (α × (α × α) × CUTStatus))
  | [], E => .ok (E, [])
  | c :: cs, E =>
    match Ell1d.update c E with
    | .error e => .error e
    | .ok (E1, st, _) =>
      match Ell1d.run cs E1 with
      | .error e => .error e
      | .ok (E2, tr) => .ok (E2, (E.xc, c, st) :: tr)

/-- C27 (history refinement).  Any sequence of nonzero cuts can be applied, and the final interval is
the initial one intersected with the half-lines of all cuts that were not rejected as `nosoln`; a cut
was rejected exactly when it excluded everything that was left. -/
theorem C27_ell1d_history (cuts : List (α × α)) (hc : ∀ c ∈ cuts, c ≠ ((0 : α), (0 : α))) :
    ∀ E : Ell1d α, 0 ≤ E.r → ∃ E' tr, Ell1d.run cuts E = .ok (E', tr) ∧ 0 ≤ E'.r ∧
      tr.map (fun p => p.2.1) = cuts ∧
      E'.pts = {x | x ∈ E.pts ∧ ∀ p ∈ tr, p.2.2 ≠ .nosoln → x ∈ halfLine p.1 p.2.1} := by
  induction cuts with
  | nil => intro E hr; exact ⟨E, [], rfl, hr, rfl, by simp⟩
  | cons c cs ih =>
    intro E hr
    obtain ⟨E1, st, hu⟩ := C26_ell1d_total E c
    obtain ⟨h1, h2, h3, h4, h5⟩ := C26_ell1d_exact hr (hc c (by simp)) hu
    have hr1 : 0 ≤ E1.r := by
      by_cases hs : st = .success
      · exact (h1 hs).2
      · rw [h3 hs]; exact hr
    obtain ⟨E2, tr, hrun, hr2, htr, hpts⟩ := ih (fun c' hc' => hc c' (by simp [hc'])) E1 hr1
    refine ⟨E2, (E.xc, c, st) :: tr, by simp [Ell1d.run, hu, hrun], hr2, by simp [htr], ?_⟩
    rw [hpts]
    ext x
    simp only [Set.mem_ofPred_eq, List.mem_cons, forall_eq_or_imp]
    have hE1 : x ∈ E1.pts ↔ x ∈ E.pts ∧ (st ≠ .nosoln → x ∈ halfLine E.xc c) := by
      cases st with
      | success => rw [(h1 rfl).1]; simp
      | nosoln => rw [h3 (by simp)]; simp
      | noeffect => rw [h3 (by simp)]; simp; exact fun hx => h4 rfl hx
      | smallenough => exact absurd rfl h5
    rw [hE1]; tauto

/-- C27 (`copy`): same centre and radius. -/
theorem C27_ell1d_copy (E : Ell1d α) : E.copy = E := by
  obtain ⟨r, c⟩ := E
  simp only [Ell1d.copy, Ell1d.init, Ell1d.mk.injEq]
  constructor <;> ring

/-- C27 (constructor): `ell1d([l, u])` denotes `[l, u]`. -/
theorem C27_ell1d_init (l u : α) : (Ell1d.init l u).pts = {x | l ≤ x ∧ x ≤ u} := by
  ext x
  simp only [Ell1d.pts, Ell1d.init, Set.mem_ofPred_eq]
  constructor <;> rintro ⟨a, b⟩ <;> constructor <;> linarith

/-! ## `ell1d` as a search space for the drivers -/

theorem liftOracle_ok {W E A : Type _} {f : W → Except PyErr (W × A)} {w w' : W × E} {a : A}
    (h : liftOracle f w = .ok (w', a)) : f w.1 = .ok (w'.1, a) ∧ w'.2 = w.2 := by
  unfold liftOracle at h
  split at h
  · simp at h
  · rename_i u b hf
    simp only [Except.ok.injEq, Prod.mk.injEq] at h
    obtain ⟨rfl, rfl⟩ := h
    exact ⟨hf, rfl⟩

omit [IsStrictOrderedRing α] in
theorem ell1d_space_update_ok {W : Type _} {c : α × α} {w w' : W × Ell1d α} {st tsq}
    (h : (Ell1d.space W α).update c w = .ok (w', st, tsq)) :
    Ell1d.update c w.2 = .ok (w'.2, st, tsq) ∧ w'.1 = w.1 := by
  simp only [Ell1d.space] at h
  split at h
  · simp at h
  · rename_i E st' tsq' hf
    simp only [Except.ok.injEq, Prod.mk.injEq] at h
    obtain ⟨rfl, rfl, rfl⟩ := h
    exact ⟨hf, rfl⟩

/-- `ell1d` satisfies the contract of a sound search space, as long as the zero cut is not used: a
point satisfies a cut `(g, beta)` in the strong sense if `(g, beta) ≠ (0, 0)` and `g (x - c) + beta ≤ 0`. -/
theorem C26_ell1d_sound (W : Type _) :
    SoundSpace (Ell1d.space W α) (fun w => 0 ≤ w.2.r) (fun w => w.2.pts)
      (fun c cut => {x | cut ≠ (0, 0) ∧ x ∈ halfLine c cut}) where
  inv := by
    intro c w w' st tsq hr h
    obtain ⟨h, -⟩ := ell1d_space_update_ok h
    by_cases hc : c = (0, 0)
    · subst hc
      simp only [Ell1d.update, if_true, Except.ok.injEq, Prod.mk.injEq] at h
      rw [← h.1]; dsimp only; linarith
    · obtain ⟨h1, -, h3, -⟩ := C26_ell1d_exact hr hc h
      by_cases hs : st = .success
      · exact (h1 hs).2
      · rw [h3 hs]; exact hr
  keep := by
    rintro c w w' st tsq hr h x hx ⟨hc, hx2⟩
    obtain ⟨h, -⟩ := ell1d_space_update_ok h
    obtain ⟨h1, -, h3, -⟩ := C26_ell1d_exact hr hc h
    by_cases hs : st = .success
    · rw [(h1 hs).1]; exact ⟨hx, hx2⟩
    · rw [h3 hs]; exact hx
  nosoln := by
    rintro c w w' tsq hr h x hx ⟨hc, hx2⟩
    obtain ⟨h, -⟩ := ell1d_space_update_ok h
    obtain ⟨-, h2, -⟩ := C26_ell1d_exact hr hc h
    have := h2.1 rfl
    have hm : x ∈ w.2.pts ∩ halfLine w.2.xc c := ⟨hx, hx2⟩
    rw [this] at hm
    exact hm

omit [IsStrictOrderedRing α] in
theorem liftOracle_frame {W A : Type _} (f : W → Except PyErr (W × A)) :
    Frame (Ell1d.space W α) (fun w => 0 ≤ w.2.r) (fun w => w.2.pts) (liftOracle f) where
  xc := by intro w w' a h; show w'.2.xc = w.2.xc; rw [(liftOracle_ok h).2]
  mem := by intro w w' a h; rw [(liftOracle_ok h).2]
  inv := by intro w w' a hr h; rw [(liftOracle_ok h).2]; exact hr

/-- C28 (halving): a successful update with `beta ≥ 0` at least halves the radius. -/
theorem C28_ell1d_halves {E E' : Ell1d α} {cut : α × α} {st : CUTStatus} {tsq : α} (hr : 0 ≤ E.r)
    (hb : 0 ≤ cut.2) (h : Ell1d.update cut E = .ok (E', st, tsq)) :
    (st = .success → E'.r ≤ E.r / 2) ∧ st ≠ .noeffect := by
  obtain ⟨g, beta⟩ := cut
  obtain ⟨r, c⟩ := E
  unfold Ell1d.update at h
  dsimp only at h hr hb ⊢
  have hab := abs_nonneg (r * g)
  by_cases h1 : beta = 0
  · rw [if_pos h1] at h
    simp only [Except.ok.injEq, Prod.mk.injEq] at h
    obtain ⟨rfl, rfl, -⟩ := h
    exact ⟨fun _ => le_rfl, by simp⟩
  rw [if_neg h1] at h
  by_cases h2 : beta > |r * g|
  · rw [if_pos h2] at h
    simp only [Except.ok.injEq, Prod.mk.injEq] at h
    obtain ⟨rfl, rfl, -⟩ := h
    simp
  rw [if_neg h2] at h
  by_cases h3 : beta < -|r * g|
  · linarith
  · rw [if_neg h3] at h
    have hg : g ≠ 0 := by
      rintro rfl
      rw [mul_zero, abs_zero] at h2 h3
      exact h1 (le_antisymm (not_lt.1 h2) (by simpa using h3))
    rw [pyDiv, if_neg hg] at h
    simp only [Except.ok.injEq, Prod.mk.injEq] at h
    obtain ⟨rfl, rfl, -⟩ := h
    refine ⟨fun _ => ?_, by simp⟩
    rcases lt_or_gt_of_ne hg with hneg | hpos
    · have : ¬ g > 0 := not_lt.2 hneg.le
      simp only [this, if_false]
      have hd : beta / g ≤ 0 := div_nonpos_of_nonneg_of_nonpos hb hneg.le
      linarith
    · simp only [hpos, if_true]
      have hd : 0 ≤ beta / g := div_nonneg hb hpos.le
      linarith

/-- C28 (convergence of the feasibility driver on `ell1d`).  Cuts with `beta ≥ 0`, `|g| ≤ gmax`; `N`
halvings suffice to bring `tsq` below `tol`.  Then the run never exhausts its iterations, needs at
most `N + 1` of them, and never stops with `noeffect`.  If moreover `|g| ≥ gmin > 0`, the cuts are
valid for `K`, and `K` contains an interval `[a, b]` inside the initial one with
`(gmin (b - a) / 2)² ≥ tol`, the run is feasible. -/
theorem C28_feas_ell1d {W : Type _} {ω : α → W → Except PyErr (W × Option (α × α))} {gmax tol : α}
    {N : Nat} {m : Int} {w w' : W × Ell1d α} {info : CInfo} (hr : 0 ≤ w.2.r)
    (hω : ∀ x u u' c, ω x u = .ok (u', some c) → 0 ≤ c.2 ∧ |c.1| ≤ gmax)
    (hN : (w.2.r * gmax / 2 ^ N) ^ 2 < tol) (hm : (N : Int) < m)
    (h : cuttingPlaneFeas (fun x => liftOracle (ω x)) (Ell1d.space W α) ⟨m, tol⟩ w = .ok (w', info)) :
    info.numIters ≤ N + 1 ∧
    (info.feasible = true ∨ info.status = .smallenough ∨ info.status = .nosoln) ∧
    (∀ (K : Set α) (gmin a b : α), 0 < gmin → a ≤ b → (∀ x, a ≤ x → x ≤ b → x ∈ K ∧ x ∈ w.2.pts) →
      tol ≤ (gmin * (b - a) / 2) ^ 2 →
      (∀ x u u' c, ω x u = .ok (u', some c) → gmin ≤ |c.1| ∧ ∀ z ∈ K, z ∈ halfLine x c) →
      info.feasible = true) := by
  obtain ⟨s, i, hf, rfl, rfl⟩ := feas_ok h
  -- one round
  have step : ∀ (v : W × Ell1d α) v1 c v2 st tsq, 0 ≤ v.2.r →
      liftOracle (ω v.2.xc) v = .ok (v1, some c) →
      (Ell1d.space W α).update c v1 = .ok (v2, st, tsq) →
      ω v.2.xc v.1 = .ok (v1.1, some c) ∧ Ell1d.update c v.2 = .ok (v2.2, st, tsq) ∧ 0 ≤ v2.2.r ∧
      (st = .success → v2.2.r ≤ v.2.r / 2) ∧ st ≠ .noeffect ∧ st ≠ .smallenough ∧
      tsq = (v.2.r * c.1) ^ 2 := by
    intro v v1 c v2 st tsq hv hq hu
    obtain ⟨hq1, hq2⟩ := liftOracle_ok hq
    obtain ⟨hu1, -⟩ := ell1d_space_update_ok hu
    rw [hq2] at hu1
    have hb := (hω _ _ _ _ hq1).1
    obtain ⟨hh1, hh2⟩ := C28_ell1d_halves hv hb hu1
    have hinv := (C26_ell1d_sound (α := α) W).inv c v1 v2 st tsq (by rw [hq2]; exact hv) hu
    obtain ⟨E2, st2, h2⟩ := C26_ell1d_total v.2 c
    rw [hu1] at h2
    simp only [Except.ok.injEq, Prod.mk.injEq] at h2
    refine ⟨hq1, hu1, hinv, hh1, hh2, ?_, h2.2.2⟩
    by_cases hc : c = (0, 0)
    · subst hc
      simp only [Ell1d.update, if_true, Except.ok.injEq, Prod.mk.injEq] at hu1
      rw [← hu1.2.1]; simp
    · exact (C26_ell1d_exact hv hc hu1).2.2.2.2
  have key : ∀ {j s1}, Rounds (feasBody (fun x => liftOracle (ω x)) (Ell1d.space W α) tol) 0
      ⟨w, false, .success⟩ j s1 →
      (s1.w.2.r ≤ w.2.r / 2 ^ j ∧ 0 ≤ s1.w.2.r ∧ s1.feasible = false ∧ s1.status = .success) ∧
        j ≤ N := by
    intro j s1 hrr
    refine Rounds.inv (fun j s1 => (s1.w.2.r ≤ w.2.r / 2 ^ j ∧ 0 ≤ s1.w.2.r ∧ s1.feasible = false ∧
      s1.status = .success) ∧ j ≤ N) ⟨⟨by simp, hr, rfl, rfl⟩, Nat.zero_le _⟩ ?_ hrr
    rintro j s s' ⟨⟨h1, h2, h3, h4⟩, h5⟩ hb
    obtain ⟨w1, c, w2, tsq, hq, hu, ht, rfl⟩ := feasBody_cont hb
    obtain ⟨hq1, hu1, hr2, hhalf, -, -, htsq⟩ := step _ _ _ _ _ _ h2 hq hu
    refine ⟨⟨?_, hr2, h3, h4⟩, ?_⟩
    · have := hhalf rfl
      rw [pow_succ, ← div_div]
      dsimp only
      linarith
    · by_contra hcon
      have hjN : j = N := by omega
      subst hjN
      apply ht
      have hg := (hω _ _ _ _ hq1).2
      rw [htsq]
      refine lt_of_le_of_lt ?_ hN
      rw [← sq_abs, abs_mul, abs_of_nonneg h2]
      apply pow_le_pow_left₀ (mul_nonneg h2 (abs_nonneg _))
      calc s.w.2.r * |c.1| ≤ (w.2.r / 2 ^ j) * gmax :=
            mul_le_mul h1 hg (abs_nonneg _) (le_trans h2 h1)
        _ = w.2.r * gmax / 2 ^ j := by ring
  have sound : ∀ (K : Set α) (gmin : α), 0 < gmin →
      (∀ x u u' c, ω x u = .ok (u', some c) → gmin ≤ |c.1| ∧ ∀ z ∈ K, z ∈ halfLine x c) →
      ∀ {j s1}, Rounds (feasBody (fun x => liftOracle (ω x)) (Ell1d.space W α) tol) 0
        ⟨w, false, .success⟩ j s1 → ∀ z ∈ K, z ∈ w.2.pts → z ∈ s1.w.2.pts := by
    intro K gmin hgmin hval j s1 hrr
    refine (Rounds.inv (fun j s1 => (∀ z ∈ K, z ∈ w.2.pts → z ∈ s1.w.2.pts) ∧ 0 ≤ s1.w.2.r)
      ⟨fun _ _ h => h, hr⟩ ?_ hrr).1
    rintro j s s' ⟨h1, h2⟩ hb
    obtain ⟨w1, c, w2, tsq, hq, hu, ht, rfl⟩ := feasBody_cont hb
    obtain ⟨hq1, hu1, hr2, hhalf, -, -, htsq⟩ := step _ _ _ _ _ _ h2 hq hu
    obtain ⟨hv1, hv2⟩ := hval _ _ _ _ hq1
    have hc : c ≠ (0, 0) := by rintro rfl; simp at hv1; linarith
    obtain ⟨he, -⟩ := C26_ell1d_exact h2 hc hu1
    refine ⟨fun z hz hzw => ?_, hr2⟩
    rw [(he rfl).1]
    exact ⟨h1 z hz hzw, hv2 z hz⟩
  rcases forRange_ok hf with ⟨s1, hi, hrr, hb⟩ | ⟨hi, hrr⟩
  · obtain ⟨⟨h1, h2, h3, h4⟩, h5⟩ := key hrr
    rcases feasBody_brk hb with ⟨w1, hq, rfl⟩ | ⟨w1, c, w2, st, tsq, hq, hu, hne, rfl⟩ |
      ⟨w1, c, w2, tsq, hq, hu, ht, rfl⟩
    · exact ⟨by dsimp only; omega, .inl rfl, fun _ _ _ _ _ _ _ _ _ => rfl⟩
    · obtain ⟨hq1, hu1, hr2, hhalf, hn1, hn2, htsq⟩ := step _ _ _ _ _ _ h2 hq hu
      have hst : st = .nosoln := by
        cases st
        · exact absurd rfl hne
        · rfl
        · exact absurd rfl hn2
        · exact absurd rfl hn1
      refine ⟨by dsimp only; omega, .inr (.inr hst), ?_⟩
      intro K gmin a b hgmin hab hK _ hval
      exfalso
      obtain ⟨hv1, hv2⟩ := hval _ _ _ _ hq1
      have hc : c ≠ (0, 0) := by rintro rfl; simp at hv1; linarith
      have hk := hK a le_rfl hab
      have hempty := (C26_ell1d_exact h2 hc hu1).2.1.1 hst
      have hm : a ∈ s1.w.2.pts ∩ halfLine s1.w.2.xc c :=
        ⟨sound K gmin hgmin hval hrr a hk.1 hk.2, hv2 a hk.1⟩
      rw [hempty] at hm
      exact hm
    · obtain ⟨hq1, hu1, hr2, hhalf, hn1, hn2, htsq⟩ := step _ _ _ _ _ _ h2 hq hu
      refine ⟨by dsimp only; omega, .inr (.inl rfl), ?_⟩
      intro K gmin a b hgmin hab hK htol hval
      exfalso
      obtain ⟨hv1, hv2⟩ := hval _ _ _ _ hq1
      have ha := sound K gmin hgmin hval hrr a (hK a le_rfl hab).1 (hK a le_rfl hab).2
      have hb' := sound K gmin hgmin hval hrr b (hK b hab le_rfl).1 (hK b hab le_rfl).2
      have hlen : (b - a) / 2 ≤ s1.w.2.r := by linarith [ha.1, hb'.2]
      have h6 : (gmin * (b - a) / 2) ^ 2 ≤ tsq := by
        rw [htsq, ← sq_abs (s1.w.2.r * c.1), abs_mul, abs_of_nonneg h2]
        apply pow_le_pow_left₀ (by have : 0 ≤ b - a := by linarith
                                   positivity)
        calc gmin * (b - a) / 2 = (b - a) / 2 * gmin := by ring
          _ ≤ s1.w.2.r * |c.1| := mul_le_mul hlen hv1 hgmin.le h2
      exact absurd ht (not_lt.2 (htol.trans h6))
  · obtain ⟨_, h5⟩ := key hrr
    exfalso
    dsimp only at hi
    omega

end Verif
