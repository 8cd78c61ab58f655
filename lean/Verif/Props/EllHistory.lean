import Verif.Props.Ell
import Verif.Props.EllDefer
import Verif.Props.Alias

/-!
# C20 along a history of cuts
-/
namespace Verif
open Matrix Ell
variable {n : ℕ}

/-- The two singularities of the formulas: `β = -τ/n` for a cut with one side and `b0 = -b1` for one with two. -/
def singularCut (n : ℕ) (tau : ℝ) : Beta → Prop
  | .scalar b => tau + n * b = 0
  | .seq [] => True
  | .seq [b] => tau + n * b = 0
  | .seq (b0 :: b1 :: _) => tau + n * b0 = 0 ∨ b0 = -b1

/-- A cut for which nothing can go wrong at the ellipsoid `E`. -/
def goodCut (E : Ell n) (c : (Fin n → ℝ) × Beta) : Prop :=
  c.1 ≠ 0 ∧ nondegenerate (√(E.kappa * (c.1 ⬝ᵥ E.Q *ᵥ c.1))) c.2 ∧ ¬ singularCut n (√(E.kappa * (c.1 ⬝ᵥ E.Q *ᵥ c.1))) c.2

/-- **C20** (one step, no error). -/
theorem C20_ell_no_error {E : Ell n} (hE : E.Proper) {c : (Fin n → ℝ) × Beta} (hc : goodCut E c) :
    ∃ E' st tsq, update c E = .ok (E', st, tsq) ∧ E'.Proper := by
  obtain ⟨g, b⟩ := c
  obtain ⟨hg, hb, hs⟩ := hc
  simp only at hg hb hs
  have key : ∀ e, update (g, b) E ≠ .error e := by
    intro e he
    rcases b with β | l
    · exact hs ((C20_ell_deep_fails_iff hE hg).1 he).1
    · rcases l with _ | ⟨b0, _ | ⟨b1, l⟩⟩
      · exact hb
      · have h1 : update (g, .scalar b0) E = .error e := by simpa only [update, calcLl] using he
        exact hs ((C20_ell_deep_fails_iff hE hg).1 h1).1
      · obtain ⟨-, h⟩ := (C20_ell_parallel_fails_iff hE hg).1 he
        simp only at h
        split_ifs at h
        · exact hs (.inl h)
        · exact hs (.inr h.1)
  rcases hu : update (g, b) E with e | ⟨E', st, tsq⟩
  · exact absurd hu (key e)
  · exact ⟨E', st, tsq, rfl, C20_ell_proper hE hg hb hu⟩

/-- **C20** (histories).  From a proper ellipsoid (positive definite, `κ > 0`), along every finite sequence of cuts each of
which has a nonzero gradient, cuts the ellipsoid of its time, and avoids the two singularities of the formulas: no update raises, and
the ellipsoid stays positive definite with `κ > 0` throughout (the statement holds for every prefix). -/
theorem C20_ell_history (cs : List ((Fin n → ℝ) × Beta)) {E : Ell n} (hE : E.Proper)
    (hp : ∀ p c s, cs = p ++ c :: s → ∀ E' l, Ell.run p E = .ok (E', l) → goodCut E' c) :
    ∃ E' l, Ell.run cs E = .ok (E', l) ∧ l.length = cs.length ∧ E'.Proper := by
  induction cs generalizing E with
  | nil => exact ⟨E, [], rfl, rfl, hE⟩
  | cons c cs ih =>
    obtain ⟨E1, st, tsq, h1, h2⟩ := C20_ell_no_error hE (hp [] c cs rfl E [] rfl)
    obtain ⟨E2, l, h3, h4, h5⟩ := ih h2 (by
      rintro p c' s rfl E' l hrun
      refine hp (c :: p) c' s rfl E' ((st, tsq, E1.xc) :: l) ?_
      simp [Ell.run, h1, hrun])
    exact ⟨E2, (st, tsq, E1.xc) :: l, by simp [Ell.run, h1, h3], by simp [h4], h5⟩

/-- Two cuts in a row: a central one, then one with two sides. -/
example : ∃ E' l, Ell.run [(![1, 0], .scalar 0), (![0, 3], .seq [1, 2])] (⟨true, false, 0, 1, 4⟩ : Ell 2) = .ok (E', l) ∧
    l.length = 2 ∧ E'.Proper := by
  have hs : ∀ a b : ℝ, 0 ≤ b → a = b ^ 2 → √a = b := fun a b hb h => by rw [h, Real.sqrt_sq hb]
  have h1 : (⟨true, false, 0, 1, 4⟩ : Ell 2).Proper := ⟨le_rfl, Matrix.PosDef.one, by norm_num⟩
  refine C20_ell_history _ h1 fun p c s hp E' l hr => ?_
  rcases p with _ | ⟨a, _ | ⟨b, p⟩⟩
  · simp only [List.nil_append, List.cons.injEq] at hp
    obtain ⟨rfl, -⟩ := hp
    simp only [Ell.run, Except.ok.injEq, Prod.mk.injEq] at hr
    obtain ⟨rfl, -⟩ := hr
    have hw : √((4 : ℝ) * (![1, 0] ⬝ᵥ (1 : Matrix (Fin 2) (Fin 2) ℝ) *ᵥ ![1, 0])) = 2 := hs _ _ (by norm_num) (by simp; norm_num)
    refine ⟨fun h => by simpa using congrFun h 0, ?_, ?_⟩
    · simp only [nondegenerate]; rw [hw]; norm_num
    · simp only [singularCut]; rw [hw]; norm_num
  · simp only [List.cons_append, List.nil_append, List.cons.injEq] at hp
    obtain ⟨rfl, rfl, -⟩ := hp
    simp only [Ell.run, centralStep, Except.ok.injEq, Prod.mk.injEq] at hr
    obtain ⟨rfl, -⟩ := hr
    have hq : (16 / 3 : ℝ) * (![0, 3] ⬝ᵥ !![1 / 3, 0; 0, 1] *ᵥ ![0, 3]) = 48 := by
      simp [Matrix.mulVec, dotProduct, Fin.sum_univ_two]; norm_num
    have h6 : (6 : ℝ) < √48 := by rw [Real.lt_sqrt] <;> norm_num
    refine ⟨fun h => by simpa using congrFun h 1, ?_, ?_⟩
    · simp only [nondegenerate]; rw [hq]; refine ⟨?_, ?_, ?_⟩ <;> linarith
    · simp only [singularCut]; rw [hq]; rintro (h | h) <;> norm_num at h; linarith
  · simp at hp

end Verif
