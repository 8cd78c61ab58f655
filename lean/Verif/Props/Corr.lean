import Mathlib.Analysis.InnerProductSpace.PiL2
import Mathlib.Data.List.GetD
import Mathlib.Tactic.Linarith
import Mathlib.Tactic.Ring
import Verif.Model.Corr
import Verif.Spec.CorrSpec

/-! # C53 – C55: monotone oracles, distance matrices, correlation functions -/
namespace Verif

/-! ## C53 -/
section mono
variable {α : Type _} [Field α] [LinearOrder α] [IsStrictOrderedRing α]

omit [LinearOrder α] [IsStrictOrderedRing α] in
theorem ldot_step (n i : ℕ) (hi : i + 1 < n) (z : List α) :
    ldot (((List.replicate n (0 : α)).set i (-1)).set (i + 1) 1) z = z.getD (i + 1) 0 - z.getD i 0 := by
  unfold ldot
  have hg : ∀ j ∈ Finset.range (((List.replicate n (0 : α)).set i (-1)).set (i + 1) 1).length,
      (((List.replicate n (0 : α)).set i (-1)).set (i + 1) 1).getD j 0 * z.getD j 0 =
        (if j = i + 1 then z.getD (i + 1) 0 else 0) - if j = i then z.getD i 0 else 0 := by
    intro j hj
    have hj' : j < n := by simpa using hj
    rw [List.getD_eq_getElem _ _ (by simpa using hj'), List.getElem_set]
    by_cases h1 : j = i + 1
    · subst h1
      rw [if_pos rfl, if_pos rfl, if_neg (by omega)]; ring
    · rw [if_neg (by omega), if_neg h1, List.getElem_set]
      by_cases h2 : j = i
      · subst h2
        rw [if_pos rfl, if_pos rfl]; ring
      · rw [if_neg (by omega), if_neg h2, List.getElem_replicate]; ring
  rw [Finset.sum_congr rfl hg, Finset.sum_sub_distrib, Finset.sum_ite_eq', Finset.sum_ite_eq']
  simp only [List.length_set, List.length_replicate, Finset.mem_range]
  rw [if_pos hi, if_pos (by omega)]

theorem monoScan_spec (x : List α) : ∀ is : List ℕ, (∀ i ∈ is, i + 1 < x.length) →
    (monoScan x is = none ∧ ∀ i ∈ is, x.getD (i + 1) 0 ≤ x.getD i 0) ∨
    ∃ i ∈ is, x.getD i 0 < x.getD (i + 1) 0 ∧
      monoScan x is = some (((List.replicate x.length (0 : α)).set i (-1)).set (i + 1) 1,
        x.getD (i + 1) 0 - x.getD i 0)
  | [], _ => .inl ⟨rfl, by simp⟩
  | i :: is, h => by
    by_cases hc : 0 < x.getD (i + 1) 0 - x.getD i 0
    · right
      refine ⟨i, by simp, by linarith, ?_⟩
      simp only [monoScan]
      rw [if_pos hc]
    · have e : monoScan x (i :: is) = monoScan x is := by
        simp only [monoScan]
        rw [if_neg hc]
      rw [e]
      rcases monoScan_spec x is (fun j hj => h j (List.mem_cons_of_mem _ hj)) with ⟨h1, h2⟩ | ⟨j, hj, h1, h2⟩
      · left
        refine ⟨h1, fun j hj => ?_⟩
        rcases List.mem_cons.1 hj with rfl | hj
        · linarith
        · exact h2 j hj
      · right
        exact ⟨j, List.mem_cons_of_mem _ hj, h1, h2⟩

omit [IsStrictOrderedRing α] in
theorem nonIncr_getD {z : List α} (h : NonIncr z) {i : ℕ} (hi : i + 1 < z.length) :
    z.getD (i + 1) 0 ≤ z.getD i 0 := by
  rw [List.getD_eq_getElem _ _ hi, List.getD_eq_getElem _ _ (by omega)]
  exact h i hi

/-- **C53** (`mono_oracle`).  The answer is `None` exactly for non-increasing vectors; otherwise the violation is
positive and every non-increasing `z` of the same length satisfies the cut `g'(z - x) + fj ≤ 0`. -/
theorem C53_mono_oracle (x : List α) :
    (monoOracle x = none ↔ NonIncr x) ∧
    ∀ g fj, monoOracle x = some (g, fj) → g.length = x.length ∧ 0 < fj ∧ ldot g x = fj ∧
      ∀ z : List α, z.length = x.length → NonIncr z → ldot g z - ldot g x + fj ≤ 0 := by
  have hmem : ∀ i ∈ List.range (x.length - 1), i + 1 < x.length := by
    intro i hi; rw [List.mem_range] at hi; omega
  rcases monoScan_spec x (List.range (x.length - 1)) hmem with ⟨h1, h2⟩ | ⟨i, hi, h1, h2⟩
  · have hN : NonIncr x := by
      intro i hi
      have := h2 i (by rw [List.mem_range]; omega)
      rwa [List.getD_eq_getElem _ _ hi, List.getD_eq_getElem _ _ (by omega)] at this
    refine ⟨⟨fun _ => hN, fun _ => h1⟩, fun g fj h => ?_⟩
    rw [monoOracle, h1] at h
    cases h
  · have hi' := hmem i hi
    refine ⟨⟨fun h => ?_, fun h => ?_⟩, fun g fj h => ?_⟩
    · rw [monoOracle, h2] at h; cases h
    · exact absurd (nonIncr_getD h hi') (not_le.2 h1)
    · rw [monoOracle, h2] at h
      injection h with h
      rw [Prod.mk.injEq] at h
      obtain ⟨rfl, rfl⟩ := h
      refine ⟨by simp, by linarith, ldot_step _ _ hi' x, fun z hz hN => ?_⟩
      rw [ldot_step _ _ hi' x, ldot_step _ _ hi' z]
      have := nonIncr_getD hN (i := i) (by omega)
      linarith

omit [LinearOrder α] [IsStrictOrderedRing α] in
theorem ldot_concat (g z : List α) (hz : z.length = g.length + 1) : ldot (g ++ [0]) z = ldot g z.dropLast := by
  unfold ldot
  rw [List.length_append, List.length_singleton, Finset.sum_range_succ]
  have h0 : (g ++ [(0 : α)]).getD g.length 0 = 0 := by
    rw [List.getD_append_right _ _ _ _ le_rfl]; simp
  rw [h0, zero_mul, add_zero]
  apply Finset.sum_congr rfl
  intro i hi
  rw [Finset.mem_range] at hi
  rw [List.getD_append _ _ _ _ hi, List.getD_eq_getElem z _ (by omega),
    List.getD_eq_getElem z.dropLast _ (by simp; omega), List.getElem_dropLast]

/-- **C53** (`mono_decreasing_oracle2`).  If `x[:-1]` is non-increasing the answer is that of the wrapped oracle,
exceptions and state change included.  Otherwise the wrapped oracle is not called; the answer has no value and a cut
whose last component is zero, with positive violation, satisfied by every `z` with `z[:-1]` non-increasing. -/
theorem C53_mono_decreasing2 {W : Type _} (basis : W → List α → α → Except PyErr (W × (List α × α) × Option α))
    (w : W) (x : List α) (t : α) :
    (NonIncr x.dropLast → monoDecreasing2 basis w x t = basis w x t) ∧
    (¬ NonIncr x.dropLast → ∃ g fj, monoDecreasing2 basis w x t = .ok (w, (g, fj), none) ∧ g.length = x.length ∧
      g.getLast? = some 0 ∧ 0 < fj ∧
      ∀ z : List α, z.length = x.length → NonIncr z.dropLast → ldot g z - ldot g x + fj ≤ 0) := by
  obtain ⟨h1, h2⟩ := C53_mono_oracle x.dropLast
  constructor
  · intro h
    simp only [monoDecreasing2, h1.2 h]
  · intro h
    obtain ⟨⟨g1, fj⟩, hg⟩ : ∃ c, monoOracle x.dropLast = some c := by
      cases hc : monoOracle x.dropLast with
      | none => exact absurd (h1.1 hc) h
      | some c => exact ⟨c, rfl⟩
    obtain ⟨a, b, c, d⟩ := h2 g1 fj hg
    have hne : x ≠ [] := by rintro rfl; exact h (by intro i hi; simp at hi)
    have hlen : x.length = g1.length + 1 := by
      have := List.length_pos_iff.2 hne
      simp at a; omega
    refine ⟨g1 ++ [0], fj, by simp only [monoDecreasing2, hg], by simp [hlen], by simp, b, fun z hz hN => ?_⟩
    rw [ldot_concat g1 z (by omega), ldot_concat g1 x hlen]
    exact d z.dropLast (by simp; omega) hN

/-- **C53** (use).  Wrapping adds the constraint: if every cut of the wrapped oracle keeps the points of `A` at the
level after the call, every cut of the wrapper keeps the points of `A` whose leading part is non-increasing, and a
value is only reported at points whose leading part is non-increasing. -/
theorem C53_mono_wrapper_sound {W : Type _} (basis : W → List α → α → Except PyErr (W × (List α × α) × Option α))
    (A : α → List α → Prop) (w : W) (x : List α) (t : α)
    (hb : ∀ w' g b t1, basis w x t = .ok (w', (g, b), t1) →
      ∀ z, z.length = x.length → A (t1.getD t) z → ldot g z - ldot g x + b ≤ 0)
    {w' : W} {g : List α} {b : α} {t1 : Option α} (h : monoDecreasing2 basis w x t = .ok (w', (g, b), t1)) :
    (∀ z, z.length = x.length → A (t1.getD t) z → NonIncr z.dropLast → ldot g z - ldot g x + b ≤ 0) ∧
    (t1.isSome → NonIncr x.dropLast) := by
  obtain ⟨h1, h2⟩ := C53_mono_decreasing2 basis w x t
  by_cases hN : NonIncr x.dropLast
  · rw [h1 hN] at h
    exact ⟨fun z hz hA _ => hb _ _ _ _ h z hz hA, fun _ => hN⟩
  · obtain ⟨g', fj, e, -, -, -, hk⟩ := h2 hN
    rw [e] at h
    simp only [Except.ok.injEq, Prod.mk.injEq] at h
    obtain ⟨-, ⟨rfl, rfl⟩, rfl⟩ := h
    exact ⟨fun z hz _ hz' => hk z hz hz', by simp⟩

end mono

/-- Non-vacuity: `[3, 1, 2]` is cut, `[3, 2, 2]` is not. -/
example : monoOracle ([3, 1, 2] : List ℚ) = some ([0, -1, 1], 1) ∧ monoOracle ([3, 2, 2] : List ℚ) = none := by
  constructor <;> with_unfolding_all rfl

/-! ## C54 -/
section dist
variable {n d : ℕ}

theorem siteDist_eq (s : Fin n → Fin d → ℝ) (i j : Fin n) :
    siteDist s i j = dist (WithLp.toLp 2 (s i) : EuclideanSpace ℝ (Fin d)) (WithLp.toLp 2 (s j)) := by
  rw [EuclideanSpace.dist_eq]
  unfold siteDist
  congr 1
  apply Finset.sum_congr rfl
  intro k _
  rw [Real.dist_eq, sq_abs]
  simp only
  ring

theorem siteDist_comm (s : Fin n → Fin d → ℝ) (i j : Fin n) : siteDist s i j = siteDist s j i := by
  rw [siteDist_eq, siteDist_eq, dist_comm]

theorem storeDist_apply (s : Fin n → Fin d → ℝ) (i j : Fin n) (D : Fin n → Fin n → ℝ) (a b : Fin n) :
    storeDist s i D j a b = if (a = i ∧ b = j) ∨ (a = j ∧ b = i) then siteDist s a b else D a b := by
  unfold storeDist
  simp only [Function.update_apply]
  by_cases h1 : a = j
  · subst h1
    by_cases h2 : b = i
    · subst h2
      simp [siteDist_comm s a b]
    · simp only [if_true, h2, and_false, or_false]
      by_cases h3 : a = i
      · subst h3
        by_cases h4 : b = a
        · exact absurd h4 h2
        · simp [h4]
      · simp [h3, Function.update_of_ne h2]
  · by_cases h3 : a = i
    · subst h3
      by_cases h4 : b = j
      · subst h4; simp [h1]
      · simp [h1, h4]
    · simp [h1, h3]

theorem rowFold_apply (s : Fin n → Fin d → ℝ) (i : Fin n) (l : List (Fin n)) (D : Fin n → Fin n → ℝ) (a b : Fin n) :
    l.foldl (storeDist s i) D a b =
      if (a = i ∧ b ∈ l) ∨ (b = i ∧ a ∈ l) then siteDist s a b else D a b := by
  induction l generalizing D with
  | nil => simp
  | cons j l ih =>
    rw [List.foldl_cons, ih, storeDist_apply]
    by_cases h1 : (a = i ∧ b ∈ l) ∨ (b = i ∧ a ∈ l)
    · rw [if_pos h1, if_pos]
      rcases h1 with ⟨h, h'⟩ | ⟨h, h'⟩
      · exact .inl ⟨h, List.mem_cons_of_mem _ h'⟩
      · exact .inr ⟨h, List.mem_cons_of_mem _ h'⟩
    · rw [if_neg h1]
      have : ((a = i ∧ b = j) ∨ (a = j ∧ b = i)) ↔ ((a = i ∧ b ∈ j :: l) ∨ (b = i ∧ a ∈ j :: l)) := by
        simp only [List.mem_cons]
        tauto
      simp only [this]

theorem matFold_apply (s : Fin n → Fin d → ℝ) (l : List (Fin n)) (D : Fin n → Fin n → ℝ) (a b : Fin n) :
    l.foldl (fun D i => ((List.finRange n).filter (i < ·)).foldl (storeDist s i) D) D a b =
      if (a ∈ l ∧ a < b) ∨ (b ∈ l ∧ b < a) then siteDist s a b else D a b := by
  induction l generalizing D with
  | nil => simp
  | cons i l ih =>
    rw [List.foldl_cons, ih, rowFold_apply]
    simp only [List.mem_filter, List.mem_finRange, true_and, decide_eq_true_eq]
    by_cases h1 : (a ∈ l ∧ a < b) ∨ (b ∈ l ∧ b < a)
    · rw [if_pos h1, if_pos]
      rcases h1 with ⟨h, h'⟩ | ⟨h, h'⟩
      · exact .inl ⟨List.mem_cons_of_mem _ h, h'⟩
      · exact .inr ⟨List.mem_cons_of_mem _ h, h'⟩
    · rw [if_neg h1]
      have : ((a = i ∧ i < b) ∨ (b = i ∧ i < a)) ↔ ((a ∈ i :: l ∧ a < b) ∨ (b ∈ i :: l ∧ b < a)) := by
        simp only [List.mem_cons]
        constructor
        · rintro (⟨rfl, h⟩ | ⟨rfl, h⟩)
          · exact .inl ⟨.inl rfl, h⟩
          · exact .inr ⟨.inl rfl, h⟩
        · rintro (⟨rfl | h, h'⟩ | ⟨rfl | h, h'⟩)
          · exact .inl ⟨rfl, h'⟩
          · exact absurd (.inl ⟨h, h'⟩) h1
          · exact .inr ⟨rfl, h'⟩
          · exact absurd (.inr ⟨h, h'⟩) h1
      simp only [this]

/-- **C54** (distances).  The matrix holds the Euclidean distances; it is symmetric with zero diagonal. -/
theorem C54_distance_matrix (s : Fin n → Fin d → ℝ) (i j : Fin n) :
    constructDistanceMatrix s i j = dist (WithLp.toLp 2 (s i) : EuclideanSpace ℝ (Fin d)) (WithLp.toLp 2 (s j)) ∧
    constructDistanceMatrix s i j = constructDistanceMatrix s j i ∧ constructDistanceMatrix s i i = 0 := by
  have key : ∀ i j, constructDistanceMatrix s i j = siteDist s i j := by
    intro i j
    unfold constructDistanceMatrix
    rw [matFold_apply]
    by_cases h : i = j
    · subst h
      have : siteDist s i i = 0 := by rw [siteDist_eq, dist_self]
      rw [this]; simp
    · rw [if_pos]
      rcases lt_or_gt_of_ne h with h' | h'
      · exact .inl ⟨List.mem_finRange _, h'⟩
      · exact .inr ⟨List.mem_finRange _, h'⟩
  refine ⟨by rw [key, siteDist_eq], by rw [key, key, siteDist_comm], by rw [key, siteDist_eq, dist_self]⟩

theorem polyLoop_eq (D1 : Fin n → Fin n → ℝ) : ∀ (k c : ℕ) (Sig : List (Fin n → Fin n → ℝ)),
    polyLoop D1 k (fun i j => D1 i j ^ c) Sig =
      Sig ++ (List.range k).map fun q => fun i j => D1 i j ^ (c + 1 + q)
  | 0, c, Sig => by simp [polyLoop]
  | k + 1, c, Sig => by
    have e : (fun i j => D1 i j ^ c * D1 i j) = fun i j => D1 i j ^ (c + 1) := by
      funext i j; rw [pow_succ]
    simp only [polyLoop, e]
    rw [polyLoop_eq D1 k (c + 1), List.range_succ_eq_map, List.map_cons, List.map_map, List.append_assoc]
    congr 1
    simp only [List.singleton_append, List.cons.injEq, add_zero, true_and]
    apply List.map_congr_left
    intro q _
    funext i j
    simp only [Function.comp_apply]
    congr 1
    omega

/-- **C54** (powers).  For `m ≥ 1` there are `m` matrices; the `k`-th holds the `k`-th powers of the distances
(`0^0 = 1`), so each is symmetric. -/
theorem C54_poly_matrix (s : Fin n → Fin d → ℝ) (m : ℕ) (hm : 1 ≤ m) :
    (constructPolyMatrix s m).length = m ∧
    ∀ k i j, ∀ h : k < (constructPolyMatrix s m).length, (constructPolyMatrix s m)[k] i j =
      dist (WithLp.toLp 2 (s i) : EuclideanSpace ℝ (Fin d)) (WithLp.toLp 2 (s j)) ^ k := by
  have e : constructPolyMatrix s m =
      (List.range m).map fun q => fun i j => constructDistanceMatrix s i j ^ q := by
    have hone : (fun _ _ => 1 : Fin n → Fin n → ℝ) = fun i j => constructDistanceMatrix s i j ^ 0 := by
      funext i j; rw [pow_zero]
    unfold constructPolyMatrix
    simp only
    rw [hone, polyLoop_eq]
    obtain ⟨m, rfl⟩ : ∃ m', m = m' + 1 := ⟨m - 1, by omega⟩
    have : (((m + 1 : ℕ) : ℤ) - 1).toNat = m := by omega
    rw [this, List.range_succ_eq_map, List.map_cons, List.map_map, List.singleton_append]
    congr 1
    apply List.map_congr_left
    intro q _
    funext i j
    simp only [Function.comp_apply]
    congr 1
    omega
  refine ⟨by rw [e]; simp, fun k i j h => ?_⟩
  have e' : (constructPolyMatrix s m)[k] = fun i j => constructDistanceMatrix s i j ^ k := by
    rw [List.getElem_of_eq e, List.getElem_map, List.getElem_range]
  simp only [e']
  rw [(C54_distance_matrix s i j).1]

/-- **C54** (degenerate degree).  For `m ≤ 0` the result still has one matrix. -/
theorem C54_poly_matrix_zero (s : Fin n → Fin d → ℝ) (m : ℤ) (hm : m ≤ 0) :
    constructPolyMatrix s m = [fun _ _ => 1] := by
  unfold constructPolyMatrix
  have : (m - 1).toNat = 0 := by omega
  simp only [this, polyLoop]

/-! ## C55 -/

theorem poly1dEval_reverse (a : List ℝ) (x : ℝ) :
    poly1dEval a.reverse x = ∑ k ∈ Finset.range a.length, a.getD k 0 * x ^ k := by
  unfold poly1dEval
  induction a with
  | nil => simp
  | cons c a ih =>
    rw [List.reverse_cons, List.foldl_append, ih, List.length_cons, Finset.sum_range_succ', List.foldl_cons,
      List.foldl_nil, Finset.sum_mul]
    simp only [List.getD_cons_succ, List.getD_cons_zero, pow_zero, mul_one]
    congr 1
    apply Finset.sum_congr rfl
    intro k _
    rw [pow_succ]; ring

/-- **C55.**  The polynomial returned by `corr_poly`, evaluated at the distance of two sites, is the corresponding
entry of the fitted matrix `Σ a_k Sig_k`, where `a` is the solver's answer and `Sig` the matrices handed to the
oracle; the other two results are passed through, and exceptions of the solver are. -/
theorem C55_corr_poly {O Y I : Type _} (y : Y) (s : Fin n → Fin d → ℝ) (m : ℕ) (hm : 1 ≤ m)
    (oracle : List (Fin n → Fin n → ℝ) → Y → O) (corrCore : Y → ℤ → O → Except PyErr (List ℝ × I × Bool)) :
    ∃ Sig : List (Fin n → Fin n → ℝ), Sig.length = m ∧
      (∀ k, k < m → ∀ i j, (Sig.getD k 0) i j =
        dist (WithLp.toLp 2 (s i) : EuclideanSpace ℝ (Fin d)) (WithLp.toLp 2 (s j)) ^ k) ∧
      (∀ e, corrCore y m (oracle Sig y) = .error e → corrPoly y s m oracle corrCore = .error e) ∧
      ∀ a it fe, a.length = m → corrCore y m (oracle Sig y) = .ok (a, it, fe) →
        ∃ pa, corrPoly y s m oracle corrCore = .ok (pa, it, fe) ∧
          ∀ i j, poly1dEval pa (dist (WithLp.toLp 2 (s i) : EuclideanSpace ℝ (Fin d)) (WithLp.toLp 2 (s j))) =
            ∑ k : Fin m, a.getD k 0 * (Sig.getD k 0) i j := by
  obtain ⟨h1, h2⟩ := C54_poly_matrix s m hm
  refine ⟨constructPolyMatrix s m, h1, fun k hk i j => ?_, fun e he => ?_, fun a it fe ha hc => ⟨a.reverse, ?_, fun i j => ?_⟩⟩
  · rw [List.getD_eq_getElem (constructPolyMatrix s m) _ (by rw [h1]; exact hk), h2]
  · simp only [corrPoly, he]
  · simp only [corrPoly, hc]
  · rw [poly1dEval_reverse, ha, Finset.sum_range]
    apply Finset.sum_congr rfl
    intro k _
    rw [List.getD_eq_getElem (constructPolyMatrix s m) _ (by rw [h1]; exact k.2), h2]

/-- **C55** (splines).  If spline evaluation is linear in the coefficients, the spline returned by `corr_bspline`,
evaluated at the distance of two sites, is the corresponding entry of `Σ c_k Sig_k`, with the matrices handed to the
oracle. -/
theorem C55_corr_bspline {m : ℕ} {O P Y I T : Type _} (bspl : T → (Fin m → ℝ) → ℝ → ℝ)
    (hlin : ∀ t c x, bspl t c x = ∑ k, c k * bspl t (Pi.single k 1) x)
    (knots : (Fin n → Fin d → ℝ) → ℕ → T) (y : Y) (s : Fin n → Fin d → ℝ)
    (oracle : (Fin m → Fin n → Fin n → ℝ) → Y → O) (mono : O → P)
    (corrCore : Y → ℕ → P → Except PyErr ((Fin m → ℝ) × I × Bool)) :
    ∃ Sig : Fin m → Fin n → Fin n → ℝ,
      (∀ k i j, Sig k i j = Sig k j i ∧ Sig k i j = bspl (knots s m) (Pi.single k 1)
        (dist (WithLp.toLp 2 (s i) : EuclideanSpace ℝ (Fin d)) (WithLp.toLp 2 (s j)))) ∧
      (∀ e, corrCore y m (mono (oracle Sig y)) = .error e → corrBspline bspl knots y s oracle mono corrCore = .error e) ∧
      ∀ c it fe, corrCore y m (mono (oracle Sig y)) = .ok (c, it, fe) →
        corrBspline bspl knots y s oracle mono corrCore = .ok ((knots s m, c), it, fe) ∧
          ∀ i j, bspl (knots s m) c (dist (WithLp.toLp 2 (s i) : EuclideanSpace ℝ (Fin d)) (WithLp.toLp 2 (s j))) =
            ∑ k, c k * Sig k i j := by
  refine ⟨bsplineSig bspl (knots s m) s, fun k i j => ⟨?_, ?_⟩, fun e he => ?_, fun c it fe hc => ⟨?_, fun i j => ?_⟩⟩
  · simp only [bsplineSig, (C54_distance_matrix s i j).2.1]
  · simp only [bsplineSig, (C54_distance_matrix s i j).1]
  · simp only [corrBspline, he]
  · simp only [corrBspline, hc]
  · rw [hlin]
    simp only [bsplineSig, (C54_distance_matrix s i j).1]

end dist

/-- Non-vacuity: two sites at distance 5, coefficients `1 + 2x`, value 11. -/
example : ∃ pa, corrPoly (I := ℕ) () (![![0, 0], ![3, 4]] : Fin 2 → Fin 2 → ℝ) (2 : ℕ) (fun _ _ => ())
    (fun _ _ _ => .ok ([1, 2], 7, true)) = .ok (pa, 7, true) ∧ poly1dEval pa 5 = 11 := by
  refine ⟨[2, 1], ?_, by norm_num [poly1dEval]⟩
  simp only [corrPoly, List.reverse_cons, List.reverse_nil, List.nil_append, List.singleton_append]

example : constructDistanceMatrix (![![0, 0], ![3, 4]] : Fin 2 → Fin 2 → ℝ) 1 0 = 5 := by
  rw [(C54_distance_matrix _ 1 0).1, EuclideanSpace.dist_eq]
  simp only [Fin.sum_univ_two, Real.dist_eq, sq_abs]
  rw [show (5 : ℝ) = Real.sqrt (5 ^ 2) by rw [Real.sqrt_sq]; norm_num]
  congr 1
  norm_num [Matrix.cons_val_zero, Matrix.cons_val_one]

end Verif
