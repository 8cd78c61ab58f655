import Verif.Model.CorrBsplineTest
import Verif.Props.Bspline
import Verif.Props.CorrTest

/-!
# C112: the spline fits of `tests/test_corr_bspline_fn.tpy`, end to end
-/
namespace Verif
open Matrix

variable {N d m k : ℕ}

/-- The matrix `S(‖s_i - s_j‖)` of the spline `S` with knots `t` and coefficients `c` on the sites `s`. -/
noncomputable def splMat (s : Fin (N + 1) → Fin d → ℝ) (t : ℕ → ℝ) (c : Fin m → ℝ) : Matrix (Fin (N + 1)) (Fin (N + 1)) ℝ :=
  Matrix.of fun i j => bsplEval 2 t c (dist (WithLp.toLp 2 (s i) : EuclideanSpace ℝ (Fin d)) (WithLp.toLp 2 (s j)))

/-- Every one of the first entries of `z` (all but the last) exceeds its successor by at least `δ`. -/
def DropBy (δ : ℝ) (z : Fin k → ℝ) : Prop := ∀ i (h : i + 2 < k), z ⟨i + 1, by omega⟩ + δ ≤ z ⟨i, by omega⟩

theorem getD_dropLast_ofFn (z : Fin k → ℝ) {i : ℕ} (hi : i + 1 < k) : (List.ofFn z).dropLast.getD i 0 = z ⟨i, by omega⟩ := by
  rw [List.getD_eq_getElem _ _ (by simp; omega), List.getElem_dropLast, List.getElem_ofFn]

/-- What the wrapper answers. -/
theorem mono_answer {W : Type _} (P : DcObj k W) (x : Fin k → ℝ) (t : WithTop ℝ) (w : W) :
    (DropBy 0 x ∧ (monoDcObj P).call x t w = P.call x t w) ∨
    ∃ g β, (monoDcObj P).call x t w = .ok (w, (g, .scalar β), none) ∧ 0 ≤ β ∧
      ∀ z δ, 0 ≤ δ → DropBy δ z → g ⬝ᵥ (z - x) + β ≤ -δ := by
  have hlen : (List.ofFn x).dropLast.length = k - 1 := by simp
  have hmem : ∀ i ∈ List.range ((List.ofFn x).dropLast.length - 1), i + 1 < (List.ofFn x).dropLast.length := by
    intro i hi; rw [List.mem_range] at hi; omega
  rcases monoScan_spec (List.ofFn x).dropLast _ hmem with ⟨h1, h2⟩ | ⟨i, hi, h1, h2⟩
  · left
    refine ⟨fun i hi => ?_, by simp only [monoDcObj, monoOracle, h1]⟩
    have := h2 i (by rw [List.mem_range, hlen]; omega)
    rw [getD_dropLast_ofFn x (by omega), getD_dropLast_ofFn x (by omega)] at this
    linarith
  · right
    have hi' := hmem i hi
    rw [hlen] at hi'
    rw [getD_dropLast_ofFn x (by omega), getD_dropLast_ofFn x (by omega)] at h1
    refine ⟨_, _, by simp only [monoDcObj, monoOracle, h2]; rfl, ?_, fun z δ hδ hz => ?_⟩
    · rw [getD_dropLast_ofFn x (by omega), getD_dropLast_ofFn x (by omega)]; linarith
    · rw [getD_dropLast_ofFn x (by omega), getD_dropLast_ofFn x (by omega), hlen]
      have hz := hz i (by omega)
      have hg : ∀ j : Fin k, (((List.replicate (k - 1) (0 : ℝ)).set i (-1)).set (i + 1) 1 ++ [0]).getD j 0 =
          (if j = (⟨i + 1, by omega⟩ : Fin k) then 1 else 0) - if j = (⟨i, by omega⟩ : Fin k) then 1 else 0 := by
        intro j
        simp only [Fin.ext_iff]
        by_cases hj : (j : ℕ) < k - 1
        · rw [List.getD_append _ _ _ _ (by simpa using hj), List.getD_eq_getElem _ _ (by simpa using hj), List.getElem_set, List.getElem_set, List.getElem_replicate]
          by_cases e1 : (j : ℕ) = i + 1
          · rw [if_pos e1.symm, if_pos e1, if_neg (by omega)]; ring
          · rw [if_neg (Ne.symm e1), if_neg e1]
            by_cases e2 : (j : ℕ) = i
            · rw [if_pos e2.symm, if_pos e2]; ring
            · rw [if_neg (Ne.symm e2), if_neg e2]; ring
        · rw [List.getD_append_right _ _ _ _ (by simp; omega), if_neg (by omega), if_neg (by omega)]
          have : (j : ℕ) - (((List.replicate (k - 1) (0 : ℝ)).set i (-1)).set (i + 1) 1).length = 0 := by simp; omega
          rw [this]; simp
      have e : (fun j : Fin k => (((List.replicate (k - 1) (0 : ℝ)).set i (-1)).set (i + 1) 1 ++ [0]).getD j 0) =
          Pi.single (⟨i + 1, by omega⟩ : Fin k) 1 - Pi.single (⟨i, by omega⟩ : Fin k) 1 := by
        funext j
        rw [hg, Pi.sub_apply, Pi.single_apply, Pi.single_apply]
      rw [e, sub_dotProduct, single_dotProduct, single_dotProduct, one_mul, one_mul, Pi.sub_apply, Pi.sub_apply]
      linarith

/-- The wrapper keeps the oracle contract of C92, with the drops as a further constraint. -/
theorem mono_room {W : Type _} {P : DcObj k W} {Room : (Fin k → ℝ) → ℝ → Prop} {f : (Fin k → ℝ) → ℝ} {Inv : W → Prop}
    (h : RoomOracle id Room f Inv P.call) : RoomOracle id (fun z δ => Room z δ ∧ DropBy δ z) f Inv (monoDcObj P).call := by
  intro x t w hw
  rcases mono_answer P x t w with ⟨h1, h2⟩ | ⟨g, β, h1, h2, h3⟩
  · obtain ⟨w', g, β, t1, e1, e2, e3, e4, e5⟩ := h x t w hw
    exact ⟨w', g, β, t1, h2.trans e1, e2, e3, fun s hs => ⟨⟨(e4 s hs).1, h1⟩, (e4 s hs).2⟩, fun z δ hδ hz => e5 z δ hδ hz.1⟩
  · exact ⟨w, g, β, none, h1, hw, h2, by simp, fun z δ hδ hz _ => h3 z δ hδ hz.2⟩

/-! ### `corr_bspline` runs that return -/

theorem corrBsplineSci_ok {O P Y I : Type _} {y : Y} {s : Fin (N + 1) → Fin d → ℝ}
    {oracle : (Fin m → Fin (N + 1) → Fin (N + 1) → ℝ) → Y → O} {mono : O → P}
    {core : Y → ℕ → P → Except PyErr ((Fin m → ℝ) × I × Bool)} {t : ℕ → ℝ} {c : Fin m → ℝ} {it : I} {fe : Bool}
    (h : corrBsplineSci y s oracle mono core = .ok ((t, c), it, fe)) :
    3 ≤ m ∧ s 0 ≠ s (Fin.last N) ∧ ∃ Sig δ, core y m (mono (oracle Sig y)) = .ok (c, it, fe) ∧ 0 < δ ∧ t = unif δ ∧
      (∀ k i j, Sig k i j = Sig k j i) ∧
      ∀ c' : Fin m → ℝ, omegaOf (fun q => Matrix.of (Sig q)) c' = splMat s t c' := by
  have hm : 3 ≤ m := by
    by_contra hc
    rcases Nat.eq_zero_or_pos m with rfl | h0
    · unfold corrBsplineSci at h
      split at h
      · simp at h
      · split at h
        · simp at h
        · simp [bsplCheck] at h
    · rw [C111_corr_bspline_raises y s h0 (.inl (by omega))] at h
      simp at h
  have hs : s 0 ≠ s (Fin.last N) := by
    intro e
    rw [C111_corr_bspline_raises y s (by omega) (.inr e)] at h
    simp at h
  obtain ⟨Sig, t', h1, h2, h3⟩ := C111_corr_bspline y s hm hs oracle mono core
  obtain ⟨Sig', t'', δ, i1, i2, i3, -, i4, -⟩ := C111_info s hm hs
  rw [h1, Except.ok.injEq, Prod.mk.injEq] at i1
  obtain ⟨rfl, rfl⟩ := i1
  cases hc : core y m (mono (oracle Sig y)) with
  | error e => rw [h2 e hc] at h; simp at h
  | ok r =>
    obtain ⟨c0, it0, fe0⟩ := r
    obtain ⟨j1, -⟩ := h3 c0 it0 fe0 hc
    rw [h] at j1
    simp only [Except.ok.injEq, Prod.mk.injEq] at j1
    obtain ⟨⟨rfl, rfl⟩, rfl, rfl⟩ := j1
    refine ⟨hm, hs, Sig, δ, hc, i2, funext i3, i4, fun c' => ?_⟩
    obtain ⟨Sig', t', h1', -, h3'⟩ := C111_corr_bspline y s hm hs oracle mono (fun _ _ _ => .ok (c', it, fe))
    rw [h1, Except.ok.injEq, Prod.mk.injEq] at h1'
    obtain ⟨rfl, rfl⟩ := h1'
    obtain ⟨-, h4⟩ := h3' c' it fe rfl
    ext i j
    rw [splMat, Matrix.of_apply, h4 i j, omegaOf, Matrix.sum_apply]
    rfl

theorem sigs_ofFn (Sig : Fin m → Fin (N + 1) → Fin (N + 1) → ℝ) :
    (fun q : Fin m => npArr ((List.ofFn Sig).getD q 0)) = fun q => arr (Matrix.of (Sig q)) := by
  funext q
  rw [List.getD_eq_getElem _ _ (by simp), List.getElem_ofFn]
  rfl

/-! ### Maximum likelihood -/

/-- **C112** (`mle_corr_bspline` on data that are not positive definite): `LinAlgError`, before any search and whatever the sites. -/
theorem C112_mle_raises (copied : Bool) (opt : Options ℝ) {Y : Matrix (Fin (N + 1)) (Fin (N + 1)) ℝ} (hY : Y.IsHermitian) (hpd : ¬ Y.PosDef)
    (s : Fin (N + 1) → Fin d → ℝ) (m : ℕ) : mleCorrBspline copied opt Y s m = .error .valueError := by
  unfold mleCorrBspline
  rw [if_pos]
  have hYe : (Matrix.of fun i j => if j ≤ i then Y i j else Y j i : Matrix (Fin (N + 1)) (Fin (N + 1)) ℝ) = Y := by
    ext i j
    rw [Matrix.of_apply]
    split_ifs
    · rfl
    · have := congrFun (congrFun hY i) j
      rwa [conjTranspose_apply, star_trivial] at this
  rwa [hYe]

example : mleCorrBspline (N := 1) (d := 1) (m := 3) true ⟨2000, 1 / 10 ^ 8⟩ (0 : Matrix (Fin 2) (Fin 2) ℝ) (fun i _ => i) = .error .valueError :=
  C112_mle_raises true _ (by simp [IsHermitian]) (fun h => by
    have := (Verif.pd_iff.1 h).2 (fun _ => 1) (fun h => by simpa using congrFun h 0)
    simp at this) _ 3

/-- **C112** (`mle_corr_bspline` with the best point copied).  Any symmetric data matrix, any sites, any number `m` of coefficients, any options.  If a
spline is returned, then `m ≥ 3`, the first and last site differ, the flag is `True`, all coefficients but the last do not increase, and the matrix
of the spline on the sites satisfies `0 ≺ Ω ⪯ 2Y`.  If fewer than `max_it` iterations were used it is nearly the best such spline: every other one whose
coefficients are within `√50` of `(1, 0, ..., 0)`, drop by `δ ≥ √tol` each (the last excepted), and with `δI ⪯ Ω' ⪯ 2Y - δI`, has a negative log likelihood
above that of the spline returned minus `δ`. -/
theorem C112_mle_corr_bspline {opt : Options ℝ} {Y : Matrix (Fin (N + 1)) (Fin (N + 1)) ℝ} (hY : Y.IsHermitian) {s : Fin (N + 1) → Fin d → ℝ}
    {t : ℕ → ℝ} {c : Fin m → ℝ} {it : ℕ} {fe : Bool} (h : mleCorrBspline true opt Y s m = .ok ((t, c), it, fe)) :
    3 ≤ m ∧ s 0 ≠ s (Fin.last N) ∧ Y.PosDef ∧ fe = true ∧ DropBy 0 c ∧ (splMat s t c).PosDef ∧ ((2 : ℝ) • Y - splMat s t c).PosSemidef ∧
      ((it : ℤ) < opt.maxIt → ∀ c' : Fin m → ℝ, ∑ i, (c' i - if (i : ℕ) = 0 then 1 else 0) ^ 2 ≤ 50 → ∀ δ, 0 ≤ δ → opt.tol ≤ δ ^ 2 →
        DropBy δ c' → (splMat s t c').PosDef → (splMat s t c' - δ • 1).PosSemidef → ((2 : ℝ) • Y - splMat s t c' - δ • 1).PosSemidef →
        negLogLik Y (splMat s t c) < negLogLik Y (splMat s t c') + δ) := by
  unfold mleCorrBspline at h
  split_ifs at h with hpd
  have hYe : (Matrix.of fun i j => if j ≤ i then Y i j else Y j i : Matrix (Fin (N + 1)) (Fin (N + 1)) ℝ) = Y := by
    ext i j
    rw [Matrix.of_apply]
    split_ifs
    · rfl
    · have := congrFun (congrFun hY i) j
      rwa [conjTranspose_apply, star_trivial] at this
  rw [hYe] at hpd
  obtain ⟨hm, hs, Sig, δ₀, hc, -, -, hsym, hΩ⟩ := corrBsplineSci_ok h
  have hSig : ∀ q, (Matrix.of (Sig q)).IsHermitian := fun q => by
    ext i j; rw [conjTranspose_apply, star_trivial]; exact hsym q j i
  unfold mleCorrCore at hc
  rw [if_neg (by omega)] at hc
  split at hc
  · simp [Except.map] at hc
  rename_i a it' fe' hrun
  simp only [Except.map, Except.ok.injEq, Prod.mk.injEq] at hc
  obtain ⟨hca, rfl, rfl⟩ := hc
  have hca : a = c := by
    rw [← hca]; funext i
    rw [List.getD_eq_getElem _ _ (by simp), List.getElem_ofFn]
  subst hca
  rw [corrSolve, if_pos rfl] at hrun
  unfold corrRunCopied at hrun
  split at hrun
  · simp at hrun
  rename_i E hE
  split at hrun
  · simp at hrun
  · simp at hrun
  rename_i w xb lv info hr
  simp only [Except.ok.injEq, Prod.mk.injEq] at hrun
  obtain ⟨rfl, rfl, rfl⟩ := hrun
  obtain ⟨hwf, -, -, -, hpts⟩ := C24_ell_init_ball (by omega) (by norm_num) hE
  obtain ⟨w, E'⟩ := w
  have hroom : RoomOracle id (MleRoom (fun q => Matrix.of (Sig q)) Y) (mleObj (fun q => Matrix.of (Sig q)) Y)
      (fun o => Ready (N + 1) o.lmi0 ∧ Ready (N + 1) o.lmi) (mleDcObj m (List.ofFn Sig) Y).call := by
    have := mle_roomOracle hSig hY
    unfold mleDcObj
    simp only
    have e := sigs_ofFn Sig
    intro x t w hw
    have := this x t w hw
    unfold mleOmega at this
    rw [← e] at this
    exact this
  obtain ⟨k1, k2⟩ := C92_room_verdict (mono_room hroom) hwf (w₀ := ⟨CholExt.init (N + 1), CholExt.init (N + 1)⟩) ⟨ready_init _, ready_init _⟩ hr
  rcases k1 with ⟨k1, -⟩ | ⟨x, k1, ⟨k3, k4⟩, k5, -⟩
  · simp at k1
  simp only [Option.some.injEq] at k1
  subst k1
  obtain ⟨k6, -, k8⟩ := k3
  rw [hΩ] at k6 k8
  refine ⟨hm, hs, hpd, ?_, k4, k6, by simpa using k8, ?_⟩
  · obtain ⟨s', i, -, -, -, e, rfl⟩ := dc_ok hr
    simp only [decide_eq_true_eq, ne_eq]
    rw [← e]
    intro e2
    rw [e2] at k5
    simp at k5
  · intro hi c' hd δ hδ htol q0 q1 q2 q3
    have := k2 (dc_early_stop hr hi) c' (by rw [hpts]; exact hd) δ hδ htol
      ⟨⟨by rw [hΩ]; exact q1, by rw [hΩ]; exact q2, by rw [hΩ]; exact q3⟩, q0⟩
    rw [k5] at this
    have := WithTop.coe_lt_coe.1 this
    unfold mleObj at this
    rwa [hΩ, hΩ] at this

/-! ### Least squares -/

/-- **C112** (`lsq_corr_bspline2` with the best point copied).  Any data matrix `Y ≠ 0`, any sites, any number `m` of coefficients, any options.  If a
spline is returned, then `m ≥ 3`, the first and last site differ, the flag is `True`, the coefficients do not increase, so that the fitted function does not increase
on the base interval `[t_2, t_m]`; its matrix `Ω` on the sites is positive definite, and there is a `u` above `‖Y - Ω‖²` (spectral norm) such that, if fewer than
`max_it` iterations were used, no other spline does much better: for every `c'` and `τ` in the initial ellipsoid with drops of at least `λ ≥ √tol`,
`Ω' ⪰ λI` and `‖Y - Ω'‖² ≤ τ - λ`: `u < τ + λ`. -/
theorem C112_lsq_corr_bspline2 {opt : Options ℝ} {Y : Matrix (Fin (N + 1)) (Fin (N + 1)) ℝ} (hY : Y ≠ 0) {s : Fin (N + 1) → Fin d → ℝ}
    {t : ℕ → ℝ} {c : Fin m → ℝ} {it : ℕ} {fe : Bool} (h : lsqCorrBspline2 true opt Y s m = .ok ((t, c), it, fe)) :
    3 ≤ m ∧ s 0 ≠ s (Fin.last N) ∧ fe = true ∧ Antitone c ∧ AntitoneOn (bsplEval 2 t c) (Set.Icc (t 2) (t m)) ∧ (splMat s t c).PosDef ∧
    ∃ u : ℝ, SpecBelow (Y - splMat s t c) u ∧
      ((it : ℤ) < opt.maxIt → ∀ (c' : Fin m → ℝ) (τ : ℝ),
        (∑ i, (c' i - if (i : ℕ) = 0 then 1 else 0) ^ 2) / 256 + (τ - 16 * ∑ i, ∑ j, Y i j ^ 2) ^ 2 / (32 * ∑ i, ∑ j, Y i j ^ 2) ^ 2 ≤ 1 →
        ∀ lam, 0 ≤ lam → opt.tol ≤ lam ^ 2 → (∀ i (h : i + 1 < m), c' ⟨i + 1, h⟩ + lam ≤ c' ⟨i, by omega⟩) →
        (splMat s t c' - lam • 1).PosSemidef → SpecAtMost (Y - splMat s t c') (τ - lam) → u < τ + lam) := by
  have hYp : 0 < ∑ i, ∑ j, Y i j ^ 2 := by
    refine lt_of_le_of_ne (Finset.sum_nonneg fun i _ => Finset.sum_nonneg fun j _ => sq_nonneg _) fun h0 => hY ?_
    ext i j
    have h1 := (Finset.sum_eq_zero_iff_of_nonneg fun i _ => Finset.sum_nonneg fun j _ => sq_nonneg (Y i j)).1 h0.symm i (Finset.mem_univ _)
    have h2 := (Finset.sum_eq_zero_iff_of_nonneg fun j _ => sq_nonneg (Y i j)).1 h1 j (Finset.mem_univ _)
    simpa using h2
  set F := ∑ i, ∑ j, Y i j ^ 2 with hF
  have hn2 : 32 * normFro Y * normFro Y = 32 * F := by
    unfold normFro
    rw [mul_assoc, Real.mul_self_sqrt hYp.le]
  obtain ⟨hm, hs, Sig, δ₀, hc, hδ₀, ht, hsym, hΩ⟩ := corrBsplineSci_ok h
  have hSig : ∀ q, (Matrix.of (Sig q)).IsHermitian := fun q => by
    ext i j; rw [conjTranspose_apply, star_trivial]; exact hsym q j i
  unfold lsqCorrCore2 at hc
  simp only [hn2] at hc
  split at hc
  · simp [Except.map] at hc
  rename_i a it' fe' hrun
  simp only [Except.map, Except.ok.injEq, Prod.mk.injEq] at hc
  obtain ⟨hca, rfl, rfl⟩ := hc
  have hca : c = Fin.init a := by
    rw [← hca]; funext i
    rw [List.getD_eq_getElem _ _ (by simp), List.getElem_ofFn]
    rfl
  rw [corrSolve, if_pos rfl] at hrun
  unfold corrRunCopied at hrun
  split at hrun
  · simp at hrun
  rename_i E hE
  split at hrun
  · simp at hrun
  · simp at hrun
  rename_i w xb lv info hr
  simp only [Except.ok.injEq, Prod.mk.injEq] at hrun
  obtain ⟨rfl, rfl, rfl⟩ := hrun
  obtain ⟨hpr, -, hpts⟩ := C24_ell_init_diag (by omega) (fun i => by
    refine Fin.lastCases ?_ (fun i => ?_) i
    · rw [Fin.snoc_last]; positivity
    · rw [Fin.snoc_castSucc]; norm_num) hE
  obtain ⟨w, E'⟩ := w
  have hcall : (lsqDcObj m (List.ofFn Sig) Y).call = lsqOmega (fun q => arr (Matrix.of (Sig q))) (arr Y) (N + 1) := by
    funext x t o
    rw [← sigs_ofFn Sig]; rfl
  have hF' : ∀ q, SymOn (arr (Matrix.of (Sig q))) (N + 1) := fun q => symOn_arr (hSig q)
  have key := C71_dc_ell_verdict (Ω := (monoDcObj (lsqDcObj m (List.ofFn Sig) Y)).call) (fun o _ => Ready (N + 1) o.lmi0 ∧ Ready (N + 1) o.qmi.Q)
    (fun t => {z | ∃ lam, 0 ≤ lam ∧ opt.tol ≤ lam ^ 2 ∧ (LsqSlack (fun q => arr (Matrix.of (Sig q))) (arr Y) (N + 1) lam z ∧ DropBy lam z) ∧
      ((z (Fin.last m) + lam : ℝ) : WithTop ℝ) ≤ t})
    hpr.wf (o := opt) ?_ (w₀ := ⟨⟨⟨0, 0, fun _ _ => 0⟩, CholExt.init (N + 1)⟩, CholExt.init (N + 1)⟩) ⟨ready_init _, ready_init _⟩ hr
  · obtain ⟨h1, -, -, h4⟩ := key
    rcases h4 with ⟨h4, -⟩ | ⟨x, s', u, u', cut, hx, hs', hq⟩
    · simp at h4
    simp only [Option.some.injEq] at hx
    subst hx
    rcases mono_answer (lsqDcObj m (List.ofFn Sig) Y) xb s' u with ⟨hdrop, e⟩ | ⟨g, β, e, -⟩
    swap
    · rw [hq] at e; simp at e
    rw [e, hcall] at hq
    obtain ⟨o', c', t1, e1, -, -, e4, -⟩ := lsqOmega_answer (F0 := arr Y) hF' xb s' hs'
    rw [hq] at e1
    simp only [Except.ok.injEq, Prod.mk.injEq] at e1
    obtain ⟨f1, f2, f3⟩ := e4 lv e1.2.2.symm
    rw [combo_arr, pdOn_arr (omegaOf_herm hSig _), hΩ] at f2
    rw [pencil_arr', pd_ti_iff, hΩ] at f3
    have hanti : Antitone c := by
      obtain ⟨m, rfl⟩ : ∃ m', m = m' + 1 := ⟨m - 1, by omega⟩
      refine Fin.antitone_iff_succ_le.2 fun i => ?_
      have := hdrop i (by omega)
      rw [hca]
      simp only [Fin.init]
      rw [add_zero] at this
      exact this
    subst hca
    refine ⟨hm, hs, ?_, hanti, ?_, f2, xb (Fin.last m), f3, ?_⟩
    · obtain ⟨s', i, -, -, -, e, rfl⟩ := dc_ok hr
      simp only [decide_eq_true_eq, ne_eq]
      rw [← e, f1]
      exact WithTop.coe_ne_top
    · subst ht
      have := (C111_monotone hδ₀ hm (c := fun i => if h : i < m then Fin.init xb ⟨i, h⟩ else 0) (fun i hi => by
        rw [dif_pos hi, dif_pos (by omega)]
        exact hanti (by simp [Fin.le_def]))).1
      have e : (fun j : Fin m => (fun i => if h : i < m then (Fin.init xb : Fin m → ℝ) ⟨i, h⟩ else 0) (j : ℕ)) = (Fin.init xb : Fin m → ℝ) := by
        funext j
        simp only [j.2, dif_pos, Fin.eta]
      rw [e] at this
      simpa [unif] using this
    · intro hi c' τ hd lam hl htol q0 q1 q2
      by_contra hcon
      rw [not_lt] at hcon
      refine h1 (dc_early_stop hr hi) (Fin.snoc c' τ) ⟨lam, hl, htol, ⟨?_, ?_⟩, ?_⟩ ?_
      · unfold LsqSlack
        have ei : (Fin.init (Fin.snoc c' τ : Fin (m + 1) → ℝ) : Fin m → ℝ) = c' := Fin.init_snoc (α := fun _ => ℝ) τ c'
        rw [ei, Fin.snoc_last, combo_arr, pencil_arr', hΩ]
        exact ⟨atLeast_arr q1, atLeast_ti _ _ _ q2⟩
      · intro i hi
        have := q0 i (by omega)
        have a1 := Fin.snoc_castSucc (α := fun _ => ℝ) τ c' ⟨i + 1, by omega⟩
        have a2 := Fin.snoc_castSucc (α := fun _ => ℝ) τ c' ⟨i, by omega⟩
        rw [← a1, ← a2] at this
        exact this
      · rw [Fin.snoc_last, f1]
        exact WithTop.coe_le_coe.2 hcon
      · rw [hpts]
        change ∑ i, _ ≤ (1 : ℝ)
        rw [Fin.sum_univ_castSucc]
        simp only [Fin.snoc_castSucc, Fin.snoc_last]
        rw [← Finset.sum_div]
        have e3 : τ - 32 * F / 2 = τ - 16 * F := by ring
        rw [e3, ← sq (32 * F)]
        exact hd
  · intro x t w w' cut t1 ht hq
    rcases mono_answer (lsqDcObj m (List.ofFn Sig) Y) x t w with ⟨hdrop, e⟩ | ⟨g, β, e, hβ, hg⟩
    · rw [e, hcall] at hq
      obtain ⟨o', c', t1', e1, e2, e3, -, e5, e6⟩ := lsqOmega_answer (F0 := arr Y) hF' x t ht
      rw [hq] at e1
      simp only [Except.ok.injEq, Prod.mk.injEq] at e1
      obtain ⟨rfl, rfl, rfl⟩ := e1
      refine ⟨e2, ?_, e5, ?_⟩
      · rintro z ⟨lam, h0, hd, h1, h2⟩
        exact ⟨lam, h0, hd, h1, h2.trans e3⟩
      · rintro z ⟨lam, h0, hd, h1, h2⟩
        obtain ⟨h3, h4⟩ := e6 z lam h0 h1.1 h2
        exact ⟨h3, by nlinarith⟩
    · rw [hq] at e
      simp only [Except.ok.injEq, Prod.mk.injEq] at e
      obtain ⟨rfl, rfl, rfl⟩ := e
      refine ⟨ht, subset_rfl, hβ, ?_⟩
      rintro z ⟨lam, h0, hd, h1, h2⟩
      have := hg z lam h0 h1.2
      refine ⟨?_, ?_⟩
      · change g ⬝ᵥ (z - x) + β ≤ 0; linarith
      · change opt.tol ≤ (g ⬝ᵥ (z - x)) ^ 2
        nlinarith

/-! ### The code as it is -/

/-- **C112** (the same search).  Keeping a reference to the centre, as the code does, changes neither the exception raised nor the knots, the number of iterations and the
flag; only the coefficients differ (they are those of the final centre, C109). -/
theorem C112_same_search (opt : Options ℝ) (Y : Matrix (Fin (N + 1)) (Fin (N + 1)) ℝ) (s : Fin (N + 1) → Fin d → ℝ) (m : ℕ) :
    SimRes (fun a b => a.1.1 = b.1.1 ∧ a.2 = b.2) (lsqCorrBspline2 false opt Y s m) (lsqCorrBspline2 true opt Y s m) ∧
    SimRes (fun a b => a.1.1 = b.1.1 ∧ a.2 = b.2) (mleCorrBspline false opt Y s m) (mleCorrBspline true opt Y s m) := by
  have gen : ∀ {O P : Type _} (oracle : (Fin m → Fin (N + 1) → Fin (N + 1) → ℝ) → Matrix (Fin (N + 1)) (Fin (N + 1)) ℝ → O) (mono : O → P)
      (c1 c2 : Matrix (Fin (N + 1)) (Fin (N + 1)) ℝ → ℕ → P → Except PyErr ((Fin m → ℝ) × ℕ × Bool)),
      (∀ y k p, SimRes (fun a b => a.2 = b.2) (c1 y k p) (c2 y k p)) →
      SimRes (fun a b => a.1.1 = b.1.1 ∧ a.2 = b.2) (corrBsplineSci Y s oracle mono c1) (corrBsplineSci Y s oracle mono c2) := by
    intro O P oracle mono c1 c2 h
    unfold corrBsplineSci
    cases generateBsplineInfo s m with
    | error e => exact rfl
    | ok r =>
      obtain ⟨Sig, t⟩ := r
      simp only
      rcases (h Y m (mono (oracle Sig Y))).elim with ⟨e, h1, h2⟩ | ⟨⟨a1, a2, a3⟩, ⟨b1, b2, b3⟩, h1, h2, h3⟩
      · rw [h1, h2]; exact rfl
      · rw [h1, h2]
        simp only
        cases bsplCheck 2 m t with
        | error e => exact rfl
        | ok u => exact ⟨rfl, h3⟩
  constructor
  · refine gen _ _ _ _ fun y k P => ?_
    simp only [lsqCorrCore2]
    rcases (C109_same_search opt (.diag (Fin.snoc (fun _ => 256) (32 * normFro y * normFro y * (32 * normFro y * normFro y))))
      (Fin.snoc (fun i => if (i : ℕ) = 0 then 1 else 0) (32 * normFro y * normFro y / 2)) P).elim with ⟨e, h1, h2⟩ | ⟨⟨a1, a2, a3⟩, ⟨b1, b2, b3⟩, h1, h2, h3, -⟩
    · rw [h1, h2]; exact rfl
    · rw [h1, h2]; exact h3
  · unfold mleCorrBspline
    split_ifs
    swap
    · exact rfl
    · refine gen _ _ _ _ fun y k P => ?_
      simp only [mleCorrCore]
      split_ifs
      · exact rfl
      rcases (C109_same_search opt (.scalar 50) (fun i : Fin m => if (i : ℕ) = 0 then (1 : ℝ) else 0) P).elim with
        ⟨e, h1, h2⟩ | ⟨⟨a1, a2, a3⟩, ⟨b1, b2, b3⟩, h1, h2, h3, -⟩
      · rw [h1, h2]; exact rfl
      · rw [h1, h2]; exact h3

/-! ### A run that returns -/

theorem posDef_two {a b : ℝ} (h : |b| < a) : (Matrix.of ![![a, b], ![b, a]] : Matrix (Fin 2) (Fin 2) ℝ).PosDef := by
  obtain ⟨h1, h2⟩ := abs_lt.1 h
  refine Matrix.PosDef.of_dotProduct_mulVec_pos ?_ fun v hv => ?_
  · ext i j; fin_cases i <;> fin_cases j <;> simp
  · have e : star v ⬝ᵥ (Matrix.of ![![a, b], ![b, a]] : Matrix (Fin 2) (Fin 2) ℝ) *ᵥ v =
        (a + b) / 2 * (v 0 + v 1) ^ 2 + (a - b) / 2 * (v 0 - v 1) ^ 2 := by
      simp [dotProduct, mulVec, Fin.sum_univ_two]; ring
    rw [e]
    have hne : v 0 + v 1 ≠ 0 ∨ v 0 - v 1 ≠ 0 := by
      by_contra hc
      push Not at hc
      apply hv
      ext i; fin_cases i
      · simp; linarith
      · simp; linarith
    rcases hne with hne | hne
    · have := sq_pos_of_ne_zero hne
      nlinarith [sq_nonneg (v 0 - v 1)]
    · have := sq_pos_of_ne_zero hne
      nlinarith [sq_nonneg (v 0 + v 1)]

/-- Two sites at distance 1. -/
def exSites : Fin 2 → Fin 1 → ℝ := ![![0], ![1]]

theorem exSites_splMat {t : ℕ → ℝ} {Sig : Fin 3 → Fin 2 → Fin 2 → ℝ} (h : generateBsplineInfo (N := 1) exSites 3 = .ok (Sig, t)) :
    (∀ k i j, Sig k i j = Sig k j i) ∧
    omegaOf (fun q => Matrix.of (Sig q)) (fun i => if (i : ℕ) = 0 then 1 else 0) = Matrix.of ![![9 / 2, 49 / 72], ![49 / 72, 9 / 2]] := by
  have hs : exSites 0 ≠ exSites (Fin.last 1) := fun e => by have := congrFun e 0; simp [exSites, Fin.last] at this
  obtain ⟨Sig', t', δ, h1, hδ, h2, h3, h4, -, h6⟩ := C111_info (N := 1) exSites (m := 3) le_rfl hs
  rw [h, Except.ok.injEq, Prod.mk.injEq] at h1
  obtain ⟨rfl, rfl⟩ := h1
  refine ⟨h4, ?_⟩
  have hd : dist (WithLp.toLp 2 (exSites 0) : EuclideanSpace ℝ (Fin 1)) (WithLp.toLp 2 (exSites 1)) = 1 := by
    rw [EuclideanSpace.dist_eq]; simp [exSites]
  have hδ' : δ = 6 / 25 := by
    rw [h2] at h3
    have : Fin.last 1 = (1 : Fin 2) := rfl
    rw [this, hd] at h3
    push_cast at h3
    linarith
  have ht : t = unif δ := funext h2
  obtain ⟨Sig', t', h1', -, h7⟩ := C111_corr_bspline (N := 1) (I := Unit) () exSites (m := 3) le_rfl hs (fun S _ => S) id
    (fun _ _ _ => .ok ((Pi.single 0 1 : Fin 3 → ℝ), (), true))
  rw [h, Except.ok.injEq, Prod.mk.injEq] at h1'
  obtain ⟨rfl, rfl⟩ := h1'
  obtain ⟨-, h8⟩ := h7 _ _ _ rfl
  have h9 := h8 0 1
  rw [hd, ht] at h9
  obtain ⟨l, l1, l2, -, -, l5⟩ := bsplEval_unif hδ (m := 3) le_rfl (fun j => if j = 0 then (1 : ℝ) else 0) 1
  obtain rfl : l = 2 := by omega
  have e : (Pi.single 0 1 : Fin 3 → ℝ) = fun j : Fin 3 => if (j : ℕ) = 0 then 1 else 0 := by
    funext j; fin_cases j <;> simp
  rw [e, l5, hδ'] at h9
  have h01 : Sig 0 0 1 = 49 / 72 := by
    simp only [Fin.sum_univ_three] at h9
    norm_num [piece] at h9
    exact h9.symm
  have h00 := h6 0 0
  have h11 := h6 0 1
  ext i j
  simp only [omegaOf, Matrix.sum_apply, Fin.sum_univ_three, Matrix.smul_apply, Matrix.of_apply]
  fin_cases i <;> fin_cases j <;> simp [h00, h11, h01, h4 0 1 0]

/-- `C112_lsq_corr_bspline2` applies: two sites, `Y = 9/2·I`, three coefficients, one iteration; the start `(1, 0, 0)` is accepted. -/
example : ∃ t c it, lsqCorrBspline2 true ⟨1, 1 / 10 ^ 8⟩ (Matrix.of ![![9 / 2, 0], ![0, 9 / 2]] : Matrix (Fin 2) (Fin 2) ℝ) exSites 3 = .ok ((t, c), it, true) ∧
    Antitone c ∧ AntitoneOn (bsplEval 2 t c) (Set.Icc (t 2) (t 3)) ∧ (splMat exSites t c).PosDef := by
  set Y : Matrix (Fin 2) (Fin 2) ℝ := Matrix.of ![![9 / 2, 0], ![0, 9 / 2]] with hYdef
  have hfro : 32 * normFro Y * normFro Y = 1296 := by
    have h1 : normFro Y * normFro Y = ∑ i, ∑ j, Y i j ^ 2 :=
      Real.mul_self_sqrt (Finset.sum_nonneg fun i _ => Finset.sum_nonneg fun j _ => sq_nonneg _)
    rw [mul_assoc, h1]
    simp [hYdef, Fin.sum_univ_two]; norm_num
  have hs : exSites 0 ≠ exSites (Fin.last 1) := fun e => by have := congrFun e 0; simp [exSites, Fin.last] at this
  obtain ⟨Sig, t, δ, hgen, hδ, ht, -⟩ := C111_info (N := 1) exSites (m := 3) le_rfl hs
  obtain ⟨hsym, hO⟩ := exSites_splMat hgen
  have hSig : ∀ q, (Matrix.of (Sig q)).IsHermitian := fun q => by
    ext i j; rw [conjTranspose_apply, star_trivial]; exact hsym q j i
  set x₀ : Fin 4 → ℝ := Fin.snoc (fun i : Fin 3 => if (i : ℕ) = 0 then 1 else 0) (1296 / 2) with hx₀
  set val : Fin 4 → ℝ := Fin.snoc (fun _ : Fin 3 => 256) (1296 * 1296) with hval
  obtain ⟨E, hE⟩ : ∃ E, Ell.init (.diag val) x₀ = .ok E := by
    cases h : Ell.init (.diag val) x₀ with
    | ok E => exact ⟨E, rfl⟩
    | error e => exact absurd ((C24_ell_init_fails (.diag val) x₀).1 ⟨e, h⟩) (by norm_num)
  obtain ⟨hpr, hxc, -⟩ := C24_ell_init_diag (by omega) (fun i => by
    refine Fin.lastCases ?_ (fun i => ?_) i
    · rw [hval, Fin.snoc_last]; norm_num
    · rw [hval, Fin.snoc_castSucc]; norm_num) hE
  obtain ⟨Q0, r0, f1, -, f3, -⟩ := C36_lmi0 (fun q => symOn_arr (hSig q)) (Fin.init x₀) (ready_init 2)
  obtain ⟨q1, r1, g1, -, g3, -⟩ := C38_qmi (fun q => arr (Matrix.of (Sig q))) (arr Y) 2
    (fun q => symOn_arr (hSig q)) (x₀ (Fin.last 3)) (Fin.init x₀) (o := ⟨⟨0, 0, fun _ _ => 0⟩, CholExt.init 2⟩) (ready_init 2)
  have hi : (Fin.init x₀ : Fin 3 → ℝ) = fun i : Fin 3 => if (i : ℕ) = 0 then 1 else 0 := by rw [hx₀, Fin.init_snoc]
  obtain rfl : r0 = none := f3.2 (by
    rw [combo_arr, pdOn_arr (omegaOf_herm hSig _), hi, hO]
    exact posDef_two (by norm_num [abs_lt]))
  obtain rfl : r1 = none := g3.2 (by
    rw [pencil_arr', pd_ti_iff, hi, hO]
    intro v hv
    have h0 : 0 < v 0 ^ 2 + v 1 ^ 2 := by
      by_contra hc
      apply hv
      have a0 : v 0 ^ 2 = 0 := le_antisymm (by nlinarith [sq_nonneg (v 1)]) (sq_nonneg _)
      have a1 : v 1 ^ 2 = 0 := le_antisymm (by nlinarith [sq_nonneg (v 0)]) (sq_nonneg _)
      ext i; fin_cases i
      · simpa using a0
      · simpa using a1
    rw [hx₀, Fin.snoc_last]
    simp [Matrix.mulVec, dotProduct, Fin.sum_univ_two, hYdef]
    nlinarith)
  have hcall : (monoDcObj (lsqDcObj 3 (List.ofFn Sig) Y)).call x₀ ⊤
      ⟨⟨⟨0, 0, fun _ _ => 0⟩, CholExt.init 2⟩, CholExt.init 2⟩ =
      .ok (⟨q1, Q0⟩, (Fin.snoc (fun _ => 0) 1, .scalar 0), some ((x₀ (Fin.last 3) : ℝ) : WithTop ℝ)) := by
    have hx : x₀ = ![1, 0, 0, 648] := by
      ext i; fin_cases i
      · norm_num [hx₀, Fin.snoc]
      · norm_num [hx₀, Fin.snoc]; decide
      · norm_num [hx₀, Fin.snoc]
      · norm_num [hx₀, Fin.snoc]
    have hnone : monoOracle (List.ofFn x₀).dropLast = none := by
      have hl : (List.ofFn x₀).dropLast = [1, 0, 0] := by rw [hx]; simp [List.ofFn_succ]
      rw [hl, (C53_mono_oracle _).1]
      intro i hi
      simp only [List.length_cons, List.length_nil] at hi
      obtain rfl | rfl : i = 0 ∨ i = 1 := by omega
      all_goals norm_num
    simp only [monoDcObj, hnone]
    change (lsqCall (fun q : Fin 3 => npArr ((List.ofFn Sig).getD q 0)) (arr Y) 2 x₀ ⊤ _).map _ = _
    rw [sigs_ofFn Sig]
    have f1' : lmi0Call (fun q => arr (Matrix.of (Sig q))) 2 (fun q => x₀ q.castSucc) (CholExt.init 2) = .ok (Q0, none) := f1
    have g1' : qmiCall (fun q => arr (Matrix.of (Sig q))) (arr Y) 2 2 (fun q => x₀ q.castSucc)
      ((⟨⟨0, 0, fun _ _ => 0⟩, CholExt.init 2⟩ : QmiOracle ℝ).setT (x₀ (Fin.last 3))) = .ok (q1, none) := g1
    simp only [lsqCall, f1', g1', Except.map]
  have hg : (Fin.snoc (fun _ : Fin 3 => (0 : ℝ)) 1 : Fin 4 → ℝ) ≠ 0 := fun h => by
    have := congrFun h (Fin.last 3)
    rw [Fin.snoc_last] at this
    simp at this
  have hpos : 0 < √(E.kappa * ((Fin.snoc (fun _ : Fin 3 => (0 : ℝ)) 1 : Fin 4 → ℝ) ⬝ᵥ E.Q *ᵥ (Fin.snoc (fun _ : Fin 3 => (0 : ℝ)) 1 : Fin 4 → ℝ))) :=
    Real.sqrt_pos.2 (mul_pos hpr.kappa ((Verif.pd_iff.1 hpr.pd).2 _ hg))
  obtain ⟨E', st, tsq, hu, -⟩ := C106_update E hpr (c := (Fin.snoc (fun _ : Fin 3 => (0 : ℝ)) 1, .scalar 0)) (by
    rintro (h | h | h)
    · exact hg h
    · dsimp only at h; linarith
    · dsimp only at h; linarith)
  obtain ⟨info, hrun⟩ := dc_max_one (Ω := fun x t => liftOracle ((monoDcObj (lsqDcObj 3 (List.ofFn Sig) Y)).call x t))
    (S := Ell.space (LsqOracle ℝ) 4) (t0 := ⊤) (o := ⟨1, 1 / 10 ^ 8⟩) (w := (⟨⟨⟨0, 0, fun _ _ => 0⟩, CholExt.init 2⟩, CholExt.init 2⟩, E))
    (w1 := (⟨q1, Q0⟩, E)) (w2 := (⟨q1, Q0⟩, E')) (c := (Fin.snoc (fun _ : Fin 3 => (0 : ℝ)) 1, .scalar 0))
    (t1 := ((x₀ (Fin.last 3) : ℝ) : WithTop ℝ)) (st := st) (tsq := tsq) rfl
    (by simp only [liftOracle, Ell.space, hxc]; rw [hcall])
    (by simp only [Ell.space, hu])
  have hchk : bsplCheck 2 3 t = .ok () := by
    rw [show t = unif δ from funext ht, bsplCheck_unif hδ.le, if_neg (by rintro (h | h); omega; exact hδ.ne' h)]
  have hex : ∃ c, lsqCorrBspline2 true ⟨1, 1 / 10 ^ 8⟩ Y exSites 3 = .ok ((t, c), info.numIters, info.feasible) := by
    simp only [lsqCorrBspline2, corrBsplineSci, hgen, lsqCorrCore2, corrSolve, if_true, corrRunCopied]
    simp only [hfro, ← hx₀, ← hval, hE]
    have hst : (monoDcObj (lsqDcObj 3 (List.ofFn Sig) Y)).state = ⟨⟨⟨0, 0, fun _ _ => 0⟩, CholExt.init 2⟩, CholExt.init 2⟩ := rfl
    rw [hst, hrun]
    simp only [Except.map, hchk]
    exact ⟨_, rfl⟩
  obtain ⟨c, hex⟩ := hex
  obtain ⟨-, -, hf, h1, h2, h3, -⟩ := C112_lsq_corr_bspline2 (fun h => by have := congrFun (congrFun h 0) 0; simp [hYdef] at this) hex
  exact ⟨t, c, _, by rw [hex, hf], h1, h2, h3⟩

/-- `C112_mle_corr_bspline` applies: the same data; the start `(1, 0, 0)` is accepted. -/
example : ∃ t c it, mleCorrBspline true ⟨1, 1 / 10 ^ 8⟩ (Matrix.of ![![9 / 2, 0], ![0, 9 / 2]] : Matrix (Fin 2) (Fin 2) ℝ) exSites 3 = .ok ((t, c), it, true) ∧
    DropBy 0 c ∧ (splMat exSites t c).PosDef := by
  set Y : Matrix (Fin 2) (Fin 2) ℝ := Matrix.of ![![9 / 2, 0], ![0, 9 / 2]] with hYdef
  have hYh : Y.IsHermitian := by ext i j; fin_cases i <;> fin_cases j <;> simp [hYdef]
  have hYp : Y.PosDef := posDef_two (by norm_num)
  have hs : exSites 0 ≠ exSites (Fin.last 1) := fun e => by have := congrFun e 0; simp [exSites, Fin.last] at this
  obtain ⟨Sig, t, δ, hgen, hδ, ht, -⟩ := C111_info (N := 1) exSites (m := 3) le_rfl hs
  obtain ⟨hsym, hO⟩ := exSites_splMat hgen
  have hSig : ∀ q, (Matrix.of (Sig q)).IsHermitian := fun q => by
    ext i j; rw [conjTranspose_apply, star_trivial]; exact hsym q j i
  set x₀ : Fin 3 → ℝ := fun i => if (i : ℕ) = 0 then 1 else 0 with hx₀
  obtain ⟨E, hE, hpr, hxc⟩ : ∃ E, Ell.init (.scalar 50) x₀ = .ok E ∧ E.Proper ∧ E.xc = x₀ := by
    refine ⟨⟨true, false, x₀, 1, 50⟩, ?_, ⟨by omega, Matrix.PosDef.one, by norm_num⟩, rfl⟩
    simp [Ell.init, Ell.c1?, pyDiv]
    norm_num
  have hx2 : ((2 : ℝ) • Y - omegaOf (fun q => Matrix.of (Sig q)) x₀).PosDef := by
    rw [hO]
    have e : ((2 : ℝ) • Y - (Matrix.of ![![9 / 2, 49 / 72], ![49 / 72, 9 / 2]] : Matrix (Fin 2) (Fin 2) ℝ)) = Matrix.of ![![9 / 2, -49 / 72], ![-49 / 72, 9 / 2]] := by
      ext i j; fin_cases i <;> fin_cases j <;> simp [hYdef] <;> norm_num
    rw [e]
    exact posDef_two (by norm_num [abs_lt])
  obtain ⟨o', g, h1, h2⟩ := mleOmega_interior (fun q => Matrix.of (Sig q)) Y hSig hYh x₀
    (o := ⟨CholExt.init 2, CholExt.init 2⟩) (ready_init 2) (ready_init 2) (by rw [hO]; exact posDef_two (by norm_num [abs_lt])) hx2
  have hg : g ≠ 0 := by
    rintro rfl
    have := h2 ((2 : ℝ) • x₀)
    have e2 : omegaOf (fun q => Matrix.of (Sig q)) ((2 : ℝ) • x₀) = (2 : ℝ) • omegaOf (fun q => Matrix.of (Sig q)) x₀ := by
      simp only [omegaOf, Finset.smul_sum, Pi.smul_apply, smul_eq_mul, mul_smul]
    have hinv : (omegaOf (fun q => Matrix.of (Sig q)) x₀)⁻¹ = Matrix.of ![![23328 / 102575, -3528 / 102575], ![-3528 / 102575, 23328 / 102575]] := by
      apply Matrix.inv_eq_right_inv
      rw [hO]
      ext i j; fin_cases i <;> fin_cases j <;> simp [Matrix.mul_apply, Fin.sum_univ_two] <;> norm_num
    rw [e2, hinv, hO] at this
    simp [Matrix.trace, Fin.sum_univ_two, hYdef] at this
    norm_num at this
  have hcall : (monoDcObj (mleDcObj 3 (List.ofFn Sig) Y)).call x₀ ⊤ ⟨CholExt.init 2, CholExt.init 2⟩ =
      .ok (o', (g, .scalar 0), some ((mleObj (fun q => Matrix.of (Sig q)) Y x₀ : ℝ) : WithTop ℝ)) := by
    have hnone : monoOracle (List.ofFn x₀).dropLast = none := by
      have hl : (List.ofFn x₀).dropLast = [1, 0] := by simp [List.ofFn_succ, hx₀]
      rw [hl, (C53_mono_oracle _).1]
      intro i hi
      simp only [List.length_cons, List.length_nil] at hi
      obtain rfl : i = 0 := by omega
      norm_num
    simp only [monoDcObj, hnone]
    unfold mleOmega at h1
    rw [← sigs_ofFn Sig] at h1
    exact h1
  have hpos : 0 < √(E.kappa * (g ⬝ᵥ E.Q *ᵥ g)) :=
    Real.sqrt_pos.2 (mul_pos hpr.kappa ((Verif.pd_iff.1 hpr.pd).2 _ hg))
  obtain ⟨E', st, tsq, hu, -⟩ := C106_update E hpr (c := (g, .scalar 0)) (by
    rintro (h | h | h)
    · exact hg h
    · dsimp only at h; linarith
    · dsimp only at h; linarith)
  obtain ⟨info, hrun⟩ := dc_max_one (Ω := fun x t => liftOracle ((monoDcObj (mleDcObj 3 (List.ofFn Sig) Y)).call x t))
    (S := Ell.space MleOracle 3) (t0 := ⊤) (o := ⟨1, 1 / 10 ^ 8⟩) (w := (⟨CholExt.init 2, CholExt.init 2⟩, E))
    (w1 := (o', E)) (w2 := (o', E')) (c := (g, .scalar 0))
    (t1 := ((mleObj (fun q => Matrix.of (Sig q)) Y x₀ : ℝ) : WithTop ℝ)) (st := st) (tsq := tsq) rfl
    (by simp only [liftOracle, Ell.space, hxc]; rw [hcall])
    (by simp only [Ell.space, hu])
  have hchk : bsplCheck 2 3 t = .ok () := by
    rw [show t = unif δ from funext ht, bsplCheck_unif hδ.le, if_neg (by rintro (h | h); omega; exact hδ.ne' h)]
  have hpd : (Matrix.of fun i j => if j ≤ i then Y i j else Y j i : Matrix (Fin 2) (Fin 2) ℝ).PosDef := by
    convert hYp using 1
    ext i j; fin_cases i <;> fin_cases j <;> simp [hYdef]
  have hex : ∃ c, mleCorrBspline true ⟨1, 1 / 10 ^ 8⟩ Y exSites 3 = .ok ((t, c), info.numIters, info.feasible) := by
    unfold mleCorrBspline
    rw [if_neg (not_not.2 hpd)]
    simp only [corrBsplineSci, hgen, mleCorrCore, corrSolve, if_true, corrRunCopied]
    simp only [← hx₀, hE]
    have hst : (monoDcObj (mleDcObj 3 (List.ofFn Sig) Y)).state = ⟨CholExt.init 2, CholExt.init 2⟩ := rfl
    rw [hst, hrun]
    simp [Except.map, hchk]
  obtain ⟨c, hex⟩ := hex
  obtain ⟨-, -, -, hf, h1, h2, -⟩ := C112_mle_corr_bspline hYh hex
  exact ⟨t, c, _, by rw [hex, hf], h1, h2⟩

end Verif
