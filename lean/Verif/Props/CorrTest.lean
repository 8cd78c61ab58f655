import Verif.Model.CorrTest
import Verif.Props.Alias
import Verif.Props.EllRaise
import Verif.Props.Corr
import Verif.Props.MleSolve
import Verif.Props.Solve
import Verif.Props.AdaptorSolve
import Verif.Spec.FitSpec

/-!
# C109: the correlation fitting procedures of `tests/test_corr_fn.py`, end to end
-/
namespace Verif
open Matrix Polynomial

variable {n d m k : ℕ}

/-! ### Polynomials -/

/-- `Σ a_k X^k`. -/
noncomputable def polyOf (a : Fin m → ℝ) : ℝ[X] := ∑ k : Fin m, C (a k) * X ^ (k : ℕ)

theorem polyOf_eval (a : Fin m → ℝ) (x : ℝ) : (polyOf a).eval x = ∑ k : Fin m, a k * x ^ (k : ℕ) := by
  simp [polyOf, eval_finsetSum]

theorem polyOf_degree (a : Fin m → ℝ) : (polyOf a).degree < m := by
  unfold polyOf
  refine (Polynomial.degree_sum_fin_lt a)

theorem polyOf_coeff {q : ℝ[X]} (hq : q.degree < m) : polyOf (fun k : Fin m => q.coeff k) = q := by
  ext j
  simp only [polyOf, finsetSum_coeff, coeff_C_mul, coeff_X_pow]
  by_cases hj : j < m
  · rw [Finset.sum_eq_single ⟨j, hj⟩]
    · simp
    · intro b _ hb
      rw [if_neg (fun e => hb (Fin.ext e.symm)), mul_zero]
    · simp
  · rw [(degree_lt_iff_coeff_zero q m).1 hq j (by omega)]
    refine Finset.sum_eq_zero fun b _ => ?_
    rw [if_neg (by omega), mul_zero]

theorem poly1d_ofFn (a : Fin m → ℝ) (x : ℝ) : poly1dEval (List.ofFn a).reverse x = (polyOf a).eval x := by
  rw [poly1dEval_reverse, polyOf_eval, List.length_ofFn, Finset.sum_range]
  refine Finset.sum_congr rfl fun k _ => ?_
  rw [List.getD_eq_getElem _ _ (by simp), List.getElem_ofFn]

/-! ### The matrices handed to the oracles -/

/-- The `k`-th matrix. -/
noncomputable def sigMat (s : Fin n → Fin d → ℝ) (m : ℕ) (q : Fin m) : Matrix (Fin n) (Fin n) ℝ :=
  Matrix.of ((constructPolyMatrix s m).getD q 0)

theorem sigMat_apply (s : Fin n → Fin d → ℝ) (q : Fin m) (i j : Fin n) : sigMat s m q i j =
    dist (WithLp.toLp 2 (s i) : EuclideanSpace ℝ (Fin d)) (WithLp.toLp 2 (s j)) ^ (q : ℕ) := by
  obtain ⟨h1, h2⟩ := C54_poly_matrix s m (by have := q.2; omega)
  unfold sigMat
  rw [Matrix.of_apply, List.getD_eq_getElem _ _ (by rw [h1]; exact q.2), h2]

theorem sigMat_symm (s : Fin n → Fin d → ℝ) (q : Fin m) : (sigMat s m q).IsHermitian := by
  ext i j
  rw [conjTranspose_apply, star_trivial, sigMat_apply, sigMat_apply, dist_comm]

theorem omega_sigMat (s : Fin n → Fin d → ℝ) (a : Fin m → ℝ) : omegaOf (sigMat s m) a = corrMat s (polyOf a) := by
  ext i j
  rw [omegaOf, Matrix.sum_apply, corrMat, Matrix.of_apply, polyOf_eval]
  refine Finset.sum_congr rfl fun q _ => ?_
  rw [Matrix.smul_apply, sigMat_apply, smul_eq_mul]

theorem corrMat_symm (s : Fin n → Fin d → ℝ) (p : ℝ[X]) : (corrMat s p).IsHermitian := by
  ext i j
  simp only [corrMat, conjTranspose_apply, star_trivial, Matrix.of_apply, dist_comm]

/-! ### The two ways of keeping the best point -/

/-- A run that used less than `max_it` rounds stopped by itself. -/
theorem dc_early_stop {W X C α T : Type _} [LT α] [DecidableLT α] [DecidableEq T]
    {Ω : X → T → W → Except PyErr (W × C × Option T)} {S : Space W X C α} {t0 : T} {o : Options α} {w w' xb t info}
    (h : cuttingPlaneDc Ω S t0 o w = .ok (w', xb, t, info)) (hi : (info.numIters : ℤ) < o.maxIt) :
    info.status ≠ .success := by
  obtain ⟨s, i, h1, -, -, -, rfl⟩ := dc_ok h
  rcases forRange_ok h1 with ⟨s1, -, -, hb⟩ | ⟨h2, -⟩
  · obtain ⟨w1, c, t1, w2, st, tsq, -, -, h3⟩ := dcBody_brk hb
    rcases h3 with ⟨h3, rfl⟩ | ⟨-, -, rfl⟩
    · exact h3
    · simp
  · simp only at hi; omega

theorem HEll.init_load (val : EllVal k) (x : Fin k → ℝ) (h : Heap k) (hx : h 0 = x) :
    SimRes (fun E E' => E.load h = E' ∧ E.xc = 0) (HEll.init (n := k) val 0) (Ell.init val x) := by
  subst hx
  unfold HEll.init Ell.init
  cases hc : Ell.c1? k with
  | error e => exact rfl
  | ok c => cases val <;> exact ⟨rfl, rfl⟩

/-- **C109** (the same search).  Keeping a reference to the centre or a copy of it, the run raises the same exception or reports
the same number of iterations and the same flag; with the reference, what is returned is the final centre. -/
theorem C109_same_search {W : Type _} (opt : Options ℝ) (val : EllVal k) (x : Fin k → ℝ) (P : DcObj k W) :
    SimRes (fun a b => a.2 = b.2 ∧ ∃ E w E' xb t info, Ell.init val x = .ok E ∧
        cuttingPlaneDc (fun x t => liftOracle (P.call x t)) (Ell.space W k) ⊤ opt (P.state, E) = .ok ((w, E'), xb, t, info) ∧
        a.1 = E'.xc ∧ xb = some b.1)
      (corrSolve false opt val x P) (corrSolve true opt val x P) := by
  simp only [corrSolve, if_true, Bool.false_eq_true, if_false]
  unfold corrRun corrRunCopied
  rcases (HEll.init_load val x (fun _ => x) rfl).elim with ⟨e, h1, h2⟩ | ⟨E, E', h1, h2, h3, h4⟩
  · rw [h1, h2]; exact rfl
  · rw [h1, h2]
    simp only
    rcases (C69_dc_ell_refines P.call ⊤ opt P.state (fun _ => x) E).elim with ⟨e, g1, g2⟩ | ⟨a, b, g1, g2, g3, g4, g5, g6, g7, g8, g9⟩
    · rw [h3] at g2
      rw [g1, g2]; exact rfl
    · rw [h3] at g2
      obtain ⟨⟨aw, ah, aE⟩, ax, at', ai⟩ := a
      obtain ⟨⟨bw, bE⟩, bx, bt, bi⟩ := b
      simp only [Prod.mk.injEq] at g3
      obtain ⟨rfl, rfl⟩ := g3
      rw [g1, g2]
      cases bx with
      | none =>
        cases ax with
        | none => exact rfl
        | some r => simp at g8
      | some y =>
        cases ax with
        | none => simp at g8
        | some r =>
          have := g9 r rfl
          subst this
          refine ⟨rfl, E', bw, bE, some y, _, _, rfl, g2, ?_, rfl⟩
          simp only at g5 g6 ⊢
          rw [← g5, HEll.load_eq, g6]

/-! ### Maximum likelihood -/

theorem corrPoly_core {Y O I : Type _} (y : Y) (s : Fin n → Fin d → ℝ) (m : ℕ) (oracle : List (Fin n → Fin n → ℝ) → Y → O)
    (core : Y → ℤ → O → Except PyErr (List ℝ × I × Bool)) {pa : List ℝ} {it : I} {fe : Bool}
    (h : corrPoly y s m oracle core = .ok (pa, it, fe)) :
    ∃ a, core y m (oracle (constructPolyMatrix s m) y) = .ok (a, it, fe) ∧ pa = a.reverse := by
  unfold corrPoly at h
  dsimp only at h
  split at h
  · simp at h
  · rename_i a it' fe' hc
    simp only [Except.ok.injEq, Prod.mk.injEq] at h
    obtain ⟨rfl, rfl, rfl⟩ := h
    exact ⟨a, hc, rfl⟩

theorem init_dim {E : Ell k} {val : EllVal k} {x : Fin k → ℝ} (hk : k ≠ 0) (h : Ell.init val x = .ok E) : 2 ≤ k := by
  by_contra hc
  obtain rfl : k = 1 := by omega
  obtain ⟨e, he⟩ := (C24_ell_init_fails (n := 1) val x).2 rfl
  rw [h] at he; simp at he

theorem ready_mle (n : ℕ) : Ready n (CholExt.init n : CholExt ℝ) := ready_init n

/-- The distance of the coefficients of `q` to the start `1` of the search (squared). -/
noncomputable def coeffDist (m : ℕ) (q : ℝ[X]) : ℝ := ∑ k : Fin m, (q.coeff k - if (k : ℕ) = 0 then 1 else 0) ^ 2

theorem lowPart_eq {Y : Matrix (Fin n) (Fin n) ℝ} (hY : Y.IsHermitian) :
    (Matrix.of fun i j => if j ≤ i then Y i j else Y j i : Matrix (Fin n) (Fin n) ℝ) = Y := by
  ext i j
  rw [Matrix.of_apply]
  split_ifs
  · rfl
  · have := congrFun (congrFun hY i) j
    rwa [conjTranspose_apply, star_trivial] at this

/-- **C109** (`mle_corr_poly` on data that are not positive definite): `LinAlgError`, before any search. -/
theorem C109_mle_raises (copied : Bool) (opt : Options ℝ) {Y : Matrix (Fin n) (Fin n) ℝ} (hY : Y.IsHermitian) (hpd : ¬ Y.PosDef)
    (s : Fin n → Fin d → ℝ) (m : ℕ) : mleCorrPoly copied opt Y s m = .error .valueError := by
  unfold mleCorrPoly
  rw [if_pos]
  rwa [lowPart_eq hY]

/-- **C109** (fewer than two coefficients): without coefficients both raise IndexError (`x[0] = 1.0`), with one coefficient
both raise ZeroDivisionError (`ell` needs dimension two). -/
theorem C109_few_coefficients (copied : Bool) (opt optb : Options ℝ) {Y : Matrix (Fin n) (Fin n) ℝ} (s : Fin n → Fin d → ℝ) :
    lsqCorrPoly opt optb Y s 0 = .error .indexError ∧ lsqCorrPoly opt optb Y s 1 = .error .zeroDivision ∧
      (Y.PosDef → mleCorrPoly copied opt Y s 0 = .error .indexError ∧ mleCorrPoly copied opt Y s 1 = .error .zeroDivision) := by
  have hi : Ell.c1? 1 = .error .zeroDivision := by simp [Ell.c1?, pyDiv]
  refine ⟨rfl, ?_, fun hY => ?_⟩
  · simp [lsqCorrPoly, corrPoly, lsqCorrCore, HEll.init, hi]
  · have h := lowPart_eq hY.1
    refine ⟨?_, ?_⟩
    · unfold mleCorrPoly
      rw [if_neg (by rwa [h, not_not])]
      rfl
    · unfold mleCorrPoly
      rw [if_neg (by rwa [h, not_not])]
      cases copied <;> simp [corrPoly, mleCorrCore, corrSolve, corrRun, corrRunCopied, HEll.init, Ell.init, hi]

/-- **C109** (`mle_corr_poly` with the best point copied).  Any symmetric data matrix `Y`, any sites, any number `m` of
coefficients, any options.  If a polynomial is returned, then `m ≥ 2`, the flag is `True`, the polynomial `p` has degree below
`m`, and its matrix satisfies `0 ≺ p(‖s_i - s_j‖) ⪯ 2Y`.  If fewer than `max_it` iterations were used, `p` is nearly the
maximum likelihood fit: every polynomial `q` of degree below `m`, with coefficients within `√50` of those of the
constant 1, and with `δI ⪯ q(‖s_i - s_j‖) ⪯ 2Y - δI` for a `δ ≥ √tol`, has a negative log likelihood above that of `p`
minus `δ`. -/
theorem C109_mle_corr_poly {opt : Options ℝ} {Y : Matrix (Fin n) (Fin n) ℝ} (hY : Y.IsHermitian) {s : Fin n → Fin d → ℝ}
    {pa : List ℝ} {it : ℕ} {fe : Bool} (h : mleCorrPoly true opt Y s m = .ok (pa, it, fe)) :
    2 ≤ m ∧ Y.PosDef ∧ fe = true ∧ ∃ p : ℝ[X], p.degree < m ∧ (∀ x, poly1dEval pa x = p.eval x) ∧ (corrMat s p).PosDef ∧
      ((2 : ℝ) • Y - corrMat s p).PosSemidef ∧
      ((it : ℤ) < opt.maxIt → ∀ q : ℝ[X], q.degree < m → coeffDist m q ≤ 50 → ∀ δ, 0 ≤ δ → opt.tol ≤ δ ^ 2 →
        (corrMat s q).PosDef → (corrMat s q - δ • 1).PosSemidef → ((2 : ℝ) • Y - corrMat s q - δ • 1).PosSemidef →
        negLogLik Y (corrMat s p) < negLogLik Y (corrMat s q) + δ) := by
  unfold mleCorrPoly at h
  split_ifs at h with hpd
  rw [lowPart_eq hY] at hpd
  obtain ⟨a, hc, rfl⟩ := corrPoly_core _ _ _ _ _ h
  unfold mleCorrCore at hc
  split_ifs at hc with hm0
  split at hc
  · simp at hc
  rename_i a' it' fe' hrun
  simp only [Except.ok.injEq, Prod.mk.injEq] at hc
  obtain ⟨rfl, rfl, rfl⟩ := hc
  rw [corrSolve, if_pos rfl] at hrun
  unfold corrRunCopied at hrun
  split at hrun
  · simp at hrun
  rename_i E hE
  split at hrun
  · simp at hrun
  · simp at hrun
  rename_i w xb t info hr
  simp only [Except.ok.injEq, Prod.mk.injEq] at hrun
  obtain ⟨rfl, rfl, rfl⟩ := hrun
  have hm := init_dim hm0 hE
  obtain ⟨hwf, -, -, -, hpts⟩ := C24_ell_init_ball hm (by norm_num) hE
  obtain ⟨w, E'⟩ := w
  have hr' : cuttingPlaneDc (fun x t => liftOracle (mleOmega (sigMat s m) Y x t)) (Ell.space MleOracle m) ⊤ opt
      (⟨CholExt.init n, CholExt.init n⟩, E) = .ok ((w, E'), some xb, t, info) := hr
  obtain ⟨k1, k2⟩ := C95_mle_verdict (sigMat_symm s) hY hwf (ready_init n) (ready_init n) hr'
  rcases k1 with ⟨k1, -⟩ | ⟨x, k1, k3, k4, k5, -⟩
  · simp at k1
  simp only [Option.some.injEq] at k1
  subst k1
  rw [omega_sigMat] at k3 k4
  refine ⟨hm, hpd, ?_, polyOf xb, polyOf_degree xb, poly1d_ofFn xb, k3, k4, ?_⟩
  · obtain ⟨s', i, -, -, -, e, rfl⟩ := dc_ok hr'
    simp only [decide_eq_true_eq, ne_eq]
    rw [← e, k5]
    exact WithTop.coe_ne_top
  · intro hi q hq hd δ hδ htol q1 q2 q3
    have e := omega_sigMat s (fun k : Fin m => q.coeff k)
    rw [polyOf_coeff hq] at e
    have := k2 (dc_early_stop hr' hi) (fun k => q.coeff k) (by rw [hpts]; exact hd) δ hδ htol
      ⟨by rw [e]; exact q1, by rw [e]; exact q2, by rw [e]; exact q3⟩
    rw [k5] at this
    have := WithTop.coe_lt_coe.1 this
    unfold mleObj at this
    rwa [e, omega_sigMat] at this

/-- The first report: at a point with `0 ≺ Ω(x) ≺ 2Y` and level `inf`, the cut is central and its gradient is the derivative of
the objective. -/
theorem mleOmega_interior (Sig : Fin k → Matrix (Fin m) (Fin m) ℝ) (Y : Matrix (Fin m) (Fin m) ℝ)
    (hSig : ∀ q, (Sig q).IsHermitian) (hY : Y.IsHermitian) (x : Fin k → ℝ) {o : MleOracle}
    (h0 : Ready m o.lmi0) (h1 : Ready m o.lmi) (hx : (omegaOf Sig x).PosDef) (hx2 : ((2 : ℝ) • Y - omegaOf Sig x).PosDef) :
    ∃ o' g, mleOmega Sig Y x ⊤ o = .ok (o', (g, .scalar 0), some ((mleObj Sig Y x : ℝ) : WithTop ℝ)) ∧
      ∀ z, ∑ q, g q * (z q - x q) = ((omegaOf Sig x)⁻¹ * (omegaOf Sig z - omegaOf Sig x)).trace -
        ((omegaOf Sig x)⁻¹ * (omegaOf Sig z - omegaOf Sig x) * ((omegaOf Sig x)⁻¹ * Y)).trace := by
  have hsS : ∀ q, SymOn (arr (Sig q)) m := fun q => symOn_arr (hSig q)
  have hsY : SymOn (fun i j => 2 * arr Y i j) m := fun i j hi hj => by
    simp only; rw [symOn_arr hY i j hi hj]
  have hHx := omegaOf_herm hSig x
  obtain ⟨Q, r, e1, e2, e3, -⟩ := C35_lmi hsS hsY x h1
  simp only [pencil_arr] at e3
  rw [pdOn_arr hx2.isHermitian] at e3
  obtain rfl := e3.2 hx2
  obtain ⟨Q0, r0, f1, f2, f3, -⟩ := C36_lmi0 hsS x h0
  simp only [combo_arr] at f3
  rw [pdOn_arr hHx] at f3
  obtain rfl := f3.2 hx
  have hfac : ∃ w', o.lmi0.factor (W := Unit) (readAt m (linEntry (fun q => arr (Sig q)) x)) () = .ok (w', Q0, true) := by
    unfold lmi0Call at f1
    generalize o.lmi0.factor (W := Unit) (readAt m (linEntry (fun q => arr (Sig q)) x)) () = R at f1 ⊢
    rcases R with e | ⟨w, Q1, b⟩
    · simp at f1
    · cases b with
      | true => simp only [Except.ok.injEq, Prod.mk.injEq] at f1; exact ⟨w, by rw [f1.1]⟩
      | false =>
        simp only at f1
        generalize Q1.witness = R2 at f1
        rcases R2 with e | ⟨Q2, ep⟩ <;> simp at f1
  obtain ⟨w', hfac⟩ := hfac
  have hSv : Serves (W := Unit) (readAt m (linEntry (fun q => arr (Sig q)) x)) (arr (omegaOf Sig x)) m
      (fun _ _ => True) (fun _ _ => True) :=
    serves_readAt le_rfl _ _ fun i j _ _ => by rw [linEntry_eq, combo_arr]
  obtain ⟨hn, hal⟩ := h0
  subst hn
  obtain ⟨R, s1, s2, s3, s4⟩ := C31_sqrt o.lmi0 hSv (symOn_arr hHx) (w := ()) trivial hfac (.inl hal)
  obtain ⟨g, m1, -, -, m4⟩ := mleEval_spec Sig Y x s2 s3 s4
  exact ⟨⟨Q0, Q⟩, g, by simp only [mleOmega, mleCall, e1, f1, s1, m1, Except.map], m4⟩

/-- A run that stops after one round because the cut is small. -/
theorem dc_one_round {W X C T : Type _} [DecidableEq T]
    {Ω : X → T → W → Except PyErr (W × C × Option T)} {S : Space W X C ℝ} {t0 t1 : T} {o : Options ℝ} {w w1 w2 : W} {c : C} {tsq : ℝ}
    (hmax : 1 ≤ o.maxIt) (hq : Ω (S.xc w) t0 w = .ok (w1, c, some t1)) (hu : S.update c w1 = .ok (w2, .success, tsq)) (ht : tsq < o.tol) :
    cuttingPlaneDc Ω S t0 o w = .ok (w2, some (S.xc w1), t1, ⟨decide (t1 ≠ t0), 1, .smallenough⟩) := by
  obtain ⟨N, hN⟩ : ∃ N, o.maxIt.toNat = N + 1 := ⟨o.maxIt.toNat - 1, by omega⟩
  unfold cuttingPlaneDc forRange
  rw [hN, forLoop]
  simp only [dcBody, hq, hu, ht, if_true, ne_eq, not_true_eq_false, if_false, readVar]

/-- One site; the data matrix is `[1 + 10⁻⁶]`. -/
def exSite : Fin 1 → Fin 2 → ℝ := fun _ _ => 0
noncomputable def exY : Matrix (Fin 1) (Fin 1) ℝ := Matrix.of fun _ _ => 1 + 1 / 10 ^ 6

theorem posDef_fin1 {A : Matrix (Fin 1) (Fin 1) ℝ} : A.PosDef ↔ 0 < A 0 0 := by
  have e : A = diagonal fun _ => A 0 0 := by ext i j; fin_cases i; fin_cases j; simp
  rw [e, posDef_diagonal_iff]
  simp

/-- **C109** (finding).  `mle_corr_poly` as it is, one site, `Y = [1 + 10⁻⁶]`, two coefficients, any options with
`max_it ≥ 1` and `tol > 5·10⁻¹¹` (the default is `10⁻⁸`): the run accepts
the start (the constant polynomial 1, which is feasible and nearly optimal), makes the cut, and stops because the cut is small; the polynomial returned, with
`feasible = True`, is the moved centre, whose matrix is `[1 + √50/3]`, above `2Y`. -/
theorem C109_mle_returned_infeasible {opt : Options ℝ} (hmax : 1 ≤ opt.maxIt) (htol : 50 / 10 ^ 12 < opt.tol) :
    ∃ pa it, mleCorrPoly false opt exY exSite 2 = .ok (pa, it, true) ∧
      ∀ p : ℝ[X], (∀ x, poly1dEval pa x = p.eval x) → ¬ ((2 : ℝ) • exY - corrMat exSite p).PosSemidef := by
  have hY : exY.IsHermitian := by ext i j; fin_cases i; fin_cases j; simp [exY]
  have hO : ∀ z : Fin 2 → ℝ, omegaOf (sigMat exSite 2) z = Matrix.of fun _ _ => z 0 := by
    intro z
    ext i j
    fin_cases i; fin_cases j
    simp [omegaOf, Fin.sum_univ_two, Matrix.add_apply, sigMat_apply]
  have hx : (omegaOf (sigMat exSite 2) ![1, 0]).PosDef := by rw [hO, posDef_fin1]; simp
  have hx2 : ((2 : ℝ) • exY - omegaOf (sigMat exSite 2) ![1, 0]).PosDef := by
    rw [hO, posDef_fin1]; simp [exY]; norm_num
  obtain ⟨o', g, h1, h2⟩ := mleOmega_interior (sigMat exSite 2) exY (sigMat_symm exSite) hY ![1, 0]
    (o := ⟨CholExt.init 1, CholExt.init 1⟩) (ready_init 1) (ready_init 1) hx hx2
  have hinv : (Matrix.of fun _ _ => (![1, 0] : Fin 2 → ℝ) 0 : Matrix (Fin 1) (Fin 1) ℝ)⁻¹ = 1 := by
    have : (Matrix.of fun _ _ => (![1, 0] : Fin 2 → ℝ) 0 : Matrix (Fin 1) (Fin 1) ℝ) = 1 := by
      ext i j; fin_cases i; fin_cases j; simp
    rw [this, inv_one]
  have hg : g = ![-1 / 10 ^ 6, 0] := by
    have e0 := h2 ![2, 0]
    have e1 := h2 ![1, 1]
    simp only [hO, hinv, Fin.sum_univ_two, one_mul, trace_fin_one, Matrix.mul_apply, Fin.sum_univ_one, exY, Matrix.sub_apply, Matrix.of_apply] at e0 e1
    norm_num at e0 e1
    ext q; fin_cases q
    · simp [e0]; norm_num
    · simp [e1]
  subst hg
  have hinit : HEll.init (n := 2) (.scalar 50) 0 = .ok ⟨true, false, 0, 1, 50⟩ := by
    unfold HEll.init Ell.c1? pyDiv; norm_num
  have hl : HEll.load (fun _ => ![1, 0]) (⟨true, false, 0, 1, 50⟩ : HEll 2) = ⟨true, false, ![1, 0], 1, 50⟩ := rfl
  have hstart : (fun i : Fin 2 => if (i : ℕ) = 0 then (1 : ℝ) else 0) = ![1, 0] := by
    ext i; fin_cases i <;> simp
  have hup : Ell.update (![-1 / 10 ^ 6, 0], .scalar 0) (⟨true, false, ![1, 0], 1, 50⟩ : Ell 2) =
      .ok (⟨true, false, ![1 + √50 / 3, 0], !![1 / 3, 0; 0, 1], 200 / 3⟩, .success, 50 / 10 ^ 12) := by
    have hs : pySqrt (50 / 10 ^ 12 : ℝ) = .ok (√50 / 10 ^ 6) := by
      rw [Ell.pySqrt_ok]
      refine ⟨by norm_num, ?_⟩
      rw [Real.sqrt_div (by norm_num), show ((10 : ℝ) ^ 12) = (10 ^ 6) ^ 2 by norm_num, Real.sqrt_sq (by norm_num)]
    have hc : Ell.calcLl 2 true (50 / 10 ^ 12) (.scalar 0) = .ok (.accept (√50 / 10 ^ 6 / 3) (2 / 3) (4 / 3), 50 / 10 ^ 12) := by
      simp only [Ell.calcLl, Ell.calcDc, hs, Ell.calcCc, Ell.c1, Ell.c2]
      norm_num
      intro h
      have h50 : 0 < √(50 : ℝ) / 1000000 := by positivity
      linarith
    have hq : (![-1 / 10 ^ 6, 0] : Fin 2 → ℝ) ⬝ᵥ (1 : Matrix (Fin 2) (Fin 2) ℝ) *ᵥ ![-1 / 10 ^ 6, 0] = 1 / 10 ^ 12 := by
      rw [one_mulVec]; simp [dotProduct, Fin.sum_univ_two]; norm_num
    simp only [Ell.update, hq]
    have e1 : (50 : ℝ) * (1 / 10 ^ 12) = 50 / 10 ^ 12 := by norm_num
    simp only [e1, hc, pyDiv]
    norm_num
    refine ⟨⟨by ring, by ext i; fin_cases i; rfl⟩, ?_⟩
    ext i j
    fin_cases i <;> fin_cases j <;> (simp; try norm_num)
  have hcall : (mleDcObj 2 (constructPolyMatrix exSite (2 : ℕ)) exY).call ![1, 0] ⊤ ⟨CholExt.init 1, CholExt.init 1⟩ =
      .ok (o', (![-1 / 10 ^ 6, 0], .scalar 0), some ((mleObj (sigMat exSite 2) exY ![1, 0] : ℝ) : WithTop ℝ)) := h1
  have hrun : corrRun opt (.scalar 50) (fun i : Fin 2 => if (i : ℕ) = 0 then (1 : ℝ) else 0)
      (mleDcObj 2 (constructPolyMatrix exSite (2 : ℕ)) exY) = .ok (![1 + √50 / 3, 0], 1, true) := by
    unfold corrRun
    rw [hinit, hstart]
    have hst : (mleDcObj 2 (constructPolyMatrix exSite (2 : ℕ)) exY).state = ⟨CholExt.init 1, CholExt.init 1⟩ := rfl
    rw [hst]
    have hb := dc_one_round (Ω := fun x t => HEll.readOracle (fun x => (mleDcObj 2 (constructPolyMatrix exSite (2 : ℕ)) exY).call x t) x)
      (S := HEll.space MleOracle 2) (t0 := ⊤) (o := opt) (w := (⟨CholExt.init 1, CholExt.init 1⟩, (fun _ => ![1, 0]), ⟨true, false, 0, 1, 50⟩))
      (w1 := (o', (fun _ => ![1, 0]), ⟨true, false, 0, 1, 50⟩)) (c := (![-1 / 10 ^ 6, 0], .scalar 0))
      (t1 := ((mleObj (sigMat exSite 2) exY ![1, 0] : ℝ) : WithTop ℝ))
      (w2 := (o', Function.update (fun _ => ![1, 0]) 0 ![1 + √50 / 3, 0], ⟨true, false, 0, !![1 / 3, 0; 0, 1], 200 / 3⟩)) hmax
      (by simp only [HEll.readOracle]; rw [hcall])
      (by simp only [HEll.space, HEll.update, hl, hup, if_true]) htol
    simp only [hb]
    simp [HEll.space]
  refine ⟨[0, 1 + √50 / 3], 1, ?_, ?_⟩
  · unfold mleCorrPoly
    rw [if_neg]
    · have hc := hrun
      simp only [corrPoly, mleCorrCore, corrSolve, Bool.false_eq_true, if_false]
      rw [if_neg (by norm_num), hc]
      simp
    · rw [not_not, posDef_fin1]
      simp [exY]; norm_num
  · intro p hp hneg
    have h0 := hp 0
    have hd := hneg.diag_nonneg (i := 0)
    have e : corrMat exSite p 0 0 = 1 + √50 / 3 := by
      simp only [corrMat, Matrix.of_apply, dist_self]
      rw [← h0]
      simp [poly1dEval]
    rw [Matrix.sub_apply, e] at hd
    have h7 : (7 : ℝ) < √50 := by
      rw [Real.lt_sqrt (by norm_num)]; norm_num
    simp only [Matrix.smul_apply, exY, Matrix.of_apply, smul_eq_mul] at hd
    norm_num at hd
    linarith

/-! ### Least squares in the spectral norm -/

theorem quadOn_tiMinusGram (A : Matrix (Fin n) (Fin n) ℝ) (u : ℝ) (y : ℕ → ℝ) :
    quadOn (tiMinusGram n u (arr A)) 0 n y = u * ∑ i : Fin n, y i ^ 2 - ∑ l, (A *ᵥ fun i : Fin n => y i) l ^ 2 := by
  rw [quadOn_gram]
  simp only [← Finset.range_eq_Ico, Finset.sum_range, ← sq]
  congr 1
  refine Finset.sum_congr rfl fun l _ => ?_
  congr 1
  rw [Matrix.mulVec, dotProduct]
  refine Finset.sum_congr rfl fun i _ => ?_
  simp only [arr, Fin.is_lt, and_self, dif_pos, Fin.eta]
  ring

theorem pd_ti_iff (A : Matrix (Fin n) (Fin n) ℝ) (u : ℝ) : PDon (tiMinusGram n u (arr A)) 0 n ↔ SpecBelow A u := by
  constructor
  · intro h v hv
    obtain ⟨i, hi⟩ := Function.ne_iff.1 hv
    have := h (fun k => if hk : k < n then v ⟨k, hk⟩ else 0) ⟨i, Nat.zero_le _, i.2, by simpa using hi⟩
    rw [quadOn_tiMinusGram] at this
    simp only [Fin.is_lt, dif_pos, Fin.eta] at this
    linarith
  · rintro h y ⟨i, -, hi, hy⟩
    rw [quadOn_tiMinusGram]
    have := h (fun k : Fin n => y k) (Function.ne_iff.2 ⟨⟨i, hi⟩, hy⟩)
    linarith

theorem atLeast_ti (A : Matrix (Fin n) (Fin n) ℝ) (u lam : ℝ) (h : SpecAtMost A (u - lam)) :
    AtLeast lam (tiMinusGram n u (arr A)) n := by
  intro y
  rw [quadOn_tiMinusGram, Finset.sum_range]
  have := h fun k : Fin n => y k
  linarith

theorem pencil_arr' (Sig : Fin k → Matrix (Fin n) (Fin n) ℝ) (Y : Matrix (Fin n) (Fin n) ℝ) (z : Fin k → ℝ) :
    pencil (fun q => arr (Sig q)) (arr Y) z = arr (Y - omegaOf Sig z) := by
  funext i j
  have := congrFun (congrFun (combo_arr Sig z) i) j
  simp only [combo, pencil] at this ⊢
  rw [this]
  unfold arr
  by_cases h : i < n ∧ j < n
  · simp only [dif_pos h, Matrix.sub_apply]
  · simp only [dif_neg h, sub_zero]

/-- **C109** (`lsq_corr_poly2` with the best point copied).  Any data matrix `Y ≠ 0`, any sites, any number `m ≥ 1` of coefficients, any
options.  If a polynomial is returned, the flag is `True`, the polynomial `p` has degree below `m` and a positive definite
matrix `Ω_p`, and there is a `t` above `‖Y - Ω_p‖²` (spectral norm) such that, if fewer than `max_it` iterations were used, no polynomial does
much better: for every `q` of degree below `m` and every `τ` in the initial ellipsoid
`Σ (q_k - [k=0])²/256 + (τ - 16‖Y‖²)²/(32‖Y‖²)² ≤ 1`, if `Ω_q ⪰ λI` and `‖Y - Ω_q‖² ≤ τ - λ` with `λ ≥ √tol`, then
`t < τ + λ`. -/
theorem C109_lsq_corr_poly2 {opt : Options ℝ} {Y : Matrix (Fin n) (Fin n) ℝ} (hY : Y ≠ 0) (hm : 1 ≤ m) {s : Fin n → Fin d → ℝ}
    {pa : List ℝ} {it : ℕ} {fe : Bool} (h : lsqCorrPoly2 true opt Y s m = .ok (pa, it, fe)) :
    fe = true ∧ ∃ (p : ℝ[X]) (t : ℝ), p.degree < m ∧ (∀ x, poly1dEval pa x = p.eval x) ∧ (corrMat s p).PosDef ∧
      SpecBelow (Y - corrMat s p) t ∧
      ((it : ℤ) < opt.maxIt → ∀ q : ℝ[X], q.degree < m → ∀ τ : ℝ,
        coeffDist m q / 256 + (τ - 16 * ∑ i, ∑ j, Y i j ^ 2) ^ 2 / (32 * ∑ i, ∑ j, Y i j ^ 2) ^ 2 ≤ 1 →
        ∀ lam, 0 ≤ lam → opt.tol ≤ lam ^ 2 → (corrMat s q - lam • 1).PosSemidef → SpecAtMost (Y - corrMat s q) (τ - lam) →
        t < τ + lam) := by
  have hYp : 0 < ∑ i, ∑ j, Y i j ^ 2 := by
    refine lt_of_le_of_ne (Finset.sum_nonneg fun i _ => Finset.sum_nonneg fun j _ => sq_nonneg _) fun h0 => hY ?_
    ext i j
    have h1 := (Finset.sum_eq_zero_iff_of_nonneg fun i _ => Finset.sum_nonneg fun j _ => sq_nonneg (Y i j)).1 h0.symm i (Finset.mem_univ _)
    have h2 := (Finset.sum_eq_zero_iff_of_nonneg fun j _ => sq_nonneg (Y i j)).1 h1 j (Finset.mem_univ _)
    simpa using h2
  set F := ∑ i, ∑ j, Y i j ^ 2 with hF
  have hn2 : 32 * normFro Y * normFro Y = 32 * F := by
    unfold normFro
    rw [mul_assoc, Real.mul_self_sqrt hYp.le]
  obtain ⟨a, hc, rfl⟩ := corrPoly_core _ _ _ _ _ h
  unfold lsqCorrCore2 at hc
  simp only [hn2] at hc
  split at hc
  · simp at hc
  rename_i a' it' fe' hrun
  simp only [Except.ok.injEq, Prod.mk.injEq] at hc
  obtain ⟨rfl, rfl, rfl⟩ := hc
  rw [corrSolve, if_pos rfl] at hrun
  unfold corrRunCopied at hrun
  split at hrun
  · simp at hrun
  rename_i E hE
  split at hrun
  · simp at hrun
  · simp at hrun
  rename_i w xb t info hr
  simp only [Except.ok.injEq, Prod.mk.injEq] at hrun
  obtain ⟨rfl, rfl, rfl⟩ := hrun
  obtain ⟨hpr, -, hpts⟩ := C24_ell_init_diag (by omega) (fun i => by
    refine Fin.lastCases ?_ (fun i => ?_) i
    · rw [Fin.snoc_last]; positivity
    · rw [Fin.snoc_castSucc]; norm_num) hE
  obtain ⟨w, E'⟩ := w
  have hr' : cuttingPlaneDc (fun x t => liftOracle (lsqOmega (fun q => arr (sigMat s m q)) (arr Y) n x t))
      (Ell.space (LsqOracle ℝ) (m + 1)) ⊤ opt
      (⟨⟨⟨0, 0, fun _ _ => 0⟩, CholExt.init n⟩, CholExt.init n⟩, E) = .ok ((w, E'), some xb, t, info) := hr
  obtain ⟨k1, k2⟩ := C75_lsq_verdict (fun q => symOn_arr (sigMat_symm s q)) hpr.wf ⟨ready_init n, ready_init n⟩ hr'
  rcases k1 with ⟨k1, -⟩ | ⟨x, k1, k3, k4, k5⟩
  · simp at k1
  simp only [Option.some.injEq] at k1
  subst k1
  rw [combo_arr, pdOn_arr (omegaOf_herm (sigMat_symm s) _), omega_sigMat] at k4
  rw [pencil_arr', pd_ti_iff, omega_sigMat] at k5
  refine ⟨?_, polyOf (Fin.init xb), xb (Fin.last m), polyOf_degree _, poly1d_ofFn (Fin.init xb), k4, k5, ?_⟩
  · obtain ⟨s', i, -, -, -, e, rfl⟩ := dc_ok hr'
    simp only [decide_eq_true_eq, ne_eq]
    rw [← e, k3]
    exact WithTop.coe_ne_top
  · intro hi q hq τ hd lam hl htol q1 q2
    have e := omega_sigMat s (fun k : Fin m => q.coeff k)
    rw [polyOf_coeff hq] at e
    have key := k2 (dc_early_stop hr' hi) (Fin.snoc (fun k : Fin m => q.coeff k) τ) ?_ lam hl htol ?_
    · rw [k3, Fin.snoc_last] at key
      exact WithTop.coe_lt_coe.1 key
    · rw [hpts]
      change ∑ i, _ ≤ (1 : ℝ)
      rw [Fin.sum_univ_castSucc]
      simp only [Fin.snoc_castSucc, Fin.snoc_last]
      rw [← Finset.sum_div]
      have e3 : τ - 32 * F / 2 = τ - 16 * F := by ring
      rw [e3, ← sq (32 * F)]
      exact hd
    · unfold LsqSlack
      rw [Fin.init_snoc, Fin.snoc_last, combo_arr, pencil_arr', e]
      exact ⟨atLeast_arr q1, atLeast_ti _ _ _ q2⟩

theorem specAtMost_iff (A : Matrix (Fin n) (Fin n) ℝ) (u lam : ℝ) :
    AtLeast lam (tiMinusGram n u (arr A)) n ↔ SpecAtMost A (u - lam) := by
  refine ⟨fun h v => ?_, atLeast_ti A u lam⟩
  have := h fun k => if hk : k < n then v ⟨k, hk⟩ else 0
  rw [quadOn_tiMinusGram, Finset.sum_range] at this
  simp only [Fin.is_lt, dif_pos, Fin.eta] at this
  linarith

/-- The inner search, with options `opt`, gave the level `l` up when started at some centre `c`: every ball of coefficient vectors inside the ball of radius 16 about
`c` that is large enough for the iteration limit contains a polynomial not fitting within `l - δ`, `δ ≥ √tol`. -/
def GivenUp (opt : Options ℝ) (Y : Matrix (Fin n) (Fin n) ℝ) (s : Fin n → Fin d → ℝ) (m : ℕ) (l : ℝ) : Prop :=
  ∃ c : Fin m → ℝ, ∀ a r δ, 0 < r → 0 < δ → opt.tol ≤ δ ^ 2 →
    2 * m * ((m : ℝ) + 1) * Real.log (16 / r) < opt.maxIt → euclBall a r ⊆ euclBall c 16 →
    ∃ z ∈ euclBall a r, ¬ SpecAtMost (Y - corrMat s (polyOf z)) (l - δ)

/-- **C109** (`lsq_corr_poly`, the code as it is).  Any data matrix, sites, number of coefficients and options.  If the run returns, `m ≥ 2`, and there are
levels `0 ≤ l ≤ u ≤ ‖Y‖²`, `u - l = ‖Y‖²/2^j` (Frobenius norm), such that the flag says whether `u` is below `‖Y‖²`; if it is, some polynomial of degree below `m` fits with
`‖Y - Ω_p‖² < u` (spectral norm); and `l = 0`, or `l` was given up (`GivenUp`).
What is returned is the constant 1 when nothing was probed, a polynomial that fits within `u` when the last probe succeeded, and otherwise whatever the last, failed,
probe left in the centre (`C08`): then nothing bounds its distance.
Unlike `lsq_corr_poly2`, nothing makes the matrix of the polynomial positive definite. -/
theorem C109_lsq_corr_poly {opt optb : Options ℝ} {Y : Matrix (Fin n) (Fin n) ℝ} {s : Fin n → Fin d → ℝ}
    {pa : List ℝ} {it : ℕ} {fe : Bool} (h : lsqCorrPoly opt optb Y s m = .ok (pa, it, fe)) :
    2 ≤ m ∧ ∃ (u l : ℝ) (j : ℕ), (fe = true ↔ u ≠ ∑ i, ∑ j, Y i j ^ 2) ∧ u - l = (∑ i, ∑ j, Y i j ^ 2) / 2 ^ j ∧
      0 ≤ l ∧ u ≤ ∑ i, ∑ j, Y i j ^ 2 ∧
      (u = ∑ i, ∑ j, Y i j ^ 2 ∨ ∃ p : ℝ[X], p.degree < m ∧ SpecBelow (Y - corrMat s p) u) ∧
      (l = 0 ∨ GivenUp opt Y s m l) ∧
      ∃ p : ℝ[X], p.degree < m ∧ (∀ x, poly1dEval pa x = p.eval x) ∧
        (j = 0 ∧ p = 1 ∨ SpecBelow (Y - corrMat s p) u ∨ GivenUp opt Y s m l) := by
  have hn2 : normFro Y * normFro Y = ∑ i, ∑ j, Y i j ^ 2 :=
    Real.mul_self_sqrt (Finset.sum_nonneg fun i _ => Finset.sum_nonneg fun j _ => sq_nonneg _)
  obtain ⟨a, hc, rfl⟩ := corrPoly_core _ _ _ _ _ h
  unfold lsqCorrCore at hc
  split_ifs at hc with hm0
  split at hc
  · simp at hc
  rename_i E hE
  simp only [hn2] at hc
  split at hc
  · simp at hc
  rename_i w h' E' u info hrun
  simp only [Except.ok.injEq, Prod.mk.injEq] at hc
  obtain ⟨rfl, rfl, rfl⟩ := hc
  have hm : 2 ≤ m := by
    rcases (HEll.init_load (.scalar 256) (0 : Fin m → ℝ) (fun _ => 0) rfl).elim with ⟨e, h1, -⟩ | ⟨E1, E2, -, h2, -⟩
    · rw [hE] at h1; simp at h1
    · exact init_dim hm0 h2
  have hrun' : bsearch (probeEll qmiUpdate (qmiOmega (fun q => arr (sigMat s m q)) (arr Y) n) opt) id 0 (∑ i, ∑ j, Y i j ^ 2) optb
      ((⟨⟨0, 0, fun _ _ => 0⟩, CholExt.init n⟩ : QmiOracle ℝ), (fun _ => fun i : Fin m => if (i : ℕ) = 0 then 1 else 0), E) =
      .ok ((w, h', E'), u, info) := hrun
  obtain ⟨k1, rfl, j, l, k2, kb, -, k4, k5, k6⟩ := C96_lsq_corr_search hm (fun q => symOn_arr (sigMat_symm s q)) (ready_init n)
    (R := 16) (by rw [show (16 : ℝ) ^ 2 = 256 by norm_num]; exact hE) hrun'
  have hrej : ∀ {c}, Rejected (fun t z δ => AtLeast δ (tiMinusGram n t (pencil (fun q => arr (sigMat s m q)) (arr Y) z)) n) 16 opt l c →
      GivenUp opt Y s m l := by
    intro c hc
    refine ⟨c, fun a r δ h1 h2 h3 h4 h5 => ?_⟩
    obtain ⟨z, hz1, hz2⟩ := hc a r δ h1 h2 h3 h4 h5
    dsimp only at hz2
    rw [pencil_arr', specAtMost_iff, omega_sigMat] at hz2
    exact ⟨z, hz1, hz2⟩
  obtain ⟨kb1, kb2⟩ := kb (Finset.sum_nonneg fun i _ => Finset.sum_nonneg fun j _ => sq_nonneg _)
  refine ⟨hm, u, l, j, k1, by rw [k2, sub_zero], kb1, kb2, k4.imp_right ?_, k5.imp_right ?_, ?_⟩
  · rintro ⟨z, hz⟩
    rw [pencil_arr', pd_ti_iff, omega_sigMat] at hz
    exact ⟨polyOf z, polyOf_degree z, hz⟩
  · exact fun ⟨c, hc⟩ => hrej hc
  · have hx : E'.xc = 0 := by
      unfold HEll.init at hE
      split at hE <;> simp at hE
      rw [← hE]
    refine ⟨polyOf (h' E'.xc), polyOf_degree _, poly1d_ofFn _, ?_⟩
    rw [hx]
    rcases k6 with ⟨h1, h2⟩ | h1 | ⟨w1, h1, -, h2⟩
    · refine .inl ⟨h1, ?_⟩
      rw [h2, polyOf, Finset.sum_eq_single ⟨0, by omega⟩ (fun b _ hb => by
        have : (b : ℕ) ≠ 0 := fun hc => hb (Fin.ext hc)
        simp [this]) (by simp)]
      simp
    · rw [pencil_arr', pd_ti_iff, omega_sigMat] at h1
      exact .inr (.inl h1)
    · exact .inr (.inr (hrej h2))

/-! ### Runs that meet the hypotheses -/

/-- `C109_mle_corr_poly` applies to the run of `C109_mle_returned_infeasible` with the best point copied: the polynomial is feasible. -/
example : ∃ pa it, mleCorrPoly true ⟨2000, 1 / 10 ^ 8⟩ exY exSite 2 = .ok (pa, it, true) ∧
    ∃ p : ℝ[X], (∀ x, poly1dEval pa x = p.eval x) ∧ ((2 : ℝ) • exY - corrMat exSite p).PosSemidef := by
  obtain ⟨pa, it, h, -⟩ := C109_mle_returned_infeasible (opt := ⟨2000, 1 / 10 ^ 8⟩) (by norm_num) (by norm_num)
  have hpd : (Matrix.of fun i j => if j ≤ i then exY i j else exY j i : Matrix (Fin 1) (Fin 1) ℝ).PosDef := by
    rw [posDef_fin1]; simp [exY]; norm_num
  have hY : exY.IsHermitian := by ext i j; fin_cases i; fin_cases j; simp [exY]
  have hs := (C109_same_search ⟨2000, 1 / 10 ^ 8⟩ (.scalar 50) (fun i : Fin 2 => if (i : ℕ) = 0 then (1 : ℝ) else 0)
    (mleDcObj 2 (constructPolyMatrix exSite (2 : ℕ)) exY)).elim
  have hex : ∃ pa it, mleCorrPoly true ⟨2000, 1 / 10 ^ 8⟩ exY exSite 2 = .ok (pa, it, true) := by
    simp only [mleCorrPoly, hpd, not_true_eq_false, if_false, corrPoly, mleCorrCore] at h ⊢
    rcases hs with ⟨e, h1, -⟩ | ⟨⟨a1, a2⟩, ⟨b1, b2⟩, h1, h2, h3, -⟩
    · rw [h1] at h; simp at h
    · rw [h1] at h
      obtain rfl : a2 = b2 := h3
      obtain ⟨it', fe'⟩ := a2
      rw [h2]
      norm_num at h
      exact ⟨_, _, by norm_num [h.2.2]; exact ⟨rfl, rfl⟩⟩
  obtain ⟨pa, it, h⟩ := hex
  obtain ⟨-, -, -, p, -, h1, -, h2, -⟩ := C109_mle_corr_poly hY h
  exact ⟨pa, it, h, p, h1, h2⟩

/-- One round, whatever the search space answers. -/
theorem dc_max_one {W X C T : Type _} [DecidableEq T]
    {Ω : X → T → W → Except PyErr (W × C × Option T)} {S : Space W X C ℝ} {t0 t1 : T} {o : Options ℝ} {w w1 w2 : W} {c : C} {st tsq}
    (hmax : o.maxIt = 1) (hq : Ω (S.xc w) t0 w = .ok (w1, c, some t1)) (hu : S.update c w1 = .ok (w2, st, tsq)) :
    ∃ info, cuttingPlaneDc Ω S t0 o w = .ok (w2, some (S.xc w1), t1, info) := by
  unfold cuttingPlaneDc forRange
  rw [hmax, Int.toNat_one, forLoop]
  simp only [dcBody, hq, hu]
  by_cases h1 : st = .success
  · by_cases h2 : tsq < o.tol
    · simp only [h1, h2, ne_eq, not_true_eq_false, if_false, if_true, readVar]
      exact ⟨_, rfl⟩
    · simp only [h1, h2, ne_eq, not_true_eq_false, if_false, forLoop, readVar]
      exact ⟨_, rfl⟩
  · simp only [h1, ne_eq, not_false_eq_true, if_true, readVar]
    exact ⟨_, rfl⟩

/-- `C109_lsq_corr_poly2` applies: one site, `Y = [1]`, one coefficient, one iteration; the start, the constant polynomial 1, fits exactly. -/
example : ∃ pa it, lsqCorrPoly2 true ⟨1, 1 / 10 ^ 8⟩ (1 : Matrix (Fin 1) (Fin 1) ℝ) exSite 1 = .ok (pa, it, true) ∧
    ∃ (p : ℝ[X]) (t : ℝ), p.degree < (1 : ℕ) ∧ (∀ x, poly1dEval pa x = p.eval x) ∧ (corrMat exSite p).PosDef ∧
      SpecBelow (1 - corrMat exSite p) t := by
  have hfro : 32 * normFro (1 : Matrix (Fin 1) (Fin 1) ℝ) * normFro (1 : Matrix (Fin 1) (Fin 1) ℝ) = 32 := by
    norm_num [normFro]
  have hO : ∀ z : Fin 1 → ℝ, omegaOf (sigMat exSite 1) z = Matrix.of fun _ _ => z 0 := by
    intro z
    ext i j
    fin_cases i; fin_cases j
    simp [omegaOf, sigMat_apply]
  set x₀ : Fin 2 → ℝ := Fin.snoc (fun i : Fin 1 => if (i : ℕ) = 0 then 1 else 0) (32 / 2) with hx₀
  set val : Fin 2 → ℝ := Fin.snoc (fun _ : Fin 1 => 256) (32 * 32) with hval
  obtain ⟨E, hE⟩ : ∃ E, Ell.init (.diag val) x₀ = .ok E := by
    cases h : Ell.init (.diag val) x₀ with
    | ok E => exact ⟨E, rfl⟩
    | error e => exact absurd ((C24_ell_init_fails (.diag val) x₀).1 ⟨e, h⟩) (by norm_num)
  obtain ⟨hpr, hxc, -⟩ := C24_ell_init_diag (by omega) (fun i => by
    refine Fin.lastCases ?_ (fun i => ?_) i
    · rw [hval, Fin.snoc_last]; norm_num
    · rw [hval, Fin.snoc_castSucc]; norm_num) hE
  obtain ⟨Q0, r0, f1, -, f3, -⟩ := C36_lmi0 (fun q => symOn_arr (sigMat_symm exSite q)) (Fin.init x₀) (ready_init 1)
  obtain ⟨q1, r1, g1, -, g3, -⟩ := C38_qmi (fun q => arr (sigMat exSite 1 q)) (arr (1 : Matrix (Fin 1) (Fin 1) ℝ)) 1
    (fun q => symOn_arr (sigMat_symm exSite q)) (x₀ (Fin.last 1)) (Fin.init x₀) (o := ⟨⟨0, 0, fun _ _ => 0⟩, CholExt.init 1⟩) (ready_init 1)
  have hi : (Fin.init x₀ : Fin 1 → ℝ) 0 = 1 := by rw [hx₀, Fin.init_snoc]; simp
  obtain rfl : r0 = none := f3.2 (by
    rw [combo_arr, pdOn_arr (omegaOf_herm (sigMat_symm exSite) _), hO, posDef_fin1]
    simp [hi])
  obtain rfl : r1 = none := g3.2 (by
    rw [pencil_arr', pd_ti_iff, hO]
    intro v hv
    have h0 : v 0 ≠ 0 := fun h => hv (by ext i; fin_cases i; exact h)
    simp only [Fin.sum_univ_one, Matrix.mulVec, dotProduct, Matrix.sub_apply, Matrix.of_apply, hi]
    rw [hx₀, Fin.snoc_last]
    have := sq_pos_of_ne_zero h0
    norm_num; linarith)
  have hcall : (lsqDcObj 1 (constructPolyMatrix exSite (1 : ℕ)) (1 : Matrix (Fin 1) (Fin 1) ℝ)).call x₀ ⊤
      ⟨⟨⟨0, 0, fun _ _ => 0⟩, CholExt.init 1⟩, CholExt.init 1⟩ =
      .ok (⟨q1, Q0⟩, (Fin.snoc (fun _ => 0) 1, .scalar 0), some ((x₀ (Fin.last 1) : ℝ) : WithTop ℝ)) := by
    change (lsqCall (fun q => arr (sigMat exSite 1 q)) (arr (1 : Matrix (Fin 1) (Fin 1) ℝ)) 1 x₀ ⊤ _).map _ = _
    have f1' : lmi0Call (fun q => arr (sigMat exSite 1 q)) 1 (fun q => x₀ q.castSucc) (CholExt.init 1) = .ok (Q0, none) := f1
    have g1' : qmiCall (fun q => arr (sigMat exSite 1 q)) (arr (1 : Matrix (Fin 1) (Fin 1) ℝ)) 1 1 (fun q => x₀ q.castSucc)
      ((⟨⟨0, 0, fun _ _ => 0⟩, CholExt.init 1⟩ : QmiOracle ℝ).setT (x₀ (Fin.last 1))) = .ok (q1, none) := g1
    simp only [lsqCall, f1', g1', Except.map]
  have hg : (Fin.snoc (fun _ : Fin 1 => (0 : ℝ)) 1 : Fin 2 → ℝ) ≠ 0 := fun h => by
    have := congrFun h (Fin.last 1)
    rw [Fin.snoc_last] at this
    simp at this
  have hpos : 0 < √(E.kappa * ((Fin.snoc (fun _ : Fin 1 => (0 : ℝ)) 1 : Fin 2 → ℝ) ⬝ᵥ E.Q *ᵥ (Fin.snoc (fun _ : Fin 1 => (0 : ℝ)) 1 : Fin 2 → ℝ))) :=
    Real.sqrt_pos.2 (mul_pos hpr.kappa ((pd_iff.1 hpr.pd).2 _ hg))
  obtain ⟨E', st, tsq, hu, -⟩ := C106_update E hpr (c := (Fin.snoc (fun _ : Fin 1 => (0 : ℝ)) 1, .scalar 0)) (by
    rintro (h | h | h)
    · exact hg h
    · dsimp only at h; linarith
    · dsimp only at h; linarith)
  obtain ⟨info, hrun⟩ := dc_max_one (Ω := fun x t => liftOracle ((lsqDcObj 1 (constructPolyMatrix exSite (1 : ℕ)) (1 : Matrix (Fin 1) (Fin 1) ℝ)).call x t))
    (S := Ell.space (LsqOracle ℝ) 2) (t0 := ⊤) (o := ⟨1, 1 / 10 ^ 8⟩) (w := (⟨⟨⟨0, 0, fun _ _ => 0⟩, CholExt.init 1⟩, CholExt.init 1⟩, E))
    (w1 := (⟨q1, Q0⟩, E)) (w2 := (⟨q1, Q0⟩, E')) (c := (Fin.snoc (fun _ : Fin 1 => (0 : ℝ)) 1, .scalar 0))
    (t1 := ((x₀ (Fin.last 1) : ℝ) : WithTop ℝ)) (st := st) (tsq := tsq) rfl
    (by simp only [liftOracle, Ell.space, hxc]; rw [hcall])
    (by simp only [Ell.space, hu])
  have hex : lsqCorrPoly2 true ⟨1, 1 / 10 ^ 8⟩ (1 : Matrix (Fin 1) (Fin 1) ℝ) exSite 1 = .ok ([1], info.numIters, info.feasible) := by
    simp only [lsqCorrPoly2, corrPoly, lsqCorrCore2, corrSolve, if_true, corrRunCopied]
    simp only [hfro, ← hx₀, ← hval, hE]
    have hst : (lsqDcObj 1 (constructPolyMatrix exSite (1 : ℕ)) (1 : Matrix (Fin 1) (Fin 1) ℝ)).state =
      ⟨⟨⟨0, 0, fun _ _ => 0⟩, CholExt.init 1⟩, CholExt.init 1⟩ := rfl
    rw [hst, hrun]
    have h0 : E.xc 0 = 1 := by rw [hxc]; exact hi
    simp [Ell.space, h0]
  obtain ⟨hf, p, t, h1, h2, h3, h4, -⟩ := C109_lsq_corr_poly2 (by simp) le_rfl hex
  exact ⟨_, _, by rw [hex, hf], p, t, h1, h2, h3, h4⟩

/-- `C109_lsq_corr_poly` applies: one site, `Y = [1]`, two coefficients, one probe of the search; the level drops to 1/2. -/
example : ∃ pa it, lsqCorrPoly ⟨2000, 1 / 10 ^ 8⟩ ⟨1, 1 / 10 ^ 8⟩ (1 : Matrix (Fin 1) (Fin 1) ℝ) exSite 2 = .ok (pa, it, true) ∧
    ∃ (p : ℝ[X]) (u : ℝ), u < 1 ∧ p.degree < (2 : ℕ) ∧ SpecBelow (1 - corrMat exSite p) u := by
  have hfro : normFro (1 : Matrix (Fin 1) (Fin 1) ℝ) * normFro (1 : Matrix (Fin 1) (Fin 1) ℝ) = 1 := by
    norm_num [normFro]
  have hO : ∀ z : Fin 2 → ℝ, omegaOf (sigMat exSite 2) z = Matrix.of fun _ _ => z 0 := by
    intro z
    ext i j
    fin_cases i; fin_cases j
    simp [omegaOf, Fin.sum_univ_two, Matrix.add_apply, sigMat_apply]
  set x₀ : Fin 2 → ℝ := fun i => if (i : ℕ) = 0 then 1 else 0 with hx₀
  obtain ⟨q1, r1, g1, -, g3, -⟩ := C38_qmi (fun q => arr (sigMat exSite 2 q)) (arr (1 : Matrix (Fin 1) (Fin 1) ℝ)) 1
    (fun q => symOn_arr (sigMat_symm exSite q)) (1 / 2) x₀ (o := ⟨⟨0, 0, fun _ _ => 0⟩, CholExt.init 1⟩) (ready_init 1)
  obtain rfl : r1 = none := g3.2 (by
    rw [pencil_arr', pd_ti_iff, hO]
    intro v hv
    have h0 : v 0 ≠ 0 := fun h => hv (by ext i; fin_cases i; exact h)
    simp only [Fin.sum_univ_one, Matrix.mulVec, dotProduct, Matrix.sub_apply, Matrix.of_apply, hx₀]
    have := sq_pos_of_ne_zero h0
    norm_num; linarith)
  have hinit : HEll.init (n := 2) (.scalar 256) 0 = .ok ⟨true, false, 0, 1, 256⟩ := by
    unfold HEll.init Ell.c1? pyDiv; norm_num
  set f : (Fin 2 → ℝ) → QmiOracle ℝ → Except PyErr (QmiOracle ℝ × Option ((Fin 2 → ℝ) × Beta)) := fun x w =>
    (qmiCall (fun q : Fin 2 => npArr ((constructPolyMatrix exSite (2 : ℕ)).getD q 0)) (npArr (1 : Matrix (Fin 1) (Fin 1) ℝ)) 1 1 x w).map fun r =>
        (r.1, r.2.map fun c => (c.1, Beta.scalar c.2)) with hf
  have hcall : f x₀ ((⟨⟨0, 0, fun _ _ => 0⟩, CholExt.init 1⟩ : QmiOracle ℝ).setT (1 / 2)) = .ok (q1, none) := by
    change (qmiCall (fun q => arr (sigMat exSite 2 q)) (arr (1 : Matrix (Fin 1) (Fin 1) ℝ)) 1 1 _ _).map _ = _
    rw [g1]; rfl
  have hprobe : probeEll (fun t w => .ok (w.setT t)) f ⟨2000, 1 / 10 ^ 8⟩ (1 / 2)
      (⟨⟨0, 0, fun _ _ => 0⟩, CholExt.init 1⟩, (fun _ => x₀), ⟨true, false, 0, 1, 256⟩) =
      .ok ((q1, (fun _ => x₀), ⟨true, false, 0, 1, 256⟩), true) := by
    have hc : HEll.copy (⟨true, false, 0, 1, 256⟩ : HEll 2) = .ok ⟨true, false, 0, 1, 256⟩ := by
      simp [HEll.copy, hinit]
    have hfeas : cuttingPlaneFeas (fun x => besidesCall (HEll.readOracle f x)) (besides (D := HEll 2) (HEll.space (QmiOracle ℝ) 2)) ⟨2000, 1 / 10 ^ 8⟩
        (((⟨⟨0, 0, fun _ _ => 0⟩, CholExt.init 1⟩ : QmiOracle ℝ).setT (1 / 2), (fun _ => x₀), ⟨true, false, 0, 1, 256⟩), ⟨true, false, 0, 1, 256⟩) =
        .ok (((q1, (fun _ => x₀), ⟨true, false, 0, 1, 256⟩), ⟨true, false, 0, 1, 256⟩), ⟨true, 1, .success⟩) := by
      unfold cuttingPlaneFeas forRange
      rw [show (2000 : ℤ).toNat = 1999 + 1 from rfl, forLoop]
      simp only [feasBody, besidesCall, HEll.readOracle, hcall, readVar]
    simp only [probeEll, bsearchAdaptor, hc, hfeas, if_true]
    simp [besides, HEll.space, HEll.setXc]
  have hrun : ∃ info : CInfo, info.feasible = true ∧ bsearch (probeEll (fun t w => .ok (w.setT t)) f ⟨2000, 1 / 10 ^ 8⟩) id 0 1 ⟨1, 1 / 10 ^ 8⟩
      (⟨⟨0, 0, fun _ _ => 0⟩, CholExt.init 1⟩, (fun _ => x₀), ⟨true, false, 0, 1, 256⟩) =
      .ok ((q1, (fun _ => x₀), ⟨true, false, 0, 1, 256⟩), 1 / 2, info) := by
    unfold bsearch forRange
    simp only [Int.toNat_one, forLoop, bsearchBody]
    norm_num at hprobe ⊢
    rw [hprobe]
    simp [readVar]
  obtain ⟨info, hfe, hrun⟩ := hrun
  have hex : lsqCorrPoly ⟨2000, 1 / 10 ^ 8⟩ ⟨1, 1 / 10 ^ 8⟩ (1 : Matrix (Fin 1) (Fin 1) ℝ) exSite 2 =
      .ok ((List.ofFn x₀).reverse, info.numIters, true) := by
    simp only [lsqCorrPoly, corrPoly, lsqCorrCore, hfro]
    rw [if_neg (by norm_num), hinit]
    simp only [← hf]
    rw [hrun]
    simp [hfe]
  obtain ⟨-, u, l, j, h1, h2, -, h5, h3, -⟩ := C109_lsq_corr_poly hex
  have hs : ∑ i : Fin 1, ∑ j : Fin 1, (1 : Matrix (Fin 1) (Fin 1) ℝ) i j ^ 2 = 1 := by simp
  rw [hs] at h1 h2 h3 h5
  obtain h3 | ⟨p, hp, hp2⟩ := h3
  · exact absurd h3 (h1.1 rfl)
  · exact ⟨_, _, hex, p, u, lt_of_le_of_ne h5 (h1.1 rfl), hp, hp2⟩

/-- Data that are not positive definite. -/
example : mleCorrPoly (n := 1) (d := 1) true ⟨2000, 1 / 10 ^ 8⟩ (0 : Matrix (Fin 1) (Fin 1) ℝ) (fun _ _ => 0) 2 = .error .valueError :=
  C109_mle_raises _ _ Matrix.isHermitian_zero (fun h => by have := h.diag_pos (i := 0); simp at this) _ _

end Verif
