import Verif.Props.EllFloatNear
import Verif.Props.NetworkFloat
import Verif.Props.NetworkSolve
import Verif.Proofs.ScalingFloat

/-!
# C138: optimal matrix scaling with every operation rounded

`cutting_plane_dc(optscaling_oracle(G, u, get_cost), ell(...), t0)` as in `tests/test_optscaling.py`, the oracle, the cycle finder and the ellipsoid all in floating point.
-/
namespace Verif
open Matrix MeasureTheory Ell FloatSpec
variable {V : Type _} [LinearOrder V] {G : List (V × V)} {cost : V × V → ℝ} {u γ R c D : ℝ} {n m : ℕ} {fl : ℝ → ℝ} {sum : List ℝ → ℝ} {find : Finder V ℝ} {x : Fin 2 → ℝ}

/-- `optscaling_oracle` with rounding as the `Omega` of `cutting_plane_dc`; its state is the list `u`. -/
noncomputable def scalingOmegaF (fl : ℝ → ℝ) (sum : List ℝ → ℝ) (find : Finder V ℝ) (G : List (V × V)) (cost : V × V → ℝ) (x : Fin 2 → ℝ) (t : WithTop ℝ)
    (d : V → ℝ) : Except PyErr ((V → ℝ) × ((Fin 2 → ℝ) × Beta) × Option (WithTop ℝ)) :=
  (optscalingCallF fl sum find G cost x t d).map fun r => (r.1, (r.2.1.1, .scalar r.2.1.2), r.2.2)

/-! ### One call -/

/-- What a call did: the test on `t`, or the finder. -/
theorem optscaling_cases (hfl : RelErr u fl) (hu1 : u < 1) (hG : ∀ e ∈ G, e.1 ≠ e.2) (x : Fin 2 → ℝ) (t : WithTop ℝ) (d : V → ℝ) :
    (∃ cut, optscalingCallF fl sum find G cost x t d = .ok (d, cut, none)) ∨
    (∃ e, optscalingCallF fl sum find G cost x t d = .error e ∧ find d (fun e => scaleEvalF fl cost e x) = .error e) ∨
    (∃ d' cut l, optscalingCallF fl sum find G cost x t d = .ok (d', cut, none) ∧ find d (fun e => scaleEvalF fl cost e x) = .ok (d', some l)) ∨
    ∃ d' cut, optscalingCallF fl sum find G cost x t d = .ok (d', cut, some ((fl (x 0 - x 1) : ℝ) : WithTop ℝ)) ∧ ((fl (x 0 - x 1) : ℝ) : WithTop ℝ) < t ∧
      find d (fun e => scaleEvalF fl cost e x) = .ok (d', none) := by
  have hany : G.any (fun e => e.1 = e.2) = false := by
    simp only [List.any_eq_false, decide_eq_true_eq]
    exact fun e he => hG e he
  have net : ((fl (x 0 - x 1) : ℝ) : WithTop ℝ) < t → optscalingCallF fl sum find G cost x t d = scaleNetF fl sum find G cost x d →
      (∃ e, optscalingCallF fl sum find G cost x t d = .error e ∧ find d (fun e => scaleEvalF fl cost e x) = .error e) ∨
      (∃ d' cut l, optscalingCallF fl sum find G cost x t d = .ok (d', cut, none) ∧ find d (fun e => scaleEvalF fl cost e x) = .ok (d', some l)) ∨
      ∃ d' cut, optscalingCallF fl sum find G cost x t d = .ok (d', cut, some ((fl (x 0 - x 1) : ℝ) : WithTop ℝ)) ∧ ((fl (x 0 - x 1) : ℝ) : WithTop ℝ) < t ∧
        find d (fun e => scaleEvalF fl cost e x) = .ok (d', none) := by
    intro ht h
    rw [h]
    unfold scaleNetF networkCallF
    rw [if_neg (by simp [hany])]
    cases hf : find d (fun e => scaleEvalF fl cost e x) with
    | error e => exact .inl ⟨e, rfl, rfl⟩
    | ok r =>
      obtain ⟨d1, _ | l⟩ := r
      · exact .inr (.inr ⟨d1, _, rfl, ht, rfl⟩)
      · exact .inr (.inl ⟨d1, _, l, rfl, rfl⟩)
  induction t with
  | top => exact .inr (net (WithTop.coe_lt_top _) rfl)
  | coe t =>
    by_cases h0 : 0 ≤ fl (fl (x 0 - x 1) - t)
    · exact .inl ⟨(![1, -1], fl (fl (x 0 - x 1) - t)), by simp only [optscalingCallF, if_pos h0]⟩
    · refine .inr (net ?_ (by simp only [optscalingCallF, if_neg h0]))
      rw [WithTop.coe_lt_coe]
      have := (fl_sign hfl hu1 (fl (x 0 - x 1) - t)).2.1 (not_le.1 h0)
      linarith

/-- **C138** (one call).  `u` is the unit roundoff, `γ` bounds the relative errors of sums.  At every point of the box of size `R`, with costs of at most `c` and distances of at most `D` after the call, the
answer is right up to `scaleUnit u γ n D (R + c)`.  The call only lowers the distances.  The only exception is what the finder raises. -/
theorem C138_oracle (hfl : RelErr u fl) (hu : 0 ≤ u) (hu1 : u < 1) (hs : SumErr γ n sum) (hγ : (1 + u) ^ n - 1 ≤ γ) (hx : ∀ i, |x i| ≤ R) (hc0 : 0 ≤ c) (hc : ∀ e ∈ G, |cost e| ≤ c)
    (hG : ∀ e ∈ G, e.1 ≠ e.2) (hfind : FinderUpTo u n G find) (t : WithTop ℝ) (d : V → ℝ) :
    (∃ e, optscalingCallF fl sum find G cost x t d = .error e ∧ find d (fun e => scaleEvalF fl cost e x) = .error e) ∨
    ∃ d' cut t1, optscalingCallF fl sum find G cost x t d = .ok (d', cut, t1) ∧ (∀ v, d' v ≤ d v) ∧
      ((∀ v, |d' v| ≤ D) → 0 ≤ D → ScalingAnswer G cost R (scaleUnit u γ n D (R + c)) x t cut t1) := by
  have hR : 0 ≤ R := (abs_nonneg _).trans (hx 0)
  have hγ0 : 0 ≤ γ := le_trans (by linarith [one_le_pow₀ (n := n) (show (1 : ℝ) ≤ 1 + u by linarith)]) hγ
  have hl : SumErr γ n (leftSum fl) := fun l hl => (leftSum_err hfl hu n l hl).trans (mul_le_mul_of_nonneg_right hγ
    (List.sum_nonneg fun y hy => by obtain ⟨z, -, rfl⟩ := List.mem_map.1 hy; exact abs_nonneg _))
  have ans := fun {d' cut t1} (h : optscalingCallF fl sum find G cost x t d = .ok (d', cut, t1)) (hd : ∀ v, |d' v| ≤ D) (hD : 0 ≤ D) =>
    optscalingCallF_ok hfl hu hu1 hs hl hγ0 hR hc0 hx hc hG hfind hD hd h
  rcases optscaling_cases (sum := sum) (find := find) (cost := cost) hfl hu1 hG x t d with ⟨cut, h⟩ | ⟨e, h⟩ | ⟨d', cut, l, h, hf⟩ | ⟨d', cut, h, -, hf⟩
  · exact .inr ⟨d, cut, none, h, fun v => le_rfl, ans h⟩
  · exact .inl ⟨e, h⟩
  · exact .inr ⟨d', cut, none, h, (hfind _ _ _ _ hf).1, ans h⟩
  · exact .inr ⟨d', cut, _, h, (hfind _ _ _ _ hf).1, ans h⟩

/-- **C138** (exact operations): nothing changes, the model is that of C43. -/
theorem C138_exact (find : Finder V ℝ) (cost : V × V → ℝ) (x : Fin 2 → ℝ) (t : WithTop ℝ) (d : V → ℝ) :
    optscalingCallF id List.sum find G cost x t d = optscalingCall find G cost x t d := by
  have e1 : gradSumF (id : ℝ → ℝ) = List.sum := by
    funext l i
    unfold gradSumF
    have : (leftSum id : List ℝ → ℝ) = List.sum := by
      funext l
      simp only [leftSum, id]
      rw [← List.sum_eq_foldl]
    rw [this]
    clear * -
    induction l with
    | nil => rfl
    | cons a l ih => rw [List.map_cons, List.sum_cons, ih]; rfl
  have e2 : scaleNetF id List.sum find G cost x d = scaleNet find G cost x d := by
    unfold scaleNetF scaleNet networkCallF networkCall
    rw [e1]
    rfl
  unfold optscalingCallF optscalingCall
  rw [e2]
  cases t <;> rfl

/-! ### Whole runs -/

omit [LinearOrder V] in
theorem cost_bound (G : List (V × V)) (cost : V × V → ℝ) : ∃ c, 0 ≤ c ∧ ∀ e ∈ G, |cost e| ≤ c := by
  induction G with
  | nil => exact ⟨0, le_rfl, by simp⟩
  | cons e E ih =>
    obtain ⟨M, hM0, hM⟩ := ih
    refine ⟨max |cost e| M, hM0.trans (le_max_right _ _), fun e' h => ?_⟩
    rcases List.mem_cons.1 h with rfl | h
    · exact le_max_left _ _
    · exact (hM e' h).trans (le_max_right _ _)

section
variable {π ψ r B ε tol : ℝ} {N : ℕ}

/-- How far the distances can fall in one call. -/
theorem scaling_dist (hfl : RelErr u fl) (hu : 0 ≤ u) (hu1 : u < 1) (hc0 : 0 ≤ c) (hc : ∀ e ∈ G, |cost e| ≤ c) (hG : ∀ e ∈ G, e.1 ≠ e.2) (hfind : FinderUpTo u n G find)
    (hdrop : FinderDrop u m G find) (hR : 0 ≤ R) (hB : 0 ≤ B) (hx : ∀ i, |x i| ≤ R) {k : ℕ} {t : WithTop ℝ} {d d' : V → ℝ} {cut : (Fin 2 → ℝ) × ℝ} {t1 : Option (WithTop ℝ)}
    (hinv : ∀ v, |d v| ≤ distBound 1 m B (2 * (R + c)) k) (h1 : optscalingCallF fl sum find G cost x t d = .ok (d', cut, t1)) :
    ∀ v, |d' v| ≤ distBound 1 m B (2 * (R + c)) (k + 1) := by
  have hW2 : 0 ≤ 2 * (R + c) := by linarith
  have hmono := distBound_mono (u := (1 : ℝ)) (m := m) zero_le_one hB hW2 (Nat.le_add_right k 1)
  have hk0 : 0 ≤ distBound 1 m B (2 * (R + c)) k := by unfold distBound; positivity
  have stay : ∀ v, |d v| ≤ distBound 1 m B (2 * (R + c)) (k + 1) := fun v => (hinv v).trans hmono
  have found : ∀ {r}, find d (fun e => scaleEvalF fl cost e x) = .ok (d', r) → ∀ v, |d' v| ≤ distBound 1 m B (2 * (R + c)) (k + 1) := fun hf v => by
    have k1 := hdrop _ _ _ _ hf (distBound 1 m B (2 * (R + c)) k) (2 * (R + c)) hk0 hW2 (fun v => (abs_le.1 (hinv v)).1)
      (fun e he => (abs_le.1 (scaleEvalF_bound hfl hu hu1.le hx (hc e he))).1) v
    have k2 := distBound_step (u := (1 : ℝ)) (m := m) (B := B) zero_le_one hW2 k
    have k3 : (1 + u) ^ m * (distBound 1 m B (2 * (R + c)) k + m * (2 * (R + c))) ≤ (1 + 1) ^ m * (distBound 1 m B (2 * (R + c)) k + m * (2 * (R + c))) :=
      mul_le_mul_of_nonneg_right (pow_le_pow_left₀ (by linarith) (by linarith) m) (add_nonneg hk0 (by positivity))
    rw [abs_le]
    exact ⟨by linarith, ((hfind _ _ _ _ hf).1 v).trans ((abs_le.1 (stay v)).2)⟩
  rcases optscaling_cases (sum := sum) (find := find) (cost := cost) hfl hu1 hG x t d with ⟨cut, h4⟩ | ⟨e, h4, -⟩ | ⟨d1, cut, l, h4, h5⟩ | ⟨d1, cut, h4, -, h5⟩ <;> rw [h1] at h4
  · simp only [Except.ok.injEq, Prod.mk.injEq] at h4
    rw [h4.1]; exact stay
  · simp at h4
  · simp only [Except.ok.injEq, Prod.mk.injEq] at h4
    rw [← h4.1] at h5; exact found h5
  · simp only [Except.ok.injEq, Prod.mk.injEq] at h4
    rw [← h4.1] at h5; exact found h5

/-- The cuts keep a disc of points with room while the value is above `π - ψ + 7r`. -/
theorem scaling_keeps (hfl : RelErr u fl) (hu : 0 ≤ u) (hu1 : u < 1) (hs : SumErr γ n sum) (hγ : (1 + u) ^ n - 1 ≤ γ) (hc0 : 0 ≤ c) (hc : ∀ e ∈ G, |cost e| ≤ c)
    (hG : ∀ e ∈ G, e.1 ≠ e.2) (hfind : FinderUpTo u n G find) (hdrop : FinderDrop u m G find) (hr : 0 < r) (hf : ScalingFeasible G cost π ψ) (hR : 0 ≤ R) (hB : 0 ≤ B) (hε0 : 0 ≤ ε)
    (hKR : ∀ z ∈ euclBall ![π + 2 * r, ψ - 2 * r] r, ∀ i, |z i| ≤ R)
    (hD : distBound 1 m B (2 * (R + c)) N ≤ D) (hΔ : 4 * scaleUnit u γ n D (R + c) ≤ r) (hΔε : 4 * scaleUnit u γ n D (R + c) ≤ ε * r) (htol : tol ≤ 199 / 200 * (r / 2) ^ 2) :
    DcKeepsNear N (euclBall ![π + 2 * r, ψ - 2 * r] r) {x | ∀ i, |x i| ≤ R} (fun k d => ∀ v, |d v| ≤ distBound 1 m B (2 * (R + c)) k)
      (fun t => ((π - ψ + 7 * r : ℝ) : WithTop ℝ) < t) (fun e => ∃ d w, find d w = .error e) tol ε (scalingOmegaF fl sum find G cost) := by
  have hW : 0 ≤ R + c := by linarith
  have hW2 : 0 ≤ 2 * (R + c) := by linarith
  have hball : ∀ z ∈ euclBall ![π + 2 * r, ψ - 2 * r] r, |z 0 - (π + 2 * r)| ≤ r ∧ |z 1 - (ψ - 2 * r)| ≤ r := by
    intro z hz
    simp only [euclBall, Set.mem_ofPred_eq, Fin.sum_univ_two, cons_val_zero, cons_val_one] at hz
    constructor <;> refine abs_le_of_sq_le_sq ?_ hr.le <;>
      nlinarith [sq_nonneg (z 0 - (π + 2 * r)), sq_nonneg (z 1 - (ψ - 2 * r))]
  have hc' : ![π + 2 * r, ψ - 2 * r] ∈ euclBall ![π + 2 * r, ψ - 2 * r] r := by
    change ∑ i, (![π + 2 * r, ψ - 2 * r] i - ![π + 2 * r, ψ - 2 * r] i) ^ 2 ≤ r ^ 2
    simp; positivity
  have hdist0 : ∀ k, 0 ≤ distBound 1 m B (2 * (R + c)) k := fun k => by unfold distBound; positivity
  have hD0 : 0 ≤ D := (hdist0 N).trans hD
  constructor
  · intro x t d d' cut t1 h hbad
    cases t1 with
    | none => exact hbad
    | some v =>
      have h1 : (optscalingCallF fl sum find G cost x t d).map (fun r => (r.1, (r.2.1.1, Beta.scalar r.2.1.2), r.2.2)) = .ok (d', cut, some v) := h
      rcases optscaling_cases (sum := sum) (find := find) (cost := cost) hfl hu1 hG x t d with ⟨cut, h2⟩ | ⟨e, h2, -⟩ | ⟨d', cut, l, h2, -⟩ | ⟨d', cut, h2, h3, -⟩ <;>
        rw [h2] at h1 <;> simp [Except.map] at h1
      exact lt_trans hbad (by rw [Option.getD_some, ← h1.2.2]; exact h3)
  · intro k hk x hx t d hinv hbad
    rcases C138_oracle (D := D) hfl hu hu1 hs hγ hx hc0 hc hG hfind t d with ⟨e, h1, h2⟩ | ⟨d', cut, t1, h1, h2, h3⟩
    · exact .inl ⟨e, ⟨_, _, h2⟩, by simp [scalingOmegaF, h1, Except.map]⟩
    · refine .inr ⟨d', cut.1, cut.2, t1, by simp [scalingOmegaF, h1, Except.map], fun hbad' => ?_⟩
      have hnew := scaling_dist hfl hu hu1 hc0 hc hG hfind hdrop hR hB hx hinv h1
      refine ⟨hnew, ?_⟩
      have hans := h3 (fun v => (hnew v).trans ((distBound_mono zero_le_one hB hW2 hk).trans hD)) hD0
      set Δ := scaleUnit u γ n D (R + c) with hΔd
      have hnear := hans.near
      have key : ∀ z ∈ euclBall ![π + 2 * r, ψ - 2 * r] r, cut.1 ⬝ᵥ (z - x) + cut.2 ≤ -r + Δ := by
        intro z hz
        obtain ⟨b0, b1⟩ := hball z hz
        rw [abs_le] at b0 b1
        refine hans.keeps z r (hKR z hz) hr.le ?_ (le_trans (le_of_lt (lt_of_le_of_lt ?_ hbad')) le_rfl)
        · obtain ⟨p, hp⟩ := hf
          exact ⟨p, fun e he => ⟨fun hlt => ((hp e he).1 hlt).trans (by linarith), fun hlt => le_trans (by linarith) ((hp e he).2 hlt)⟩⟩
        · rw [WithTop.coe_le_coe]; linarith
      have hΔ0 : -Δ ≤ min cut.2 0 := le_min hnear (by
        have h0 : (0 : ℝ) ≤ γ := le_trans (by linarith [one_le_pow₀ (n := n) (show (1 : ℝ) ≤ 1 + u by linarith)]) hγ
        have : 0 ≤ Δ := by rw [hΔd]; unfold scaleUnit; positivity
        linarith)
      have far : ∀ z ∈ euclBall ![π + 2 * r, ψ - 2 * r] r, cut.1 ⬝ᵥ (z - x) + max cut.2 0 ≤ -(r / 2) := by
        intro z hz
        have := key z hz
        rcases le_total cut.2 0 with h | h
        · rw [max_eq_right h]; rw [min_eq_left h] at hΔ0; linarith
        · rw [max_eq_left h]; rw [min_eq_right h] at hΔ0; linarith
      refine ⟨fun h0 => ?_, fun z hz => ?_⟩
      · have := far _ hc'
        dsimp only at h0
        rw [h0, zero_dotProduct] at this
        linarith [le_max_right cut.2 0]
      · dsimp only
        have h5 := far z hz
        have h6 := le_max_right cut.2 0
        have h7 : cut.1 ⬝ᵥ (z - x) ≤ -(r / 2) := by linarith
        refine ⟨by linarith, htol.trans ?_, ?_⟩
        · have : (r / 2) ^ 2 ≤ (cut.1 ⬝ᵥ (z - x)) ^ 2 := by
            rw [← neg_sq (cut.1 ⬝ᵥ (z - x))]
            exact pow_le_pow_left₀ (by linarith) (by linarith) 2
          linarith
        · rw [abs_of_neg (by linarith)]
          have h8 := mul_le_mul_of_nonneg_left (show r / 2 ≤ -(cut.1 ⬝ᵥ (z - x)) by linarith) hε0
          have h9 := hΔ0.trans (min_le_left _ _)
          push_cast
          linarith

end

/-- **C138** (optimal scaling).  Let `(π, ψ)` admit a scaling and lie in the interior of the first ellipsoid, and let `ν > 0`.  There are a number `N` of iterations, a precision and a tolerance with the following, for every
first list of distances of at most `B` in absolute value, every start level (also `inf`) and every finder that works up to rounding.  A run with `max_it ≥ N` that returns has a level of at
most `π - ψ + ν`.  If the start level is above that, within the first `N` oracle calls a level of at most `π - ψ + ν` is found, and it is right up to `ν`; or the finder raises. -/
theorem C138_optscaling (hG : ∀ e ∈ G, e.1 ≠ e.2) (cost : V × V → ℝ) {E₀ : Ell 2} (hE : E₀.Proper) {π ψ ρ ν B : ℝ} (hf : ScalingFeasible G cost π ψ) (hρ : 0 < ρ)
    (hin : euclBall ![π, ψ] ρ ⊆ E₀.pts) (hν : 0 < ν) (hB : 0 ≤ B) (n m : ℕ) :
    ∃ (N : ℕ) (ζ₀ tol₀ : ℝ), 0 < ζ₀ ∧ 0 < tol₀ ∧ ∀ u ζ, 0 ≤ u → u ≤ ζ₀ → ζ ≤ ζ₀ → ∀ fl dot sum (find : Finder V ℝ), RelErr u fl → VecDotErr ζ dot → SumErr ((1 + u) ^ n - 1) n sum →
      FinderUpTo u n G find → FinderDrop u m G find → ∀ tol, tol ≤ tol₀ → ∀ (t0 : WithTop ℝ) (d0 : V → ℝ), (∀ v, |d0 v| ≤ B) →
      (∀ m' : Int, (N : Int) ≤ m' → ∀ w' xb t info,
        cuttingPlaneDc (fun x t => liftOracle (scalingOmegaF fl sum find G cost x t)) ((Ell.spaceF fl dot).beside (V → ℝ)) t0 ⟨m', tol⟩ (d0, E₀) = .ok (w', xb, t, info) →
        t ≤ ((π - ψ + ν : ℝ) : WithTop ℝ)) ∧
      (((π - ψ + ν : ℝ) : WithTop ℝ) < t0 → ∃ (k : ℕ) (log : _) (P : (V → ℝ) × Ell 2), k < N ∧
        DcRounds (fun x t => liftOracle (scalingOmegaF fl sum find G cost x t)) ((Ell.spaceF fl dot).beside (V → ℝ)) tol t0 (d0, E₀) k log P ∧
        ((∃ d' cut, ∃ s : ℝ, scalingOmegaF fl sum find G cost P.2.xc (bestT t0 log) P.1 = .ok (d', cut, some (s : WithTop ℝ)) ∧ s ≤ π - ψ + ν ∧ ScalingFound G cost ν P.2.xc s) ∨
          ∃ e, find P.1 (fun e => scaleEvalF fl cost e P.2.xc) = .error e ∧ scalingOmegaF fl sum find G cost P.2.xc (bestT t0 log) P.1 = .error e)) := by
  obtain ⟨c, hc0, hc⟩ := cost_bound G cost
  set r := min (ρ / 5) (ν / 7) with hr
  have hr0 : 0 < r := by positivity
  have hrρ : 5 * r ≤ ρ := by have := min_le_left (ρ / 5) (ν / 7); linarith
  have hrν : 7 * r ≤ ν := by have := min_le_right (ρ / 5) (ν / 7); linarith
  set a : Fin 2 → ℝ := ![π + 2 * r, ψ - 2 * r] with ha
  have hball : euclBall a r ⊆ E₀.pts := fun z hz => hin <| by
    have hz : ∑ i, (z i - a i) ^ 2 ≤ r ^ 2 := hz
    change ∑ i, (z i - ![π, ψ] i) ^ 2 ≤ ρ ^ 2
    simp only [ha, Fin.sum_univ_two, cons_val_zero, cons_val_one] at hz ⊢
    have h0 : |z 0 - (π + 2 * r)| ≤ r := abs_le_of_sq_le_sq (by linarith [sq_nonneg (z 1 - (ψ - 2 * r))]) hr0.le
    have h1 : |z 1 - (ψ - 2 * r)| ≤ r := abs_le_of_sq_le_sq (by linarith [sq_nonneg (z 0 - (π + 2 * r))]) hr0.le
    rw [abs_le] at h0 h1
    have h7 : (5 * r) ^ 2 ≤ ρ ^ 2 := pow_le_pow_left₀ (by linarith) hrρ 2
    have h8 := mul_le_mul_of_nonneg_left h0.2 hr0.le
    have h9 := mul_le_mul_of_nonneg_left h1.1 hr0.le
    have e0 : (z 0 - π) ^ 2 = (z 0 - (π + 2 * r)) ^ 2 + 4 * (r * (z 0 - (π + 2 * r))) + 4 * r ^ 2 := by ring
    have e1 : (z 1 - ψ) ^ 2 = (z 1 - (ψ - 2 * r)) ^ 2 - 4 * (r * (z 1 - (ψ - 2 * r))) + 4 * r ^ 2 := by ring
    nlinarith
  set A' := ∑ i, |a i| + r with hA'
  have hKA : ∀ z ∈ euclBall a r, ∀ i, |z i| ≤ A' := fun z hz i => (ball_coord hr0.le hz i).trans
    (by have := Finset.single_le_sum (f := fun i => |a i|) (fun i _ => abs_nonneg _) (Finset.mem_univ i); linarith)
  have hpos : 0 < volume.real (euclBall a r ∩ E₀.pts) := by
    rw [Set.inter_eq_left.2 hball, vol_ball hE.dim hr0]
    have := euclBall_real_pos (n := 2)
    positivity
  obtain ⟨N, L, ε₀, hε₀, C, η, θ, l, q, L₀, v', hS⟩ := C134_precise hE hKA hpos
  set R := A' + √L with hR
  have hR0 : 0 ≤ R := by positivity
  set D := distBound 1 m B (2 * (R + c)) N with hD
  obtain ⟨z0, hz0, hz⟩ := small_of_cont (g := fun u => 4 * scaleUnit u ((1 + u) ^ n - 1) n D (R + c)) (c := min (min r (ε₀ * r)) ν)
    (by unfold scaleUnit; fun_prop) (by simp [scaleUnit]; exact ⟨⟨hr0, by positivity⟩, hν⟩)
  refine ⟨N, min (min z0 ε₀) (1 / 2), 199 / 200 * (r / 2) ^ 2, by positivity, by positivity, fun u ζ hu hu' hζ fl dot sum find hfl hdot hs hfind hdrop tol htol t0 d0 hd0 => ?_⟩
  have k1 : u ≤ z0 := hu'.trans ((min_le_left _ _).trans (min_le_left _ _))
  have k2 : u ≤ ε₀ := hu'.trans ((min_le_left _ _).trans (min_le_right _ _))
  have k3 : ζ ≤ ε₀ := hζ.trans ((min_le_left _ _).trans (min_le_right _ _))
  have k4 : u < 1 := by linarith [hu'.trans (min_le_right (min z0 ε₀) (1 / 2))]
  have hsm := hz u hu k1
  have hsm1 := hsm.trans ((min_le_left _ _).trans (min_le_left _ _))
  have hsm2 := hsm.trans ((min_le_left _ _).trans (min_le_right _ _))
  have hsm3 := hsm.trans (min_le_right _ _)
  have hγ0 : (0 : ℝ) ≤ (1 + u) ^ n - 1 := by linarith [one_le_pow₀ (n := n) (show (1 : ℝ) ≤ 1 + u by linarith)]
  have hdot' : VecDotErr ε₀ dot := fun x y => (hdot x y).trans (mul_le_mul_of_nonneg_right k3 (Finset.sum_nonneg fun i _ => abs_nonneg _))
  have hsure := hS ε₀ u hu k2 le_rfl {x | ∀ i, |x i| ≤ R} fun x hx i => hx i
  have hKR : ∀ z ∈ euclBall a r, ∀ i, |z i| ≤ R := fun z hz i => (hKA z hz i).trans (by linarith [Real.sqrt_nonneg L])
  have hkeep := scaling_keeps (N := N) (D := D) (tol := tol) hfl hu k4 hs le_rfl hc0 hc hG hfind hdrop hr0 hf hR0 hB hε₀.le hKR le_rfl hsm1 hsm2 htol
  have hinv0 : ∀ v, |d0 v| ≤ distBound 1 m B (2 * (R + c)) 0 := fun v => by simpa [distBound] using hd0 v
  obtain ⟨r1, r2⟩ := C138_dc (t0 := t0) hsure hE hfl hu k2 hdot' hkeep hinv0
  have hlev : ((π - ψ + 7 * r : ℝ) : WithTop ℝ) ≤ ((π - ψ + ν : ℝ) : WithTop ℝ) := by rw [WithTop.coe_le_coe]; linarith
  refine ⟨fun m' hm w' xb t info h => (not_lt.1 (r1 m' hm w' xb t info h)).trans hlev, fun hbad => ?_⟩
  obtain ⟨k, log, P, q1, q2, q3, q4, q5, q6⟩ := r2 (hlev.trans_lt hbad)
  refine ⟨k, log, P, q1, q5, ?_⟩
  rcases q6 with ⟨d', cut, t1, q6, q7⟩ | ⟨e, -, q6⟩
  · left
    cases t1 with
    | none => exact absurd q4 q7
    | some v =>
      rcases C138_oracle (D := D) hfl hu k4 hs le_rfl q2 hc0 hc hG hfind (bestT t0 log) P.1 with ⟨e, h1, -⟩ | ⟨d1, cut1, t1, h1, -, h3⟩
      · simp [scalingOmegaF, h1, Except.map] at q6
      · have hnew := scaling_dist hfl hu k4 hc0 hc hG hfind hdrop hR0 hB q2 q3 h1
        have hans := h3 (fun v => (hnew v).trans (distBound_mono zero_le_one hB (by linarith) q1)) (by rw [hD]; unfold distBound; positivity)
        have hq6 := q6
        simp only [scalingOmegaF, h1, Except.map, Except.ok.injEq, Prod.mk.injEq] at hq6
        obtain ⟨-, s, rfl, h5, h6⟩ := hans.found v hq6.2.2
        have hU0 : 0 ≤ scaleUnit u ((1 + u) ^ n - 1) n D (R + c) := by
          have : 0 ≤ D := by rw [hD]; unfold distBound; positivity
          unfold scaleUnit; positivity
        refine ⟨d', cut, s, q6, ?_, h5.trans (by linarith), ?_⟩
        · have := (not_lt.1 q7).trans hlev
          rwa [Option.getD_some, WithTop.coe_le_coe] at this
        · obtain ⟨p, hp⟩ := h6
          exact ⟨p, fun e he => ⟨fun hlt => ((hp e he).1 hlt).trans (by linarith), fun hlt => le_trans (by linarith) ((hp e he).2 hlt)⟩⟩
  · right
    refine ⟨e, ?_, q6⟩
    rcases optscaling_cases (sum := sum) (find := find) (cost := cost) hfl k4 hG P.2.xc (bestT t0 log) P.1 with ⟨cut, h2⟩ | ⟨e', h2, h3⟩ | ⟨d', cut, l, h2, -⟩ | ⟨d', cut, h2, h3, -⟩ <;>
      simp [scalingOmegaF, h2, Except.map] at q6
    rw [← q6]; exact h3


/-- **C138** (what is returned).  Any run, without assumptions on the precision beyond `u < 1`.  Either nothing was found and the level is the initial one, or the level is `fl(x[0] - x[1])` at the returned point `x`, better than the initial one, and
`(x[0] + Δ, x[1] - Δ)` admits a scaling, where `Δ = u(D + 3(R + c))`, `R` bounds the coordinates of `x`, `c` the costs, and `D` the distances, from above at the beginning and from below at the end. -/
theorem C138_returned (hfl : RelErr u fl) (hu : 0 ≤ u) (hu1 : u < 1) (hG : ∀ e ∈ G, e.1 ≠ e.2) (hfind : FinderUpTo u n G find) {dot : (Fin 2 → ℝ) → (Fin 2 → ℝ) → ℝ} {E₀ : Ell 2} {o : Options ℝ}
    {t0 t : WithTop ℝ} {d0 : V → ℝ} {w' : (V → ℝ) × Ell 2} {xb : Option (Fin 2 → ℝ)} {info : CInfo}
    (hrun : cuttingPlaneDc (fun x t => liftOracle (scalingOmegaF fl sum find G cost x t)) ((Ell.spaceF fl dot).beside (V → ℝ)) t0 o (d0, E₀) = .ok (w', xb, t, info)) :
    (xb = none ∧ t = t0) ∨ ∃ x, xb = some x ∧ t = ((fl (x 0 - x 1) : ℝ) : WithTop ℝ) ∧ t < t0 ∧
      ∀ R c D, (∀ i, |x i| ≤ R) → 0 ≤ c → (∀ e ∈ G, |cost e| ≤ c) → (∀ v, d0 v ≤ D) → (∀ v, -D ≤ w'.1 v) → 0 ≤ D → ScalingFound G cost (u * (D + 3 * (R + c))) x (fl (x 0 - x 1)) := by
  let I : DcSt ((V → ℝ) × Ell 2) (Fin 2 → ℝ) (WithTop ℝ) → Prop := fun s => s.t ≤ t0 ∧ (∀ v, s.w.1 v ≤ d0 v) ∧
    ((s.xBest = none ∧ s.t = t0) ∨ ∃ (x : Fin 2 → ℝ) (d : V → ℝ), s.xBest = some x ∧ s.t = ((fl (x 0 - x 1) : ℝ) : WithTop ℝ) ∧ s.t < t0 ∧ (∀ v, s.w.1 v ≤ d v) ∧ (∀ v, d v ≤ d0 v) ∧
      ∀ e ∈ G, d e.2 ≤ d e.1 + scaleEvalF fl cost e x + u * |d e.1 + scaleEvalF fl cost e x|)
  have hstep : ∀ s w1 c t1 w2 st tsq st', I s → liftOracle (scalingOmegaF fl sum find G cost s.w.2.xc s.t) s.w = .ok (w1, c, t1) →
      ((Ell.spaceF fl dot).beside (V → ℝ)).update c w1 = .ok (w2, st, tsq) → I { dcAfter ((Ell.spaceF fl dot).beside (V → ℝ)) s w1 t1 with w := w2, status := st' } := by
    rintro s w1 c t1 w2 st tsq st' ⟨i1, i2, i3⟩ hq hup
    obtain ⟨h1, -, h3⟩ := round_split_dc hq hup
    have hx1 : w1.2 = s.w.2 := (liftOracle_eq hq).2
    rcases optscaling_cases (sum := sum) (find := find) (cost := cost) hfl hu1 hG s.w.2.xc s.t s.w.1 with ⟨cut, h4⟩ | ⟨e, h4, -⟩ | ⟨d', cut, l, h4, h5⟩ | ⟨d', cut, h4, h5, h6⟩ <;>
      simp only [scalingOmegaF, h4, Except.map, Except.ok.injEq, Prod.mk.injEq, reduceCtorEq] at h1
    · obtain ⟨h6, -, rfl⟩ := h1
      refine ⟨i1, fun v => ?_, i3.imp id ?_⟩
      · change w2.1 v ≤ _; rw [h3, ← h6]; exact i2 v
      · rintro ⟨x, d, a1, a2, a3, a4, a5, a6⟩
        exact ⟨x, d, a1, a2, a3, fun v => by change w2.1 v ≤ _; rw [h3, ← h6]; exact a4 v, a5, a6⟩
    · obtain ⟨h6, -, rfl⟩ := h1
      have hle := (hfind _ _ _ _ h5).1
      refine ⟨i1, fun v => ?_, i3.imp id ?_⟩
      · change w2.1 v ≤ _; rw [h3, ← h6]; exact (hle v).trans (i2 v)
      · rintro ⟨x, d, a1, a2, a3, a4, a5, a6⟩
        exact ⟨x, d, a1, a2, a3, fun v => by change w2.1 v ≤ _; rw [h3, ← h6]; exact (hle v).trans (a4 v), a5, a6⟩
    · obtain ⟨h7, -, rfl⟩ := h1
      obtain ⟨hle, hpot, -⟩ := hfind _ _ _ _ h6
      refine ⟨h5.le.trans i1, fun v => ?_, .inr ⟨s.w.2.xc, d', ?_, rfl, lt_of_lt_of_le h5 i1, fun v => ?_, fun v => (hle v).trans (i2 v), hpot rfl⟩⟩
      · change w2.1 v ≤ _; rw [h3, ← h7]; exact (hle v).trans (i2 v)
      · simp [dcAfter, Space.beside, Ell.spaceF, hx1]
      · change w2.1 v ≤ _; rw [h3, ← h7]
  obtain ⟨s, i, hf, rfl, rfl, rfl, rfl⟩ := dc_ok hrun
  have hI : ∀ {j s}, Rounds (dcBody (fun x t => liftOracle (scalingOmegaF fl sum find G cost x t)) ((Ell.spaceF fl dot).beside (V → ℝ)) o.tol) 0 ⟨(d0, E₀), none, t0, .success⟩ j s → I s := by
    intro j s hr
    refine Rounds.inv (fun _ s => I s) ⟨le_rfl, fun v => le_rfl, .inl ⟨rfl, rfl⟩⟩ ?_ hr
    intro j s s' hI hb
    obtain ⟨w1, c, t1, w2, tsq, hq, hup, -, rfl⟩ := dcBody_cont hb
    have := hstep s w1 c t1 w2 _ tsq (dcAfter ((Ell.spaceF fl dot).beside (V → ℝ)) s w1 t1).status hI hq hup
    exact this
  have hfin : I s := by
    rcases forRange_ok hf with ⟨s1, hi, hr, hbr⟩ | ⟨hi, hr⟩
    · obtain ⟨w1, c, t1, w2, st, tsq, hq, hup, hcase⟩ := dcBody_brk hbr
      rcases hcase with ⟨-, rfl⟩ | ⟨-, -, rfl⟩
      · exact hstep s1 w1 c t1 w2 st tsq st (hI hr) hq hup
      · exact hstep s1 w1 c t1 w2 st tsq .smallenough (hI hr) hq hup
    · exact hI hr
  obtain ⟨-, -, h | ⟨x, d, a1, a2, a3, a4, a5, a6⟩⟩ := hfin
  · exact .inl h
  refine .inr ⟨x, a1, a2, a3, fun R c D hx hc0 hc hd0 hw hD => ?_⟩
  have hR : 0 ≤ R := (abs_nonneg _).trans (hx 0)
  have hdiff : |x 0 - x 1| ≤ 2 * R := (abs_sub _ _).trans (by linarith [hx 0, hx 1])
  refine ⟨(hfl _).trans (mul_le_mul_of_nonneg_left (by linarith) hu), ?_⟩
  refine (scaling_potential hG cost ![x 0 + u * (D + 3 * (R + c)), x 1 - u * (D + 3 * (R + c))]).1 ⟨d, fun e he => ?_⟩
  have hd : ∀ v, |d v| ≤ D := fun v => abs_le.2 ⟨(hw v).trans (a4 v), (a5 v).trans (hd0 v)⟩
  have k1 := a6 e he
  have k2 := (abs_le.1 (scaleEvalF_err hfl hu hx (hc e he))).2
  have k3 := scaleEvalF_bound hfl hu hu1.le hx (hc e he)
  have k4 := mul_le_mul_of_nonneg_left ((abs_add_le (d e.1) (scaleEvalF fl cost e x)).trans (add_le_add (hd e.1) k3)) hu
  have k5 : scaleEval cost e ![x 0 + u * (D + 3 * (R + c)), x 1 - u * (D + 3 * (R + c))] = scaleEval cost e x + u * (D + 3 * (R + c)) := by
    unfold scaleEval; split_ifs <;> simp <;> ring
  dsimp only
  rw [k5]
  linarith

/-- **C138** (the finder of the repository, `p` bits).  The same for `neg_cycle.tpy`, with sums and dot products added from the left and all operations rounded to nearest on `p` bits, for all sufficiently large `p`.  The only
exception the finder can raise is `AssertionError` (C119). -/
theorem C138_bits [Fintype V] {G : Graph V} (hnodes : ∀ v, v ∈ G.nodes) (hG : ∀ e ∈ G.edges, e.1 ≠ e.2) (cost : V × V → ℝ) {E₀ : Ell 2} (hE : E₀.Proper) {π ψ ρ ν B : ℝ}
    (hf : ScalingFeasible G.edges cost π ψ) (hρ : 0 < ρ) (hin : euclBall ![π, ψ] ρ ⊆ E₀.pts) (hν : 0 < ν) (hB : 0 ≤ B) :
    ∃ (N p₀ : ℕ) (tol₀ : ℝ), 0 < tol₀ ∧ ∀ p fl, p₀ ≤ p → Nearest p fl → ∀ tol, tol ≤ tol₀ → ∀ (t0 : WithTop ℝ) (d0 : V → ℝ), (∀ v, |d0 v| ≤ B) →
      let Ω := scalingOmegaF fl (leftSum fl) (repoFinderF (fun a b => fl (a + b)) G) G.edges cost
      let S := (Ell.spaceF fl (vecDot fl)).beside (V → ℝ)
      (∀ m' : Int, (N : Int) ≤ m' → ∀ w' xb t info, cuttingPlaneDc (fun x t => liftOracle (Ω x t)) S t0 ⟨m', tol⟩ (d0, E₀) = .ok (w', xb, t, info) → t ≤ ((π - ψ + ν : ℝ) : WithTop ℝ)) ∧
      (((π - ψ + ν : ℝ) : WithTop ℝ) < t0 → ∃ (k : ℕ) (log : _) (P : (V → ℝ) × Ell 2), k < N ∧ DcRounds (fun x t => liftOracle (Ω x t)) S tol t0 (d0, E₀) k log P ∧
        ((∃ d' cut, ∃ s : ℝ, Ω P.2.xc (bestT t0 log) P.1 = .ok (d', cut, some (s : WithTop ℝ)) ∧ s ≤ π - ψ + ν ∧ ScalingFound G.edges cost ν P.2.xc s) ∨
          Ω P.2.xc (bestT t0 log) P.1 = .error .assertion)) := by
  obtain ⟨N, ζ₀, tol₀, h1, h2, h3⟩ := C138_optscaling hG cost hE hf hρ hin hν hB (Fintype.card V) (max G.nodes.length 1 * G.edges.length)
  obtain ⟨z, hz0, hz⟩ := small_of_cont (g := fun u => (1 + u) ^ (2 + 1) - 1) (c := ζ₀) (by fun_prop) (by simpa using h1)
  obtain ⟨p₀, hp₀⟩ := exists_pow_lt_of_lt_one (show 0 < min z (min ζ₀ 1) by positivity) (show (1 / 2 : ℝ) < 1 by norm_num)
  refine ⟨N, p₀, tol₀, h2, fun p fl hp hfl tol htol t0 d0 hd0 => ?_⟩
  have hup : (1 / 2 : ℝ) ^ p ≤ min z (min ζ₀ 1) := (pow_le_pow_of_le_one (by norm_num) (by norm_num) hp).trans hp₀.le
  have e : (1 / 2 ^ p : ℝ) = (1 / 2) ^ p := by rw [_root_.one_div_pow]
  have hu0 : (0 : ℝ) ≤ 1 / 2 ^ p := by positivity
  have hr := hfl.relErr
  have k1 : (1 / 2 ^ p : ℝ) ≤ z := by rw [e]; exact hup.trans (min_le_left _ _)
  have k2 : (1 / 2 ^ p : ℝ) ≤ ζ₀ := by rw [e]; exact hup.trans ((min_le_right _ _).trans (min_le_left _ _))
  have k3 : (1 / 2 ^ p : ℝ) ≤ 1 := by rw [e]; exact hup.trans ((min_le_right _ _).trans (min_le_right _ _))
  obtain ⟨r1, r2⟩ := h3 (1 / 2 ^ p) ((1 + 1 / 2 ^ p) ^ (2 + 1) - 1) hu0 k2 (hz _ hu0 k1) fl (vecDot fl) (leftSum fl) (repoFinderF (fun a b => fl (a + b)) G) hr (vecDot_err hr hu0)
    (leftSum_err hr hu0 _) (C129_finder hnodes hfl) (C129_drop G hu0 k3 hr) tol htol t0 d0 hd0
  refine ⟨r1, fun hb => ?_⟩
  obtain ⟨k, log, P, q1, q2, q3 | ⟨e, q3, q4⟩⟩ := r2 hb
  · exact ⟨k, log, P, q1, q2, .inl q3⟩
  · rw [C129_finder_raises hnodes hfl q3] at q4
    exact ⟨k, log, P, q1, q2, .inr q4⟩

/-! ### Non-vacuity -/

/-- The problem of C94: two nodes, costs `3` and `1` in the two directions, `ell(100, 0)`, `t0 = inf`.  The best ratio is `2`. -/
example : ∃ (N p₀ : ℕ) (tol₀ : ℝ), 0 < tol₀ ∧ ∀ p fl, p₀ ≤ p → Nearest p fl →
    let Ω := scalingOmegaF fl (leftSum fl) (repoFinderF (fun a b => fl (a + b)) exG2) exG2.edges (fun e => if e = (0, 1) then (3 : ℝ) else 1)
    ∃ (k : ℕ) (log : _) (P : (Fin 2 → ℝ) × Ell 2), k < N ∧
      DcRounds (fun x t => liftOracle (Ω x t)) ((Ell.spaceF fl (vecDot fl)).beside (Fin 2 → ℝ)) tol₀ ⊤ (fun _ => 0, ⟨true, false, 0, 1, 10 ^ 2⟩) k log P ∧
      ((∃ d' cut, ∃ s : ℝ, Ω P.2.xc (bestT ⊤ log) P.1 = .ok (d', cut, some (s : WithTop ℝ)) ∧ s ≤ 2.01 ∧
          ScalingFound exG2.edges (fun e => if e = (0, 1) then (3 : ℝ) else 1) 0.01 P.2.xc s) ∨
        Ω P.2.xc (bestT ⊤ log) P.1 = .error .assertion) := by
  obtain ⟨N, p₀, tol₀, h1, h⟩ := C138_bits (G := exG2) (E₀ := ⟨true, false, 0, 1, 10 ^ 2⟩) (π := 3) (ψ := 1) (ρ := 1) (ν := 0.01) (B := 0) exG2_nodes (by decide)
    (fun e => if e = (0, 1) then (3 : ℝ) else 1) ⟨le_rfl, PosDef.one, by norm_num⟩ ⟨fun _ => 0, by simp [exG2]⟩ one_pos (by
      rw [euclBall_eq_pts le_rfl]
      intro z hz
      have w0 := ball_coord zero_le_one hz 0
      have w1 := ball_coord zero_le_one hz 1
      simp only [cons_val_zero, cons_val_one] at w0 w1
      norm_num at w0 w1
      rw [abs_le] at w0 w1
      simp only [euclBall, Set.mem_ofPred_eq, Fin.sum_univ_two, Pi.zero_apply]
      nlinarith) (by norm_num) le_rfl
  refine ⟨N, p₀, tol₀, h1, fun p fl hp hfl => ?_⟩
  obtain ⟨k, log, P, q1, q2, q3⟩ := (h p fl hp hfl tol₀ le_rfl ⊤ (fun _ => 0) (by simp)).2 (WithTop.coe_lt_top _)
  refine ⟨k, log, P, q1, q2, q3.imp (fun ⟨d', cut, s, a1, a2, a3⟩ => ⟨d', cut, s, a1, by norm_num at a2 ⊢; linarith, a3⟩) id⟩

end Verif
