import Verif.Model.MonoFloat
import Verif.Props.CorrBsplineTest
import Verif.Props.LsqDataFloat

/-!
# C147: monotone least-squares fits with every operation rounded

`mono_decreasing_oracle2(lsq_oracle(F, F0))`, as in `corr_bspline`, on stored matrices.
-/
namespace Verif
open FloatSpec Finset MeasureTheory Matrix Ell
variable {k m : ℕ} {u R e : ℝ} {fl : ℝ → ℝ} {dot : ℕ → ℕ → (ℕ → ℝ) → (ℕ → ℝ) → ℝ} {F F' : Fin k → ℕ → ℕ → ℝ} {F0 F0' : ℕ → ℕ → ℝ} {W : Type _}

/-! ### The wrapper -/

theorem relErr_pos (hfl : RelErr u fl) (hu1 : u < 1) (x : ℝ) : 0 < fl x ↔ 0 < x := by
  have h := abs_le.1 (hfl x)
  rcases lt_trichotomy 0 x with hx | hx | hx
  · rw [abs_of_pos hx] at h
    have := mul_lt_mul_of_pos_right hu1 hx
    exact ⟨fun _ => hx, fun _ => by linarith⟩
  · subst hx
    simp only [abs_zero, mul_zero, sub_zero, neg_zero] at h
    rw [le_antisymm h.2 h.1]
  · rw [abs_of_neg hx] at h
    have := mul_lt_mul_of_pos_right hu1 (neg_pos.2 hx)
    exact ⟨fun h' => by linarith, fun h' => absurd h' (not_lt.2 hx.le)⟩

theorem monoScanF_eq (hfl : RelErr u fl) (hu1 : u < 1) (x : List ℝ) : ∀ is : List ℕ, monoScanF fl x is = (monoScan x is).map fun r => (r.1, fl r.2)
  | [] => rfl
  | i :: is => by
    simp only [monoScanF, monoScan]
    by_cases h : 0 < x.getD (i + 1) 0 - x.getD i 0
    · rw [if_pos h, if_pos ((relErr_pos hfl hu1 _).2 h)]; rfl
    · rw [if_neg h, if_neg (mt (relErr_pos hfl hu1 _).1 h), monoScanF_eq hfl hu1 x is]

/-- **C147** (the wrapper).  Rounding never changes the verdict: the wrapped oracle is asked exactly at points whose entries, but for the last, do not increase.  Otherwise the cut has a positive depth and keeps all points with drops
of at least `δ`, with room `δ - 2uR`. -/
theorem C147_wrapper (hfl : RelErr u fl) (hu0 : 0 ≤ u) (hu1 : u < 1) (basis : (Fin k → ℝ) → WithTop ℝ → W → Except PyErr (W × ((Fin k → ℝ) × Beta) × Option (WithTop ℝ))) (x : Fin k → ℝ) (t : WithTop ℝ) (w : W) :
    (DropBy 0 x ∧ monoDecreasing2F fl basis x t w = basis x t w) ∨
    (¬ DropBy 0 x ∧ ∃ g β, monoDecreasing2F fl basis x t w = .ok (w, (g, .scalar β), none) ∧ 0 < β ∧
      ∀ R, (∀ q, |x q| ≤ R) → ∀ z δ, 0 ≤ δ → DropBy δ z → g ⬝ᵥ (z - x) + β ≤ -(δ - u * (2 * R))) := by
  have heq : monoOracleF fl (List.ofFn x).dropLast = (monoOracle (List.ofFn x).dropLast).map fun r => (r.1, fl r.2) := monoScanF_eq hfl hu1 _ _
  have hans := mono_answer (⟨w, fun _ _ _ => .error .oracle⟩ : DcObj k W) x t w
  have hlen : (List.ofFn x).dropLast.length = k - 1 := by simp
  have hmem : ∀ i ∈ List.range ((List.ofFn x).dropLast.length - 1), i + 1 < (List.ofFn x).dropLast.length := by
    intro i hi; rw [List.mem_range] at hi; omega
  have hspec := monoScan_spec (List.ofFn x).dropLast _ hmem
  change (monoOracle (List.ofFn x).dropLast = none ∧ _) ∨ (∃ i ∈ _, _ ∧ monoOracle (List.ofFn x).dropLast = _) at hspec
  rcases hspec with ⟨h, -⟩ | ⟨i, hi, h1, h⟩
  · left
    refine ⟨?_, by simp only [monoDecreasing2F, heq, h, Option.map_none]⟩
    rcases hans with ⟨h1, -⟩ | ⟨g, β, h1, -⟩
    · exact h1
    · simp only [monoDcObj, h] at h1
      exact absurd h1 (by simp)
  · right
    have hi' := hmem i hi
    rw [hlen] at hi'
    rcases hans with ⟨-, h2⟩ | ⟨g, β, h2, h3, h4⟩
    · simp only [monoDcObj, h] at h2
      exact absurd h2 (by simp)
    · simp only [monoDcObj, h, Except.ok.injEq, Prod.mk.injEq, true_and, and_true, Beta.scalar.injEq] at h2
      obtain ⟨h5, h6⟩ := h2
      rw [getD_dropLast_ofFn x (by omega), getD_dropLast_ofFn x (by omega)] at h1 h6
      have hβ : 0 < β := by rw [← h6]; linarith
      refine ⟨fun hd => ?_, g, fl β, ?_, (relErr_pos hfl hu1 _).2 hβ, fun R hx z δ hδ hz => ?_⟩
      · have := hd i (by omega); linarith
      · simp only [monoDecreasing2F, heq, h, Option.map_some, getD_dropLast_ofFn x (show i + 1 + 1 < k by omega), getD_dropLast_ofFn x (show i + 1 < k by omega), h6]
        rw [← h5]
      · have e1 := (abs_le.1 (hfl β)).2
        rw [abs_of_pos hβ] at e1
        have e2 : β ≤ 2 * R := by
          have a1 := abs_le.1 (hx ⟨i, by omega⟩)
          have a2 := abs_le.1 (hx ⟨i + 1, by omega⟩)
          rw [← h6]; linarith
        have e3 := mul_le_mul_of_nonneg_left e2 hu0
        have := h4 z δ hδ hz
        linarith

/-- The wrapper keeps a set of points with room that also have room in the drops. -/
theorem mono_keeps (hfl : RelErr u fl) (hu0 : 0 ≤ u) (hu1 : u < 1) {K : Set (Fin k → ℝ)} {N : ℕ} {Inv : W → Prop} {Bad : WithTop ℝ → Prop} {Raises : PyErr → Prop} {tol ε r : ℝ}
    {Ω : (Fin k → ℝ) → WithTop ℝ → W → Except PyErr (W × ((Fin k → ℝ) × Beta) × Option (WithTop ℝ))}
    (hΩ : DcKeepsNear N K {x | ∀ q, |x q| ≤ R} (fun _ => Inv) Bad Raises tol ε Ω) (hne : K.Nonempty) (hr : 0 < r) (hdrop : ∀ z ∈ K, DropBy r z) (hsm : u * (2 * R) ≤ r / 2) (hε : 0 ≤ ε)
    (htol : tol ≤ 199 / 200 * (r / 2) ^ 2) : DcKeepsNear N K {x | ∀ q, |x q| ≤ R} (fun _ => Inv) Bad Raises tol ε (monoDecreasing2F fl Ω) := by
  constructor
  · intro x t w w' c t1 h hbad
    rcases C147_wrapper hfl hu0 hu1 Ω x t w with ⟨-, h1⟩ | ⟨-, g, β, h1, -⟩
    · exact hΩ.back x t w w' c t1 (h1 ▸ h) hbad
    · rw [h1] at h
      simp only [Except.ok.injEq, Prod.mk.injEq] at h
      rw [← h.2.2] at hbad
      exact hbad
  · intro j hj x hx t w hw hbad
    rcases C147_wrapper hfl hu0 hu1 Ω x t w with ⟨-, h1⟩ | ⟨-, g, β, h1, h2, h3⟩
    · rw [h1]; exact hΩ.cuts j hj x hx t w hw hbad
    · have key : ∀ z ∈ K, g ⬝ᵥ (z - x) + β ≤ -(r / 2) := fun z hz => by
        have := h3 R hx z r hr.le (hdrop z hz)
        linarith
      refine .inr ⟨w, g, β, none, h1, fun _ => ⟨hw, fun hg => ?_, fun z hz => ?_⟩⟩
      · obtain ⟨z, hz⟩ := hne
        have := key z hz
        dsimp only at hg
        rw [hg, zero_dotProduct] at this
        linarith
      · have hk := key z hz
        dsimp only
        rw [max_eq_left h2.le]
        refine ⟨by linarith, htol.trans ?_, ?_⟩
        · have : (r / 2) ^ 2 ≤ (g ⬝ᵥ (z - x)) ^ 2 := by
            rw [← neg_sq (g ⬝ᵥ (z - x))]
            exact pow_le_pow_left₀ (by linarith) (by linarith) 2
          linarith
        · have h8 := mul_nonneg hε (abs_nonneg (g ⬝ᵥ (z - x)))
          have h9 := mul_nonneg (Nat.cast_nonneg (α := ℝ) k) h2.le
          linarith

/-! ### Runs -/

/-- Precision and distance of the data from which on the errors are below `c`. -/
theorem lsq_small (F : Fin k → ℕ → ℕ → ℝ) (F0 : ℕ → ℕ → ℝ) (m : ℕ) {c : ℝ} (hR : 0 ≤ R) (hc : 0 < c) :
    ∃ ζ₀ e₀ : ℝ, 0 < ζ₀ ∧ 0 < e₀ ∧ ζ₀ ≤ 1 / 50 ∧ dataUnit F F0 m R e₀ ≤ c ∧ ∀ F' F0', DataNear e₀ F F' F0 F0' m → ∀ u, 0 ≤ u → u ≤ ζ₀ → u * (2 * R) ≤ c ∧
      ∃ η δ ζ : ℝ, (1 + u) ^ (k + 2) ≤ 1 + η ∧ (1 + u) * ((1 + u) * ((1 + η) * (1 + η))) ≤ 1 + δ ∧ (1 + u) * ((1 + u) * ((1 + u) * ((1 + u) * (1 + η)))) ≤ 1 + ζ ∧ δ ≤ 1 / 10 ∧
        lsqUnit F' F0' m R u u δ ζ ≤ c := by
  set g := entrySum F F0 m + m * (m * (1 + k)) with hg
  have hg0 : 0 ≤ g := add_nonneg (entrySum_nonneg F F0 m) (by positivity)
  set M := R + g * (1 + R) + m * (g * (1 + R)) ^ 2 with hM
  set η : ℝ → ℝ := fun u => (1 + u) ^ (k + 2) - 1 with hη
  set δ : ℝ → ℝ := fun u => (1 + u) * ((1 + u) * ((1 + η u) * (1 + η u))) - 1 with hδ
  set ζ : ℝ → ℝ := fun u => (1 + u) * ((1 + u) * ((1 + u) * ((1 + u) * (1 + η u)))) - 1 with hζ
  obtain ⟨s1, hs1, hs1'⟩ := small_of_cont (g := fun u => (26 * (3 * u + 2 * u) + 2 * δ u + 4 * ζ u + 6 * u + 2 * u) * ((m + 1) * M)) (c := c)
    (by simp only [hδ, hζ, hη]; fun_prop) (by simpa [hδ, hζ, hη] using hc)
  obtain ⟨s2, hs2, hs2'⟩ := small_of_cont (g := δ) (c := 1 / 10) (by simp only [hδ, hη]; fun_prop) (by simp [hδ, hη])
  obtain ⟨s3, hs3, hs3'⟩ := small_of_cont (g := fun u => u * (2 * R)) (c := c) (by fun_prop) (by simpa using hc)
  obtain ⟨e1, he1, he1'⟩ := small_of_cont (g := fun e => dataUnit F F0 m R e) (c := c) (by simp only [dataUnit]; fun_prop) (by simpa [dataUnit] using hc)
  refine ⟨min (min s1 s2) (min s3 (1 / 50)), min e1 1, by positivity, by positivity, (min_le_right _ _).trans (min_le_right _ _), he1' _ (by positivity) (min_le_left _ _), fun F' F0' hnear u hu0 hu =>
    ⟨hs3' u hu0 (hu.trans ((min_le_right _ _).trans (min_le_left _ _))), η u, δ u, ζ u, le_of_eq (by rw [hη]; ring), le_of_eq (by rw [hδ]; ring), le_of_eq (by rw [hζ]; ring),
      hs2' u hu0 (hu.trans ((min_le_left _ _).trans (min_le_right _ _))), le_trans ?_ (hs1' u hu0 (hu.trans ((min_le_left _ _).trans (min_le_left _ _))))⟩⟩
  have h1u : 1 ≤ 1 + u := by linarith
  have hη0 : 0 ≤ η u := by have := one_le_pow₀ h1u (n := k + 2); rw [hη]; dsimp only; linarith
  have hδ0 : 0 ≤ δ u := by
    have := one_le_mul_of_one_le_of_one_le h1u (one_le_mul_of_one_le_of_one_le h1u
      (one_le_mul_of_one_le_of_one_le (show 1 ≤ 1 + η u by linarith) (show 1 ≤ 1 + η u by linarith)))
    rw [hδ]; dsimp only; linarith
  have hζ0 : 0 ≤ ζ u := by
    have := one_le_mul_of_one_le_of_one_le h1u (one_le_mul_of_one_le_of_one_le h1u (one_le_mul_of_one_le_of_one_le h1u
      (one_le_mul_of_one_le_of_one_le h1u (show 1 ≤ 1 + η u by linarith))))
    rw [hζ]; dsimp only; linarith
  unfold lsqUnit
  refine mul_le_mul_of_nonneg_left (mul_le_mul_of_nonneg_left ?_ (by positivity)) (by positivity)
  have h1 := mul_le_mul_of_nonneg_right (entrySum_near hnear (min_le_right _ _)) (show 0 ≤ 1 + R by linarith)
  have h2 := mul_nonneg (entrySum_nonneg F' F0' m) (show 0 ≤ 1 + R by linarith)
  have h3 := mul_le_mul_of_nonneg_left (pow_le_pow_left₀ h2 h1 2) (Nat.cast_nonneg (α := ℝ) m)
  unfold lsqSize
  rw [hM]
  linarith

/-- **C147** (runs).  `F`, `F0` are the intended matrices, `F'`, `F0'` the stored ones.  Let `z` be in the interior of the first ellipsoid, with strictly decreasing coefficients, `Σ z_q F_q` positive definite and
`z_last·I - F(z)'F(z) ⪰ 0`, and let `ν > 0`.  There are a number `N` of iterations, a precision, a distance of the data and a tolerance from which on a run with `max_it ≥ N` that returns has a level of at most `z_last + ν`, and such a
level is found within the first `N` oracle calls, at a point whose coefficients do not increase (exactly) and that satisfies both intended inequalities up to `ν`. -/
theorem C147_lsq {E₀ : Ell (k + 1)} (hE : E₀.Proper) {z : Fin (k + 1) → ℝ} {μ₀ ρ ν : ℝ} (hμ : 0 < μ₀) (hz0 : DropBy μ₀ z) (hz1 : AtLeast μ₀ (combo F (Fin.init z)) m)
    (hz2 : AtLeast 0 (tiMinusGram m (z (Fin.last k)) (pencil F F0 (Fin.init z))) m) (hρ : 0 < ρ) (hin : euclBall z ρ ⊆ E₀.pts) (hν : 0 < ν) :
    ∃ (N : ℕ) (ζ₀ e₀ tol₀ : ℝ), 0 < ζ₀ ∧ 0 < e₀ ∧ 0 < tol₀ ∧ ∀ F' F0', (∀ q, SymOn (F' q) m) → DataNear e₀ F F' F0 F0' m →
      ∀ u, 0 ≤ u → u ≤ ζ₀ → ∀ fl dot vdot, RelErr u fl → DotErr u m dot → DotLocal dot → VecDotErr u vdot → ∀ tol, tol ≤ tol₀ →
      ∀ (t0 : WithTop ℝ) (o : LsqOracle ℝ), Ready m o.lmi0 → Ready m o.qmi.Q →
      let Ω := monoDecreasing2F fl (lsqOmegaF fl dot F' F0' m)
      let S := (Ell.spaceF fl vdot).beside (LsqOracle ℝ)
      (∀ im : Int, (N : Int) ≤ im → ∀ w' xb t info, cuttingPlaneDc (fun x t => liftOracle (Ω x t)) S t0 ⟨im, tol⟩ (o, E₀) = .ok (w', xb, t, info) → t ≤ ((z (Fin.last k) + ν : ℝ) : WithTop ℝ)) ∧
      (((z (Fin.last k) + ν : ℝ) : WithTop ℝ) < t0 → ∃ (j : ℕ) (log : _) (p : LsqOracle ℝ × Ell (k + 1)), j < N ∧ DcRounds (fun x t => liftOracle (Ω x t)) S tol t0 (o, E₀) j log p ∧
        ∃ o' cut, Ω p.2.xc (bestT t0 log) p.1 = .ok (o', cut, some ((p.2.xc (Fin.last k) : ℝ) : WithTop ℝ)) ∧ p.2.xc (Fin.last k) ≤ z (Fin.last k) + ν ∧
          DropBy 0 p.2.xc ∧ LsqFound F F0 m ν p.2.xc) := by
  obtain ⟨a, r₁, A₀, hr₁, hA0, haz, hball₁, hKA₁, hKp₁⟩ := lsq_room (F0 := F0) hμ hz1 hz2 hρ hin hν
  set r := min r₁ (μ₀ / 3) with hr
  have hr0 : 0 < r := by positivity
  have hrr : r ≤ r₁ := min_le_left _ _
  have hrμ : 3 * r ≤ μ₀ := by have : r ≤ μ₀ / 3 := min_le_right _ _; linarith
  have hsub : euclBall a r ⊆ euclBall a r₁ := fun y hy => le_trans (show ∑ q, (y q - a q) ^ 2 ≤ r ^ 2 from hy) (pow_le_pow_left₀ hr0.le hrr 2)
  have hball : euclBall a r ⊆ E₀.pts := hsub.trans hball₁
  have hKA : ∀ y ∈ euclBall a r, ∀ q, |y q| ≤ A₀ := fun y hy => hKA₁ y (hsub hy)
  have hdrop : ∀ y ∈ euclBall a r, DropBy r y := fun y hy i hi => by
    have hpt : ∀ q, |y q - a q| ≤ r := fun q => by
      have hy : ∑ q, (y q - a q) ^ 2 ≤ r ^ 2 := hy
      exact abs_le_of_sq_le_sq ((single_le_sum (f := fun q => (y q - a q) ^ 2) (fun q _ => sq_nonneg _) (mem_univ q)).trans hy) hr0.le
    have b1 := abs_le.1 (hpt ⟨i, by omega⟩)
    have b2 := abs_le.1 (hpt ⟨i + 1, by omega⟩)
    have b3 := hz0 i hi
    have b4 : a ⟨i, by omega⟩ = z ⟨i, by omega⟩ := haz ⟨i, by omega⟩
    have b5 : a ⟨i + 1, by omega⟩ = z ⟨i + 1, by omega⟩ := haz ⟨i + 1, by omega⟩
    rw [b4] at b1
    rw [b5] at b2
    linarith
  have hne : a ∈ euclBall a r := by
    change ∑ q, (a q - a q) ^ 2 ≤ r ^ 2
    simp only [sub_self, ne_eq, OfNat.ofNat_ne_zero, not_false_eq_true, zero_pow, sum_const_zero]
    positivity
  have hpos : 0 < volume.real (euclBall a r ∩ E₀.pts) := by
    rw [Set.inter_eq_left.2 hball, vol_ball hE.dim hr0]
    have := euclBall_real_pos (n := k + 1)
    positivity
  obtain ⟨N, L, ε₀, hε₀, C, η', θ', l, q, L₀, v', hS⟩ := C134_precise hE hKA hpos
  set R := A₀ + √L with hR
  have hR0 : 0 ≤ R := by positivity
  obtain ⟨ζ₀, e₀, hζ₀, he₀, hζ1, hpert, hsmall⟩ := lsq_small F F0 m (c := min (r / 4) (ν / 2)) hR0 (by positivity)
  refine ⟨N, min ζ₀ ε₀, e₀, 199 / 200 * (r / 2 / 2) ^ 2, by positivity, he₀, by positivity,
    fun F' F0' hF' hnear u hu0 hu fl dot vdot hfl hdot hloc hvdot tol htol t0 o h0 hQ => ?_⟩
  have k1 : u ≤ ζ₀ := hu.trans (min_le_left _ _)
  have k3 : u ≤ ε₀ := hu.trans (min_le_right _ _)
  obtain ⟨hsm3, η, δ, ζ, e1, e2, e3, hδ1, hunit⟩ := hsmall F' F0' hnear u hu0 k1
  have hvdot' : VecDotErr ε₀ vdot := fun x y => (hvdot x y).trans (mul_le_mul_of_nonneg_right k3 (Finset.sum_nonneg fun i _ => abs_nonneg _))
  have hsure := hS ε₀ u hu0 k3 le_rfl {x | ∀ i, |x i| ≤ R} fun x hx i => hx i
  have hKR : ∀ y ∈ euclBall a r, ∀ i, |y i| ≤ R := fun y hy i => (hKA y hy i).trans (by linarith [Real.sqrt_nonneg L])
  have hKp' : ∀ y ∈ euclBall a r, AtLeast (r / 2) (combo F' (Fin.init y)) m ∧ AtLeast (r / 2) (tiMinusGram m (y (Fin.last k)) (pencil F' F0' (Fin.init y))) m ∧
      y (Fin.last k) + r / 2 ≤ z (Fin.last k) + ν := fun y hy => by
    obtain ⟨b1, b2, b3⟩ := hKp₁ y (hsub hy)
    obtain ⟨n1, n2, -, -⟩ := both_near hnear he₀.le hR0 (hKR y hy) r₁
    have := hpert.trans (min_le_left _ _)
    exact ⟨(n1 b1).mono (by linarith), (n2 b2).mono (by linarith), by linarith⟩
  have hkeep₁ := lsq_keeps (N := N) (tol := tol) (ε := ε₀) (T := z (Fin.last k) + ν) hF' hfl hu0 hu0 hdot hloc (by linarith) e1 e2 e3 hδ1 (half_pos hr0) hε₀.le ⟨a, hne⟩ hKR hKp'
    (by have := hunit.trans (min_le_left _ _); linarith) htol
  have hkeep := mono_keeps hfl hu0 (by linarith) hkeep₁ ⟨a, hne⟩ hr0 hdrop (by have := hsm3.trans (min_le_left _ _); linarith) hε₀.le
    (htol.trans (by have := pow_le_pow_left₀ (show 0 ≤ r / 2 / 2 by positivity) (show r / 2 / 2 ≤ r / 2 by linarith) 2; linarith))
  obtain ⟨r1, r2⟩ := C138_dc (t0 := t0) (w₀ := o) hsure hE hfl hu0 k3 hvdot' hkeep ⟨h0, hQ⟩
  refine ⟨fun im hm w' xb t info h => not_lt.1 (r1 im hm w' xb t info h), fun hbad => ?_⟩
  obtain ⟨j, log, p, q1, q2, q3, q4, q5, q6⟩ := r2 hbad
  refine ⟨j, log, p, q1, q5, ?_⟩
  rcases q6 with ⟨o', cut, t1, q6, q7⟩ | ⟨e, q6, -⟩
  · cases t1 with
    | none => exact absurd q4 q7
    | some s =>
      rcases C147_wrapper hfl hu0 (by linarith) (lsqOmegaF fl dot F' F0' m) p.2.xc (bestT t0 log) p.1 with ⟨hd, hw⟩ | ⟨-, g, β, hw, -⟩
      · obtain ⟨o1, cut1, t1, h1, -, -, h4⟩ := C139_oracle (F0 := F0') (t := bestT t0 log) hF' hfl hu0 hu0 hdot hloc (by linarith) e1 e2 e3 hδ1 q2 q3.1 q3.2
        have hq6 := q6
        rw [hw] at hq6
        simp only [lsqOmegaF, dcAnswer, h1, Except.map, Except.ok.injEq, Prod.mk.injEq] at hq6
        obtain ⟨h5, -, h6⟩ := h4.found s hq6.2.2
        subst h5
        refine ⟨o', cut, q6, ?_, hd, ?_⟩
        · have := not_lt.1 q7
          rwa [Option.getD_some, WithTop.coe_le_coe] at this
        · have hle := hunit.trans (min_le_right _ _)
          have hpe := hpert.trans (min_le_right _ _)
          obtain ⟨-, -, n3, n4⟩ := both_near hnear he₀.le hR0 q2 (-lsqUnit F' F0' m R u u δ ζ)
          exact ⟨(n3 h6.psd).mono (by linarith), (n4 h6.fit).mono (by linarith)⟩
      · rw [hw] at q6
        simp at q6
  · exact q6.elim

/-- **C147** (the returned point).  What a run on stored data returns has coefficients that do not increase; if its entries are at most `B`, it satisfies the intended inequalities up to `ν`. -/
theorem C147_returned (F : Fin k → ℕ → ℕ → ℝ) (F0 : ℕ → ℕ → ℝ) (m : ℕ) {B ν : ℝ} (hB : 0 ≤ B) (hν : 0 < ν) :
    ∃ ζ₀ e₀ : ℝ, 0 < ζ₀ ∧ 0 < e₀ ∧ ∀ F' F0', (∀ q, SymOn (F' q) m) → DataNear e₀ F F' F0 F0' m → ∀ u, 0 ≤ u → u ≤ ζ₀ → ∀ fl dot, RelErr u fl → DotErr u m dot → DotLocal dot →
      ∀ {V : Type} (S : Space V (Fin (k + 1) → ℝ) ((Fin (k + 1) → ℝ) × Beta) ℝ) (op : Options ℝ) (t0 : WithTop ℝ) (o o' : LsqOracle ℝ) (v v' : V) xb t info, Ready m o.lmi0 → Ready m o.qmi.Q →
      cuttingPlaneDc (fun x t => liftOracle (monoDecreasing2F fl (lsqOmegaF fl dot F' F0' m) x t)) (S.beside _) t0 op (o, v) = .ok ((o', v'), xb, t, info) →
      (xb = none ∧ t = t0) ∨ ∃ x, xb = some x ∧ t = ((x (Fin.last k) : ℝ) : WithTop ℝ) ∧ t ≤ t0 ∧ DropBy 0 x ∧ ((∀ q, |x q| ≤ B) → LsqFound F F0 m ν x) := by
  obtain ⟨ζ₀, e₀, hζ₀, he₀, hζ1, hpert, hsmall⟩ := lsq_small F F0 m (c := ν / 2) hB (by positivity)
  refine ⟨ζ₀, e₀, hζ₀, he₀, fun F' F0' hF' hnear u hu0 hu fl dot hfl hdot hloc V S op t0 o o' v v' xb t info h0 hQ h => ?_⟩
  obtain ⟨-, η, δ, ζ, e1, e2, e3, hδ1, hunit⟩ := hsmall F' F0' hnear u hu0 hu
  have hstep : ∀ x t (w : LsqOracle ℝ) w' c t1, (Ready m w.lmi0 ∧ Ready m w.qmi.Q) → monoDecreasing2F fl (lsqOmegaF fl dot F' F0' m) x t w = .ok (w', c, t1) →
      (Ready m w'.lmi0 ∧ Ready m w'.qmi.Q) ∧ ∀ t', t1 = some t' → t' ≤ t ∧ t' = ((x (Fin.last k) : ℝ) : WithTop ℝ) ∧ DropBy 0 x ∧ ((∀ q, |x q| ≤ B) → LsqFound F F0 m ν x) := by
    intro x t w w' c t1 hw ha
    rcases C147_wrapper hfl hu0 (by linarith) (lsqOmegaF fl dot F' F0' m) x t w with ⟨hd, hc⟩ | ⟨-, g, β, hc, -⟩
    · rw [hc] at ha
      have hx : ∀ q, |x q| ≤ ∑ q, |x q| := fun q => single_le_sum (f := fun q => |x q|) (fun q _ => abs_nonneg _) (mem_univ q)
      obtain ⟨o1, cut1, t2, h1, h2, h3, h4⟩ := C139_oracle (F0 := F0') (t := t) hF' hfl hu0 hu0 hdot hloc (by linarith) e1 e2 e3 hδ1 hx hw.1 hw.2
      simp only [lsqOmegaF, dcAnswer, h1, Except.map, Except.ok.injEq, Prod.mk.injEq] at ha
      obtain ⟨rfl, -, rfl⟩ := ha
      refine ⟨⟨h2, h3⟩, fun t' ht' => ⟨(h4.found t' ht').2.1, (h4.found t' ht').1, hd, fun hxB => ?_⟩⟩
      obtain ⟨o1', cut1', t2', h1', -, -, h4'⟩ := C139_oracle (F0 := F0') (t := t) hF' hfl hu0 hu0 hdot hloc (by linarith) e1 e2 e3 hδ1 hxB hw.1 hw.2
      rw [h1] at h1'
      simp only [Except.ok.injEq, Prod.mk.injEq] at h1'
      obtain ⟨-, -, rfl⟩ := h1'
      have h6 := (h4'.found t' ht').2.2
      obtain ⟨-, -, n3, n4⟩ := both_near hnear he₀.le hB hxB (-lsqUnit F' F0' m B u u δ ζ)
      exact ⟨(n3 h6.psd).mono (by linarith), (n4 h6.fit).mono (by linarith)⟩
    · rw [hc] at ha
      simp only [Except.ok.injEq, Prod.mk.injEq] at ha
      obtain ⟨rfl, -, rfl⟩ := ha
      exact ⟨hw, fun t' ht' => by simp at ht'⟩
  obtain ⟨-, h2, h3⟩ := dc_any (Ω := monoDecreasing2F fl (lsqOmegaF fl dot F' F0' m)) (I := fun w => Ready m w.lmi0 ∧ Ready m w.qmi.Q) (P := fun t => t ≤ t0)
    (fun x t w w' a hw _ ha => (hstep x t w w' a.1 a.2 hw ha).1)
    (fun x t w w' c t' hw ht ha => (((hstep x t w w' c _ hw ha).2 t' rfl).1).trans ht) ⟨h0, hQ⟩ le_rfl h
  rcases h3 with h3 | ⟨x, s, w1, w2, c, h4, h5, -, h6⟩
  · exact .inl h3
  · obtain ⟨-, h7, h8, h9⟩ := (hstep x s w1 w2 c _ h5 h6).2 t rfl
    exact .inr ⟨x, h4, h7, h2, h8, h9⟩

/-- **C147** (bits).  The same for rounding to nearest with `p` bits and all sums taken from left to right. -/
theorem C147_bits {E₀ : Ell (k + 1)} (hE : E₀.Proper) {z : Fin (k + 1) → ℝ} {μ₀ ρ ν B : ℝ} (hμ : 0 < μ₀) (hz0 : DropBy μ₀ z) (hz1 : AtLeast μ₀ (combo F (Fin.init z)) m)
    (hz2 : AtLeast 0 (tiMinusGram m (z (Fin.last k)) (pencil F F0 (Fin.init z))) m) (hρ : 0 < ρ) (hin : euclBall z ρ ⊆ E₀.pts) (hν : 0 < ν) (hB : 0 ≤ B) :
    ∃ (N p₀ : ℕ) (e₀ tol₀ : ℝ), 0 < e₀ ∧ 0 < tol₀ ∧ ∀ F' F0', (∀ q, SymOn (F' q) m) → DataNear e₀ F F' F0 F0' m → ∀ p fl, p₀ ≤ p → Nearest p fl → ∀ tol, tol ≤ tol₀ →
      ∀ (t0 : WithTop ℝ) (o : LsqOracle ℝ), Ready m o.lmi0 → Ready m o.qmi.Q → ((z (Fin.last k) + ν : ℝ) : WithTop ℝ) < t0 →
      let Ω := monoDecreasing2F fl (lsqOmegaF fl (seqDot fl) F' F0' m)
      let S := (Ell.spaceF fl (vecDot fl)).beside (LsqOracle ℝ)
      (∀ im : Int, (N : Int) ≤ im → ∀ o' E' xb t info, cuttingPlaneDc (fun x t => liftOracle (Ω x t)) S t0 ⟨im, tol⟩ (o, E₀) = .ok ((o', E'), xb, t, info) →
        ∃ x, xb = some x ∧ t = ((x (Fin.last k) : ℝ) : WithTop ℝ) ∧ x (Fin.last k) ≤ z (Fin.last k) + ν ∧ DropBy 0 x ∧ ((∀ q, |x q| ≤ B) → LsqFound F F0 m ν x)) ∧
      ∃ (j : ℕ) (log : _) (P : LsqOracle ℝ × Ell (k + 1)), j < N ∧ DcRounds (fun x t => liftOracle (Ω x t)) S tol t0 (o, E₀) j log P ∧
        ∃ o' cut, Ω P.2.xc (bestT t0 log) P.1 = .ok (o', cut, some ((P.2.xc (Fin.last k) : ℝ) : WithTop ℝ)) ∧ P.2.xc (Fin.last k) ≤ z (Fin.last k) + ν ∧
          DropBy 0 P.2.xc ∧ LsqFound F F0 m ν P.2.xc := by
  obtain ⟨N, ζ₀, e₀, tol₀, h1, g1, h2, h3⟩ := C147_lsq (F0 := F0) hE hμ hz0 hz1 hz2 hρ hin hν
  obtain ⟨ζ₁, e₁, h4, g4, h5⟩ := C147_returned F F0 m hB hν
  obtain ⟨s1, hs1, hs1'⟩ := small_of_cont (g := fun u => (1 + u) ^ (m + k + 3) - 1) (c := min ζ₀ ζ₁) (by fun_prop) (by simpa using ⟨h1, h4⟩)
  obtain ⟨p₀, hp₀⟩ := exists_pow_lt_of_lt_one hs1 (show (1 / 2 : ℝ) < 1 by norm_num)
  refine ⟨N, p₀, min e₀ e₁, tol₀, lt_min g1 g4, h2, fun F' F0' hF' hnear p fl hp hfl tol htol t0 o h0 hQ hbad => ?_⟩
  have hnear₀ : DataNear e₀ F F' F0 F0' m := fun i hi j hj => ⟨(hnear i hi j hj).1.trans (min_le_left _ _), fun q => ((hnear i hi j hj).2 q).trans (min_le_left _ _)⟩
  have hnear₁ : DataNear e₁ F F' F0 F0' m := fun i hi j hj => ⟨(hnear i hi j hj).1.trans (min_le_right _ _), fun q => ((hnear i hi j hj).2 q).trans (min_le_right _ _)⟩
  have hup : (1 / 2 ^ p : ℝ) ≤ s1 := by
    rw [show (1 / 2 ^ p : ℝ) = (1 / 2) ^ p by rw [_root_.one_div_pow]]
    exact (pow_le_pow_of_le_one (by norm_num) (by norm_num) hp).trans hp₀.le
  have hr := hfl.relErr
  have hu0 : (0 : ℝ) ≤ 1 / 2 ^ p := by positivity
  have hsm := hs1' _ hu0 hup
  generalize hu : (1 / 2 ^ p : ℝ) = u at *
  set w := (1 + u) ^ (m + k + 3) - 1 with hw
  have hmono : ∀ i, i ≤ m + k + 3 → (1 + u) ^ i - 1 ≤ w := fun i hi => sub_le_sub_right (pow_le_pow_right₀ (by linarith) hi) 1
  have hw0 : 0 ≤ w := by have := hmono 0 (by omega); simpa using this
  have huw : u ≤ w := by have := hmono 1 (by omega); simpa using this
  have r1 : RelErr w fl := fun x => (hr x).trans (mul_le_mul_of_nonneg_right huw (abs_nonneg _))
  have r2 : DotErr w m (seqDot fl) := fun s e x y he => (seqDot_err hr hu0 m s e x y he).trans (mul_le_mul_of_nonneg_right (hmono _ (by omega)) (Finset.sum_nonneg fun _ _ => abs_nonneg _))
  have r3 : VecDotErr w (vecDot (n := k + 1) fl) := fun x y => (vecDot_err hr hu0 x y).trans (mul_le_mul_of_nonneg_right (hmono _ (by omega)) (Finset.sum_nonneg fun _ _ => abs_nonneg _))
  obtain ⟨q1, q2⟩ := h3 F' F0' hF' hnear₀ w hw0 (hsm.trans (min_le_left _ _)) fl (seqDot fl) (vecDot fl) r1 r2 (seqDot_local fl) r3 tol htol t0 o h0 hQ
  refine ⟨fun im hm o' E' xb t info h => ?_, q2 hbad⟩
  have hle := q1 im hm (o', E') xb t info h
  rcases h5 F' F0' hF' hnear₁ w hw0 (hsm.trans (min_le_right _ _)) fl (seqDot fl) r1 r2 (seqDot_local fl) _ _ t0 o o' E₀ E' xb t info h0 hQ h with ⟨-, h⟩ | ⟨x, a1, a2, a3, a4, a5⟩
  · rw [h] at hle; exact absurd hbad (not_lt.2 hle)
  · rw [a2, WithTop.coe_le_coe] at hle
    exact ⟨x, a1, a2, hle, a4, a5⟩

/-- **C147** (what is gained).  The spline with the coefficients of such a point is non-increasing on the base interval of its knots, in exact arithmetic. -/
theorem C147_spline {δ : ℝ} (hδ : 0 < δ) (hk : 3 ≤ k) {x : Fin (k + 1) → ℝ} (hx : DropBy 0 x) : AntitoneOn (bsplEval 2 (unif δ) (Fin.init x : Fin k → ℝ)) (Set.Icc (2 * δ) (k * δ)) := by
  have h := (C111_monotone hδ hk (c := fun i => if h : i < k then x ⟨i, by omega⟩ else 0) fun i hi => by
    rw [dif_pos hi, dif_pos (by omega)]
    have := hx i (by omega)
    linarith).1
  have e : (fun j : Fin k => (fun i : ℕ => if h : i < k then x ⟨i, by omega⟩ else 0) j) = (Fin.init x : Fin k → ℝ) := funext fun j => by
    dsimp only
    rw [dif_pos j.2]
    rfl
  rwa [e] at h

/-! ### Non-vacuity -/

/-- `F_1 = F_2 = [[1]]`, `F0 = [[2]]`, stored as they are: minimise `s` with `y_1 ≥ y_2`, `y_1 + y_2 ≥ 0` and `s ≥ (2 - y_1 - y_2)²`; `ell(100, 0)`, `t0 = inf`.  A point with `s ≤ 0.01` and `y_1 ≥ y_2` is found. -/
example : ∃ (N p₀ : ℕ) (tol₀ : ℝ), 0 < tol₀ ∧ ∀ p fl, p₀ ≤ p → Nearest p fl →
    ∃ (j : ℕ) (log : _) (P : LsqOracle ℝ × Ell 3), j < N ∧
      DcRounds (fun x t => liftOracle (monoDecreasing2F fl (lsqOmegaF fl (seqDot fl) (fun _ : Fin 2 => fun _ _ => 1) (fun _ _ => 2) 1) x t)) ((Ell.spaceF fl (vecDot fl)).beside (LsqOracle ℝ)) tol₀ ⊤
        (⟨⟨⟨0, 0, fun _ _ => 0⟩, CholExt.init 1⟩, CholExt.init 1⟩, ⟨true, false, 0, 1, 10 ^ 2⟩) j log P ∧ P.2.xc 2 ≤ 0.01 ∧ P.2.xc 1 ≤ P.2.xc 0 := by
  obtain ⟨N, p₀, e₀, tol₀, h0, h1, h⟩ := C147_bits (k := 2) (F := fun _ : Fin 2 => fun _ _ => 1) (F0 := fun _ _ => 2) (m := 1) (E₀ := ⟨true, false, 0, 1, 10 ^ 2⟩) (z := ![1.5, 0.5, 0]) (μ₀ := 1) (ρ := 1)
    (ν := 0.01) (B := 10) ⟨by norm_num, PosDef.one, by norm_num⟩ one_pos (fun i hi => by
      obtain rfl : i = 0 := by omega
      change (0.5 : ℝ) + 1 ≤ 1.5
      norm_num) (fun y => by
      simp [quadOn, combo, Fin.init]
      norm_num
      linarith [mul_self_nonneg (y 0), sq (y 0)])
    (fun y => by
      simp [quadOn, tiMinusGram, pencil, Fin.init]
      norm_num) one_pos (by
      rw [euclBall_eq_pts (by norm_num)]
      intro z hz
      have w0 := ball_coord zero_le_one hz 0
      have w1 := ball_coord zero_le_one hz 1
      have w2 := ball_coord zero_le_one hz 2
      simp at w0 w1 w2
      norm_num at w0 w1 w2
      rw [abs_le] at w0 w1 w2
      have w3 : z 0 ^ 2 ≤ 9 := by nlinarith
      have w4 : z 1 ^ 2 ≤ 9 := by nlinarith
      have w5 : z 2 ^ 2 ≤ 9 := by nlinarith
      refine (le_of_eq (Fin.sum_univ_three (fun x : Fin 3 => (z x - 0) ^ 2))).trans ?_
      simp only [sub_zero]
      linarith) (by norm_num) (by norm_num)
  refine ⟨N, p₀, tol₀, h1, fun p fl hp hfl => ?_⟩
  obtain ⟨j, log, P, q1, q2, o', cut, q3, q4, q5, -⟩ := (h (fun _ : Fin 2 => fun _ _ => 1) (fun _ _ => 2) (fun q i j _ _ => rfl) (fun i _ j _ => by simpa using h0.le) p fl hp hfl tol₀ le_rfl ⊤
    ⟨⟨⟨0, 0, fun _ _ => 0⟩, CholExt.init 1⟩, CholExt.init 1⟩ (ready_init 1) (ready_init 1) (WithTop.coe_lt_top _)).2
  refine ⟨j, log, P, q1, q2, ?_, ?_⟩
  · have : P.2.xc (Fin.last 2) ≤ ![1.5, 0.5, 0] (Fin.last 2) + (0.01 : ℝ) := q4
    change P.2.xc (Fin.last 2) ≤ _
    refine this.trans ?_
    simp
  · have := q5 0 (by norm_num)
    rw [add_zero] at this
    exact this

/-- The coefficients `(3, 2, 1)` with unit knots; the entry after them is the level and need not be ordered. -/
example : AntitoneOn (bsplEval 2 (unif 1) (Fin.init ![3, 2, 1, 7] : Fin 3 → ℝ)) (Set.Icc (2 * 1) ((3 : ℕ) * 1)) :=
  C147_spline one_pos le_rfl fun i hi => by
    obtain rfl | rfl : i = 0 ∨ i = 1 := by omega
    · change (2 : ℝ) + 0 ≤ 3
      norm_num
    · change (1 : ℝ) + 0 ≤ 2
      norm_num

end Verif
