import Verif.Props.EllFloatRun
import Verif.Props.FloatRuns

/-!
# C132: solving a linear matrix inequality in floating point

`cutting_plane_feas` with `lmi_oracle` and `ell`, every operation of the oracle and of the ellipsoid rounded.  A cut of the rounded oracle keeps every
point at which the matrix inequality holds with a margin above the rounding errors, so C130 applies to a ball of such points.
-/
namespace Verif
open FloatSpec Finset MeasureTheory Matrix Ell
variable {k m : ℕ} {u γ η M μ : ℝ} {fl : ℝ → ℝ} {dot : ℕ → ℕ → (ℕ → ℝ) → (ℕ → ℝ) → ℝ}

theorem AtLeast.sub {A : ℕ → ℕ → ℝ} {e : ℕ} (h : AtLeast μ A m) (he : e ≤ m) : AtLeast μ A e := by
  intro y
  have h1 := h (fun i => if i < e then y i else 0)
  have e1 : ∑ i ∈ range m, (if i < e then y i else 0) ^ 2 = ∑ i ∈ range e, y i ^ 2 := by
    rw [← sum_subset (range_subset_range.2 he)]
    · exact sum_congr rfl fun i hi => by rw [if_pos (mem_range.1 hi)]
    · intro i _ hi
      rw [if_neg (by simpa using hi)]; ring
  have e2 : quadOn A 0 m (fun i => if i < e then y i else 0) = quadOn A 0 e y := by
    unfold quadOn
    simp only [Nat.Ico_zero_eq_range]
    rw [← sum_subset (range_subset_range.2 he)]
    · refine sum_congr rfl fun i hi => ?_
      rw [← sum_subset (range_subset_range.2 he)]
      · exact sum_congr rfl fun j hj => by rw [if_pos (mem_range.1 hi), if_pos (mem_range.1 hj)]
      · intro j _ hj
        rw [if_neg (c := j < e) (by simpa using hj)]; ring
    · intro i _ hi
      refine sum_eq_zero fun j _ => ?_
      rw [if_neg (c := i < e) (by simpa using hi)]; ring
  rwa [e1, e2] at h1

/-- A form whose entries are bounded by `M`. -/
theorem quadOn_abs_le {P : ℕ → ℕ → ℝ} {e : ℕ} (hP : ∀ i < e, ∀ j < e, P i j ≤ M) (hM : 0 ≤ M) (v : ℕ → ℝ) :
    quadOn P 0 e (fun i => |v i|) ≤ e * M * ∑ i ∈ range e, v i ^ 2 := by
  have h2 : quadOn P 0 e (fun i => |v i|) ≤ M * (∑ i ∈ range e, |v i|) ^ 2 := by
    rw [sq, sum_mul_sum, mul_sum]
    unfold quadOn
    rw [Nat.Ico_zero_eq_range]
    refine sum_le_sum fun i hi => ?_
    rw [mul_sum]
    refine sum_le_sum fun j hj => ?_
    rw [mem_range] at hi hj
    have := mul_le_mul_of_nonneg_left (hP i hi j hj) (mul_nonneg (abs_nonneg (v i)) (abs_nonneg (v j)))
    linarith
  have := mul_le_mul_of_nonneg_left (abs_sum_sq_le e v) hM
  linarith

/-- The form of a matrix is bounded by that of its absolute values. -/
theorem neg_quadOn_le {A P : ℕ → ℕ → ℝ} {e : ℕ} (h : ∀ i < e, ∀ j < e, |A i j| ≤ P i j) (v : ℕ → ℝ) :
    -quadOn A 0 e v ≤ quadOn P 0 e (fun i => |v i|) := by
  unfold quadOn
  rw [Nat.Ico_zero_eq_range, ← sum_neg_distrib]
  refine sum_le_sum fun i hi => ?_
  rw [← sum_neg_distrib]
  refine sum_le_sum fun j hj => ?_
  rw [mem_range] at hi hj
  have h1 := mul_le_mul_of_nonneg_left (h i hi j hj) (mul_nonneg (abs_nonneg (v i)) (abs_nonneg (v j)))
  have h2 := neg_abs_le (v i * A i j * v j)
  rw [abs_mul, abs_mul] at h2
  linarith

theorem abs_pencil_le (F : Fin k → ℕ → ℕ → ℝ) (B : ℕ → ℕ → ℝ) (x : Fin k → ℝ) (i j : ℕ) : |pencil F B x i j| ≤ absPencil F B x i j := by
  unfold pencil absPencil absCombo
  have h4 : |∑ q, x q * F q i j| ≤ ∑ q, |F q i j * x q| :=
    (abs_sum_le_sum_abs _ _).trans (le_of_eq (sum_congr rfl fun q _ => by rw [mul_comm]))
  exact (abs_sub _ _).trans (by linarith)

/-- **C132** (cuts).  A rounded `lmi_oracle` at `x`: it never raises, and a cut it returns is central or deep and holds with room `μ - (29θ + η)mM` at every `z` with
`B - Σ z_q F_q ⪰ μ·I`, where `θ = 3u + 2γ ≤ 1/10` and `M` bounds the entries of `|B| + Σ |x_q| |F_q|` at `x` and at `z`. -/
theorem C132_cut {F : Fin k → ℕ → ℕ → ℝ} {B : ℕ → ℕ → ℝ} (hF : ∀ q, SymOn (F q) m) (hB : SymOn B m) (x : Fin k → ℝ)
    {Q : CholExt ℝ} (hQ : Ready m Q) (hfl : RelErr u fl) (hu0 : 0 ≤ u) (hγ : 0 ≤ γ) (hdot : DotErr γ m dot) (hθ : 3 * u + 2 * γ ≤ 1 / 10)
    (hη : (1 + u) ^ (k + 2) ≤ 1 + η) (hη1 : η ≤ 1 / 10) (hM0 : 0 ≤ M) (hM : ∀ i < m, ∀ j < m, absPencil F B x i j ≤ M) :
    ∃ Q' r, lmiCallF fl dot F B m x Q = .ok (Q', r) ∧ Ready m Q' ∧
      ∀ g ep, r = some (g, ep) → 0 ≤ ep ∧ ∀ z, (∀ i < m, ∀ j < m, absPencil F B z i j ≤ M) → ∀ μ, (29 * (3 * u + 2 * γ) + η) * m * M ≤ μ →
        AtLeast μ (pencil F B z) m → g ⬝ᵥ (z - x) + ep ≤ -(μ - (29 * (3 * u + 2 * γ) + η) * m * M) := by
  obtain ⟨Q', r, h1, h2, -, h4⟩ := lmiF_any hF hB x hQ hfl hu0 (by linarith) hγ hdot (by linarith) hη
  refine ⟨Q', r, h1, h2, fun g ep h => ?_⟩
  obtain ⟨h5, e, h6, h7, h8, h9⟩ := h4 g ep h
  refine ⟨h5, fun z hMz μ hμ hz => ?_⟩
  set θ := 3 * u + 2 * γ with hθd
  have hθ0 : 0 ≤ θ := by positivity
  have hη0 : 0 ≤ η := by have := one_le_pow₀ (show 1 ≤ 1 + u by linarith) (n := k + 2); linarith
  set s := ∑ i ∈ range e, Q'.v i ^ 2 with hs
  have hs1 : 1 ≤ s := by
    have := single_le_sum (f := fun i => Q'.v i ^ 2) (fun i _ => sq_nonneg _) (mem_range.2 (show e - 1 < e by omega))
    simp only [h8] at this
    linarith
  have hem : (e : ℝ) ≤ m := by exact_mod_cast h7
  have hms : e * M * s ≤ m * M * s := mul_le_mul_of_nonneg_right (mul_le_mul_of_nonneg_right hem hM0) (by linarith)
  have hD : 0 ≤ (1 + η) * M := by positivity
  obtain ⟨-, h10⟩ := h9 (fun _ => Real.sqrt ((1 + η) * M)) (fun _ => Real.sqrt_nonneg _) (fun i hi => by
    rw [Real.sq_sqrt hD]
    have k1 := (le_abs_self _).trans (abs_pencil_le F B x i i)
    have k2 := hM i hi i hi
    have k3 := mul_le_mul_of_nonneg_left k2 hη0
    linarith)
  rw [← mul_sum, mul_pow, Real.sq_sqrt hD] at h10
  have a1 : (1 + η) * M * (∑ i ∈ range e, |Q'.v i|) ^ 2 ≤ 11 / 10 * (m * M * s) := by
    have k1 := mul_le_mul_of_nonneg_left (abs_sum_sq_le e Q'.v) hD
    have k2 := mul_le_mul_of_nonneg_left hms (show 0 ≤ 1 + η by linarith)
    have k3 := mul_le_mul_of_nonneg_right (show 1 + η ≤ 11 / 10 by linarith) (show 0 ≤ m * M * s by positivity)
    linarith
  have a2 : quadOn (absPencil F B x) 0 e (fun i => |Q'.v i|) ≤ m * M * s :=
    (quadOn_abs_le (fun i hi j hj => hM i (by omega) j (by omega)) hM0 _).trans hms
  -- how large `ep` can be
  have a3 : ep ≤ 4 * (m * M * s) := by
    have k1 := h10 x
    have k2 : -quadOn (pencil F B x) 0 e Q'.v ≤ m * M * s := (neg_quadOn_le (fun i _ j _ => abs_pencil_le F B x i j) _).trans a2
    have k3 : ∑ q, g q * (x q - x q) = 0 := sum_eq_zero fun q _ => by ring
    have k4 : ∑ q, |x q - x q| * quadOn (absMat (F q)) 0 e (fun i => |Q'.v i|) = 0 := sum_eq_zero fun q _ => by simp
    rw [k3, k4] at k1
    have k5 := mul_le_mul_of_nonneg_left a1 (show 0 ≤ 5 * θ by positivity)
    have k6 := mul_le_mul_of_nonneg_left a2 hη0
    have k7 : 5 * θ * (11 / 10 * (m * M * s)) ≤ 1 / 2 * (11 / 10 * (m * M * s)) := mul_le_mul_of_nonneg_right (by linarith) (by positivity)
    have k8 : η * (m * M * s) ≤ 1 / 10 * (m * M * s) := mul_le_mul_of_nonneg_right hη1 (by positivity)
    have k9 : 5 * θ * ep ≤ 1 / 2 * ep := mul_le_mul_of_nonneg_right (by linarith) h5
    have k10 : 0 ≤ m * M * s := by positivity
    linarith
  -- the error of the gradient
  have a4 : ∑ q, |z q - x q| * quadOn (absMat (F q)) 0 e (fun i => |Q'.v i|) ≤ 2 * (m * M * s) := by
    have k1 : ∑ q, |z q - x q| * quadOn (absMat (F q)) 0 e (fun i => |Q'.v i|) =
        quadOn (fun i j => ∑ q, |F q i j * (z q - x q)|) 0 e (fun i => |Q'.v i|) := by
      have := (quadOn_combo (fun q => absMat (F q)) (fun q => |z q - x q|) 0 e (fun i => |Q'.v i|)).symm
      rw [this]
      congr 1
      funext i j
      exact sum_congr rfl fun q _ => by simp only [absMat]; rw [abs_mul, mul_comm]
    rw [k1]
    have k2 := quadOn_abs_le (P := fun i j => ∑ q, |F q i j * (z q - x q)|) (e := e) (M := 2 * M) (fun i hi j hj => by
      have j1 := hM i (by omega) j (by omega)
      have j2 := hMz i (by omega) j (by omega)
      have j3 : ∑ q, |F q i j * (z q - x q)| ≤ ∑ q, |F q i j * z q| + ∑ q, |F q i j * x q| := by
        rw [← sum_add_distrib]
        exact sum_le_sum fun q _ => by rw [mul_sub]; exact abs_sub _ _
      unfold absPencil absCombo at j1 j2
      have j4 := abs_nonneg (B i j)
      linarith) (by positivity) Q'.v
    refine k2.trans ?_
    rw [← hs]
    linarith
  have a5 := h10 z
  have a6 := (hz.sub h7) Q'.v
  have hγθ : 2 * γ + γ ^ 2 ≤ 3 / 2 * θ := by
    have : γ ^ 2 ≤ 1 / 20 * γ := by rw [sq]; exact mul_le_mul_of_nonneg_right (by linarith) hγ
    linarith
  have hmMs : 0 ≤ m * M * s := by positivity
  have a7 := mul_le_mul_of_nonneg_left (add_le_add a1 a3) (show 0 ≤ 5 * θ by positivity)
  have a8 := mul_le_mul_of_nonneg_left a2 hη0
  have a9 := mul_le_mul_of_nonneg_left a4 (show 0 ≤ 2 * γ + γ ^ 2 by positivity)
  have a10 := mul_le_mul_of_nonneg_right hγθ (show 0 ≤ 2 * (m * M * s) by positivity)
  have a11 : ∑ q, g q * (z q - x q) = g ⬝ᵥ (z - x) := rfl
  rw [a11] at a5
  have a12 : g ⬝ᵥ (z - x) + ep ≤ -(μ - (29 * θ + η) * m * M) * s := by
    have := mul_nonneg hθ0 hmMs
    linarith
  refine a12.trans ?_
  have := mul_le_mul_of_nonneg_left hs1 (show 0 ≤ μ - (29 * θ + η) * m * M by linarith)
  linarith

variable {C ε η' b l q tol ur : ℝ} {vdot : (Fin k → ℝ) → (Fin k → ℝ) → ℝ} {E₀ : Ell k}

/-- `lmi_oracle` with rounded operations, as `cutting_plane_feas` calls it. -/
noncomputable def lmiRunF (fl : ℝ → ℝ) (dot : ℕ → ℕ → (ℕ → ℝ) → (ℕ → ℝ) → ℝ) (F : Fin k → ℕ → ℕ → ℝ) (B : ℕ → ℕ → ℝ) (m : ℕ) (x : Fin k → ℝ) (Q : CholExt ℝ) :
    Except PyErr (CholExt ℝ × Option ((Fin k → ℝ) × Beta)) :=
  feasAnswer (fun c => (c.1, Beta.scalar c.2)) (lmiCallF fl dot F B m x Q)

/-- The cuts keep a ball on which the inequality holds with a margin above the rounding errors. -/
theorem lmi_keeps {F : Fin k → ℕ → ℕ → ℝ} {B : ℕ → ℕ → ℝ} (hF : ∀ q, SymOn (F q) m) (hB : SymOn B m)
    (hfl : RelErr u fl) (hu0 : 0 ≤ u) (hγ : 0 ≤ γ) (hdot : DotErr γ m dot) (hθ : 3 * u + 2 * γ ≤ 1 / 10)
    (hη : (1 + u) ^ (k + 2) ≤ 1 + η) (hη1 : η ≤ 1 / 10) (hM0 : 0 ≤ M) {a : Fin k → ℝ} {r : ℝ} (hr : 0 < r)
    (hK : ∀ z ∈ euclBall a r, AtLeast μ (pencil F B z) m ∧ ∀ i < m, ∀ j < m, absPencil F B z i j ≤ M)
    (hμ : (29 * (3 * u + 2 * γ) + η) * m * M < μ) (htol : tol ≤ 199 / 200 * (μ - (29 * (3 * u + 2 * γ) + η) * m * M) ^ 2) :
    FeasKeeps (euclBall a r) {x | ∀ i < m, ∀ j < m, absPencil F B x i j ≤ M} (Ready m) tol (lmiRunF fl dot F B m) := by
  have ha : a ∈ euclBall a r := by
    change ∑ i, (a i - a i) ^ 2 ≤ r ^ 2
    simp only [sub_self, ne_eq, OfNat.ofNat_ne_zero, not_false_eq_true, zero_pow, sum_const_zero]
    positivity
  intro x hx Q hQ
  obtain ⟨Q', c, h1, h2, h3⟩ := C132_cut hF hB x hQ hfl hu0 hγ hdot hθ hη hη1 hM0 hx
  rcases c with _ | ⟨g, ep⟩
  · exact .inl ⟨Q', by simp [lmiRunF, feasAnswer, h1, Except.map]⟩
  · obtain ⟨h4, h5⟩ := h3 g ep rfl
    have h6 : ∀ z ∈ euclBall a r, g ⬝ᵥ (z - x) + ep ≤ -(μ - (29 * (3 * u + 2 * γ) + η) * m * M) := fun z hz => h5 z (hK z hz).2 μ hμ.le (hK z hz).1
    refine .inr ⟨Q', g, ep, by simp [lmiRunF, feasAnswer, h1, Except.map], h2, h4, fun h0 => ?_, fun z hz => ?_⟩
    · have := h6 a ha
      rw [h0, zero_dotProduct] at this
      linarith
    · have h7 := h6 z hz
      refine ⟨by linarith, htol.trans ?_⟩
      have h8 : (μ - (29 * (3 * u + 2 * γ) + η) * m * M) ^ 2 ≤ (g ⬝ᵥ (z - x)) ^ 2 := by
        rw [← neg_sq (g ⬝ᵥ (z - x))]
        exact pow_le_pow_left₀ (by linarith) (by linarith) 2
      linarith

/-- **C132** (finding a solution).  Let `B - Σ z_q F_q ⪰ μ·I` on the ball `B(a, r)` inside the first ellipsoid, with `μ` above the rounding errors `(29θ + η)mM` of the
oracle and the tolerance at most `199/200` of the square of the excess.  If `rⁿ` exceeds `√(κⁿ det Q)` times `loss + √((8b/3)ⁿ b)` and times `loss + q^N`, then
`cutting_plane_feas(lmi_oracle(F, B), ell)` with every operation rounded raises nothing and within `N` iterations finds a point with
`B - Σ x_q F_q ⪰ -(5/4 θ(1 + η) + η)mM·I`. -/
theorem C132_lmi {F : Fin k → ℕ → ℕ → ℝ} {B : ℕ → ℕ → ℝ} (hF : ∀ q, SymOn (F q) m) (hB : SymOn B m) {Q₀ : CholExt ℝ} (hQ : Ready m Q₀)
    (hfl : RelErr u fl) (hu0 : 0 ≤ u) (hγ : 0 ≤ γ) (hdot : DotErr γ m dot) (hθ : 3 * u + 2 * γ ≤ 1 / 10)
    (hη : (1 + u) ^ (k + 2) ≤ 1 + η) (hη1 : η ≤ 1 / 10) (hM0 : 0 ≤ M)
    (hE : E₀.Proper) (hu : u ≤ ε) (hvdot : VecDotErr ε vdot) (hb : StepBounds k C ε η' b l q) (hq : q < 1)
    {a : Fin k → ℝ} {r : ℝ} (hr : 0 < r) (hball : euclBall a r ⊆ E₀.pts)
    (hK : ∀ z ∈ euclBall a r, AtLeast μ (pencil F B z) m ∧ ∀ i < m, ∀ j < m, absPencil F B z i j ≤ M)
    (hμ : (29 * (3 * u + 2 * γ) + η) * m * M < μ) (htol : tol ≤ 199 / 200 * (μ - (29 * (3 * u + 2 * γ) + η) * m * M) ^ 2)
    {N : ℕ} (hres : FeasResolved N {x | ∀ i < m, ∀ j < m, absPencil F B x i j ≤ M} C η' u fl vdot (lmiRunF fl dot F B m) tol (Q₀, E₀))
    (hfat : (lossF k l q + √((8 / 3 * b) ^ k * b)) * √E₀.vsq < r ^ k) (hN : (lossF k l q + q ^ N) * √E₀.vsq < r ^ k)
    {im : Int} (hm : (N : Int) ≤ im) :
    ∃ w' info, cuttingPlaneFeas (fun x => liftOracle (lmiRunF fl dot F B m x)) ((Ell.spaceF fl vdot).beside (CholExt ℝ)) ⟨im, tol⟩ (Q₀, E₀) = .ok (w', info) ∧
      info.feasible = true ∧ info.status = .success ∧ info.numIters ≤ N ∧
      AtLeast (-((5 / 4 * (3 * u + 2 * γ) * (1 + η) + η) * m * M)) (pencil F B w'.2.xc) m := by
  have hKE : euclBall a r ∩ E₀.pts = euclBall a r := Set.inter_eq_left.2 hball
  have scale : ∀ {c : ℝ}, c * √E₀.vsq < r ^ k → c * volume.real E₀.pts < volume.real (euclBall a r ∩ E₀.pts) := fun {c} hc => by
    rw [hKE, vol_ball hE.dim hr, vol_pts hE, ← mul_assoc]
    exact mul_lt_mul_of_pos_right hc euclBall_real_pos
  have hω := lmi_keeps hF hB hfl hu0 hγ hdot hθ hη hη1 hM0 hr hK hμ htol
  obtain ⟨w', info, h1, h2, h3, h4, h5, -⟩ := C130_firm hE hfl hu0 hu hvdot hb hq hω hQ hres (scale hfat) (scale hN) hm
  exact ⟨w', info, h1, h2, h3, h4, C121_lmi (S := Ell.spaceF fl vdot) (v := w'.2) hF hB hfl hu0 (by linarith) hγ hdot (by linarith) hη hQ h1 h2 hM0 h5⟩

/-- `lmi_keeps`, rounding to nearest with `p` bits and adding from left to right. -/
theorem lmi_keeps_bits {p : ℕ} (hfl : Nearest p fl) {F : Fin k → ℕ → ℕ → ℝ} {B : ℕ → ℕ → ℝ} (hF : ∀ q, SymOn (F q) m) (hB : SymOn B m)
    (hm : 10 * (4 * (m : ℝ) + 7) ≤ 2 ^ p) (hk : 20 * ((k : ℝ) + 2) ≤ 2 ^ p) (hM0 : 0 ≤ M) {a : Fin k → ℝ} {r : ℝ} (hr : 0 < r)
    (hK : ∀ z ∈ euclBall a r, AtLeast μ (pencil F B z) m ∧ ∀ i < m, ∀ j < m, absPencil F B z i j ≤ M)
    (hμ : (120 * m + 2 * k + 210) / 2 ^ p * m * M < μ) (htol : tol ≤ 199 / 200 * (μ - (120 * m + 2 * k + 210) / 2 ^ p * m * M) ^ 2) :
    FeasKeeps (euclBall a r) {x | ∀ i < m, ∀ j < m, absPencil F B x i j ≤ M} (Ready m) tol (lmiRunF fl (seqDot fl) F B m) := by
  have hdot := seqDot_bits (m := m) hfl (by linarith)
  obtain ⟨hrel, hu, hvdot⟩ := C117_double (n := k) hfl (by linarith)
  rw [div_eq_mul_one_div (120 * (m : ℝ) + 2 * k + 210)] at hμ htol
  have hup : (2 : ℝ) ^ p * (1 / 2 ^ p) = 1 := by field_simp
  have hu0 : (0 : ℝ) ≤ 1 / 2 ^ p := by positivity
  generalize (1 : ℝ) / 2 ^ p = u at *
  have hbig : 10 * (4 * (m : ℝ) + 7) * u ≤ 1 := by rw [← hup]; exact mul_le_mul_of_nonneg_right hm hu0
  have hku : 20 * ((k : ℝ) + 2) * u ≤ 1 := by rw [← hup]; exact mul_le_mul_of_nonneg_right hk hu0
  have hK' : ((k + 2 : ℕ) : ℝ) * u ≤ 1 / 2 := by push_cast; linarith
  have hν : (29 * (3 * u + 2 * (2 * (((m + 1 : ℕ) : ℝ) * u))) + 2 * (((k + 2 : ℕ) : ℝ) * u)) * m * M ≤ (120 * m + 2 * k + 210) * u * m * M := by
    refine mul_le_mul_of_nonneg_right (mul_le_mul_of_nonneg_right ?_ (Nat.cast_nonneg _)) hM0
    push_cast
    have hmu : 0 ≤ (m : ℝ) * u := by positivity
    linarith
  exact lmi_keeps hF hB hrel hu0 (by positivity) hdot (by push_cast; linarith)
    (η := 2 * (((k + 2 : ℕ) : ℝ) * u)) (by have := pow_sub_one_le hu0 _ hK'; linarith) (by push_cast; linarith) hM0 hr hK
    (hν.trans_lt hμ) (htol.trans (mul_le_mul_of_nonneg_left (pow_le_pow_left₀ (by linarith) (by linarith) 2) (by norm_num)))

/-- **C132** (`p` bits).  As `C132_lmi`, rounding to nearest with `p` bits and adding from left to right: margin above `ν = (120m + 2k + 210)/2^p·mM`, and the point found has
smallest eigenvalue at least `-(10m + 2k + 22)/2^p·mM`. -/
theorem C132_lmi_bits {p : ℕ} (hfl : Nearest p fl) {F : Fin k → ℕ → ℕ → ℝ} {B : ℕ → ℕ → ℝ} (hF : ∀ q, SymOn (F q) m) (hB : SymOn B m)
    {Q₀ : CholExt ℝ} (hQ : Ready m Q₀) (hm : 10 * (4 * (m : ℝ) + 7) ≤ 2 ^ p) (hk : 20 * ((k : ℝ) + 2) ≤ 2 ^ p) (hM0 : 0 ≤ M)
    (hE : E₀.Proper) (hb : StepBounds k C (2 * (k + 1) / 2 ^ p) η' b l q) (hq : q < 1)
    {a : Fin k → ℝ} {r : ℝ} (hr : 0 < r) (hball : euclBall a r ⊆ E₀.pts)
    (hK : ∀ z ∈ euclBall a r, AtLeast μ (pencil F B z) m ∧ ∀ i < m, ∀ j < m, absPencil F B z i j ≤ M)
    (hμ : (120 * m + 2 * k + 210) / 2 ^ p * m * M < μ) (htol : tol ≤ 199 / 200 * (μ - (120 * m + 2 * k + 210) / 2 ^ p * m * M) ^ 2)
    {N : ℕ} (hres : FeasResolved N {x | ∀ i < m, ∀ j < m, absPencil F B x i j ≤ M} C η' (1 / 2 ^ p) fl (vecDot fl) (lmiRunF fl (seqDot fl) F B m) tol (Q₀, E₀))
    (hfat : (lossF k l q + √((8 / 3 * b) ^ k * b)) * √E₀.vsq < r ^ k) (hN : (lossF k l q + q ^ N) * √E₀.vsq < r ^ k)
    {im : Int} (him : (N : Int) ≤ im) :
    ∃ w' info, cuttingPlaneFeas (fun x => liftOracle (lmiRunF fl (seqDot fl) F B m x)) ((Ell.spaceF fl (vecDot fl)).beside (CholExt ℝ)) ⟨im, tol⟩ (Q₀, E₀) =
        .ok (w', info) ∧ info.feasible = true ∧ info.status = .success ∧ info.numIters ≤ N ∧
      AtLeast (-((10 * m + 2 * k + 22) / 2 ^ p * m * M)) (pencil F B w'.2.xc) m := by
  have hdot := seqDot_bits (m := m) hfl (by linarith)
  obtain ⟨hrel, hu, hvdot⟩ := C117_double (n := k) hfl (by linarith)
  rw [div_eq_mul_one_div (120 * (m : ℝ) + 2 * k + 210)] at hμ htol
  rw [div_eq_mul_one_div (10 * (m : ℝ) + 2 * k + 22)]
  have hup : (2 : ℝ) ^ p * (1 / 2 ^ p) = 1 := by field_simp
  have hu0 : (0 : ℝ) ≤ 1 / 2 ^ p := by positivity
  generalize (1 : ℝ) / 2 ^ p = u at *
  have hbig : 10 * (4 * (m : ℝ) + 7) * u ≤ 1 := by rw [← hup]; exact mul_le_mul_of_nonneg_right hm hu0
  have hku : 20 * ((k : ℝ) + 2) * u ≤ 1 := by rw [← hup]; exact mul_le_mul_of_nonneg_right hk hu0
  have hK' : ((k + 2 : ℕ) : ℝ) * u ≤ 1 / 2 := by push_cast; linarith
  have hmu : 0 ≤ (m : ℝ) * u := by positivity
  have hν : (29 * (3 * u + 2 * (2 * (((m + 1 : ℕ) : ℝ) * u))) + 2 * (((k + 2 : ℕ) : ℝ) * u)) * m * M ≤ (120 * m + 2 * k + 210) * u * m * M := by
    refine mul_le_mul_of_nonneg_right (mul_le_mul_of_nonneg_right ?_ (Nat.cast_nonneg _)) hM0
    push_cast
    linarith
  obtain ⟨w', info, h1, h2, h3, h4, h5⟩ := C132_lmi hF hB hQ hrel hu0 (by positivity) hdot (by push_cast; linarith)
    (η := 2 * (((k + 2 : ℕ) : ℝ) * u)) (by have := pow_sub_one_le hu0 _ hK'; linarith) (by push_cast; linarith) hM0 hE hu hvdot hb hq hr hball hK
    (hν.trans_lt hμ) (htol.trans (mul_le_mul_of_nonneg_left (pow_le_pow_left₀ (by linarith) (by linarith) 2) (by norm_num))) hres hfat hN him
  refine ⟨w', info, h1, h2, h3, h4, h5.mono (neg_le_neg (mul_le_mul_of_nonneg_right (mul_le_mul_of_nonneg_right ?_ (Nat.cast_nonneg _)) hM0))⟩
  have h6 : 0 ≤ 3 * u + 2 * (2 * (((m + 1 : ℕ) : ℝ) * u)) := by positivity
  have h7 := mul_le_mul_of_nonneg_left (show 1 + 2 * (((k + 2 : ℕ) : ℝ) * u) ≤ 2 by linarith) h6
  push_cast at h7 ⊢
  linarith

/-! ### Non-vacuity: the matrix inequality `-x₀ ≥ 0` in the plane, doubles, the unit disc -/

/-- `F = [[1]], [[0]]`. -/
noncomputable def halfPlaneF (q : Fin 2) (_ _ : ℕ) : ℝ := (![1, 0] : Fin 2 → ℝ) q

theorem halfPlane_pencil (x : Fin 2 → ℝ) (i j : ℕ) : pencil halfPlaneF (fun _ _ => 0) x i j = -x 0 ∧ absPencil halfPlaneF (fun _ _ => 0) x i j = |x 0| := by
  constructor
  · rw [pencil, Fin.sum_univ_two]; simp only [halfPlaneF, Matrix.cons_val_zero, Matrix.cons_val_one]; ring
  · rw [absPencil, absCombo, Fin.sum_univ_two]; simp only [halfPlaneF, Matrix.cons_val_zero, Matrix.cons_val_one]; simp

/-- The first call. -/
theorem halfPlane_first {fl : ℝ → ℝ} (hfl : Nearest 53 fl) :
    ∃ Q', lmiRunF fl (seqDot fl) halfPlaneF (fun _ _ => 0) 1 0 (CholExt.init 1) = .ok (Q', some (![1, 0], .scalar 0)) := by
  have h0 : fl 0 = 0 := by have := hfl.relErr 0; simpa using this
  have h1 : fl 1 = 1 := hfl.rounding.exact _ (by simpa using rep_int (p := 53) (α := ℝ) (z := 1) (by norm_num))
  simp [lmiRunF, feasAnswer, lmiCallF, CholExt.init, CholExt.factorF, cholRowsF, cholInnerF, readAt, affEntryF, linEntryF, CholExt.isSpd, CholExt.witnessF,
    CholExt.symQuadF, witnessLoopF, seqDot, h0, Except.map, set2, List.finRange_succ]
  funext q
  fin_cases q <;> simp [halfPlaneF, h0, h1]

/-- Points with `x₀ ≤ -1/10` are accepted. -/
theorem halfPlane_accept {fl : ℝ → ℝ} (hfl : Nearest 53 fl) {x : Fin 2 → ℝ} (hx : x 0 ≤ -1 / 10) {Q : CholExt ℝ} (hQ : Ready 1 Q) :
    ∃ Q', lmiRunF fl (seqDot fl) halfPlaneF (fun _ _ => 0) 1 x Q = .ok (Q', none) := by
  obtain ⟨Q', r, h1, h2, -, h4⟩ := C115_lmi (F := halfPlaneF) (B := fun _ _ => 0) (m := 1)
    (fun _ _ _ _ _ => rfl) (fun _ _ _ _ => rfl) x hQ hfl.relErr (by positivity) (by norm_num) (by positivity)
    (seqDot_bits (m := 1) hfl (by norm_num)) (by norm_num) (η := 1 / 10) (by norm_num)
  rcases r with _ | ⟨g, ep⟩
  · exact ⟨Q', by simp [lmiRunF, feasAnswer, h1, Except.map]⟩
  · exfalso
    obtain ⟨-, e, he0, hem, hv, h5⟩ := h4 g ep rfl
    obtain rfl : e = 1 := by omega
    have hx0 : |x 0| = -x 0 := abs_of_nonpos (by linarith)
    have h6 := (h5 (fun _ => √(11 / 10 * |x 0|)) (fun _ => Real.sqrt_nonneg _) (fun i hi => by
      rw [Real.sq_sqrt (by positivity), (halfPlane_pencil x i i).1, (halfPlane_pencil x i i).2, hx0]; linarith)).1
    simp only [Nat.sub_self] at hv
    simp only [quadOn, Nat.Ico_succ_singleton, Finset.sum_singleton, Finset.range_one, hv, abs_one, mul_one, one_mul,
      (halfPlane_pencil x 0 0).1, (halfPlane_pencil x 0 0).2, hx0] at h6
    rw [Real.sq_sqrt (by linarith)] at h6
    norm_num at h6
    linarith

theorem halfPlane_resolved {fl : ℝ → ℝ} (hfl : Nearest 53 fl) {tol : ℝ} {N : ℕ} :
    FeasResolved N {x : Fin 2 → ℝ | ∀ i < 1, ∀ j < 1, absPencil halfPlaneF (fun _ _ => 0) x i j ≤ 1} √2 (1 / 2 ^ 53) (1 / 2 ^ 53) fl (vecDot fl)
      (lmiRunF fl (seqDot fl) halfPlaneF (fun _ _ => 0) 1) tol (CholExt.init 1, disc) := by
  intro k log v _ hp
  obtain ⟨E', h1, h2, h3, h4, h5, h6, h7, h8, h9⟩ := disc_update hfl
  obtain ⟨Q1, hf⟩ := halfPlane_first hfl
  have hQ1 : Ready 1 Q1 := by
    obtain ⟨Q', r, j1, j2, -⟩ := C115_lmi (F := halfPlaneF) (B := fun _ _ => 0) (m := 1)
      (fun _ _ _ _ _ => rfl) (fun _ _ _ _ => rfl) 0 (ready_init 1) hfl.relErr (by positivity) (by norm_num) (by positivity)
      (seqDot_bits (m := 1) hfl (by norm_num)) (by norm_num) (η := 1 / 10) (by norm_num)
    simp only [lmiRunF, feasAnswer, j1, Except.map, Except.ok.injEq, Prod.mk.injEq] at hf
    exact hf.1 ▸ j2
  have key : v = (CholExt.init 1, disc) ∨ v = (Q1, E') := by
    induction hp with
    | nil => exact .inl rfl
    | @snoc k log w w1 w2 c tsq hp hq1 hu1 ht ih =>
      obtain ⟨k1, k2, k3⟩ := round_split hq1 hu1
      right
      rcases ih (by omega) with ih | ih
      · rw [ih] at k1 k2
        have e0 : disc.xc = 0 := rfl
        rw [e0, hf] at k1
        simp only [Except.ok.injEq, Prod.mk.injEq, Option.some.injEq] at k1
        rw [← k1.2, h1] at k2
        simp only [Except.ok.injEq, Prod.mk.injEq] at k2
        exact Prod.ext (k3.trans k1.1.symm) k2.1.symm
      · rw [ih] at k1
        obtain ⟨Q2, hQ2⟩ := halfPlane_accept hfl h2 hQ1
        rw [hQ2] at k1
        simp at k1
  refine ⟨?_, ?_⟩
  · intro i _ j _
    rw [(halfPlane_pencil _ i j).2]
    rcases key with key | key <;> rw [key]
    · simp [disc]
    · linarith
  · rcases key with key | key <;> rw [key]
    · exact disc_is_resolved
    · exact step_is_resolved h3 h4 h5 h6 h7 h8 h9

/-- Concrete: doubles, the unit disc and `-x₀ ≥ 0`, which holds with margin `1/10` on the disc of radius `2/5` about `(-1/2, 0)`: in at most 20 iterations a point is found
with `x₀ ≤ 56/2^53`. -/
example {fl : ℝ → ℝ} (hfl : Nearest 53 fl) : ∃ w' info,
    cuttingPlaneFeas (fun x => liftOracle (lmiRunF fl (seqDot fl) halfPlaneF (fun _ _ => 0) 1 x)) ((Ell.spaceF fl (vecDot fl)).beside (CholExt ℝ))
        ⟨2000, 1 / 10 ^ 8⟩ (CholExt.init 1, disc) = .ok (w', info) ∧
      info.feasible = true ∧ info.status = .success ∧ info.numIters ≤ 20 ∧ w'.2.xc 0 ≤ 56 / 2 ^ 53 := by
  have h4 : (√2) ^ 4 = (4 : ℝ) := by
    rw [show (4 : ℕ) = 2 * 2 by rfl, pow_mul, Real.sq_sqrt (by norm_num)]; norm_num
  have hs2 : √2 ≤ 3 / 2 := by rw [Real.sqrt_le_left (by norm_num)]; norm_num
  have hP : disc.Proper := ⟨le_rfl, PosDef.one, one_pos⟩
  have hv : disc.vsq = 1 := by simp [disc, Ell.vsq]
  have hb : StepBounds 2 √2 (2 * ((2 : ℕ) + 1) / 2 ^ 53) (1 / 2 ^ 53) (1 / 10) (1 + 1 / 10 ^ 9) (9 / 10) := by
    refine ⟨by norm_num, by norm_num, by rw [Real.one_le_sqrt]; norm_num, by positivity, by rw [h4]; norm_num, ?_, ?_⟩
    · rw [h4]; norm_num; linarith
    · rw [h4]
      rw [Real.sqrt_sq (by norm_num)]
      have h5 : Real.exp (-(1 / (2 * (((2 : ℕ) : ℝ) + 1)))) ≤ 6 / 7 := by
        rw [Real.exp_neg, inv_le_comm₀ (Real.exp_pos _) (by norm_num)]
        have := Real.add_one_le_exp (1 / (2 * (((2 : ℕ) : ℝ) + 1)))
        norm_num at this ⊢
        linarith
      refine (mul_le_mul_of_nonneg_left h5 (by norm_num)).trans ?_
      norm_num
  have hball : ∀ z ∈ euclBall (![-1 / 2, 0] : Fin 2 → ℝ) (2 / 5), (z 0 + 1 / 2) ^ 2 + z 1 ^ 2 ≤ 4 / 25 := fun z hz => by
    have hz : ∑ i, (z i - (![-1 / 2, 0] : Fin 2 → ℝ) i) ^ 2 ≤ (2 / 5) ^ 2 := hz
    rw [Fin.sum_univ_two] at hz
    simp only [Matrix.cons_val_zero, Matrix.cons_val_one] at hz
    norm_num at hz ⊢
    linarith
  have hz0 : ∀ z ∈ euclBall (![-1 / 2, 0] : Fin 2 → ℝ) (2 / 5), z 0 ≤ -1 / 10 ∧ -9 / 10 ≤ z 0 := fun z hz => by
    have := hball z hz
    constructor <;> nlinarith [sq_nonneg (z 1)]
  have hloss : lossF 2 (1 + 1 / 10 ^ 9) (9 / 10) ≤ 1 / 100 := by unfold lossF; norm_num
  obtain ⟨w', info, k1, k2, k3, k4, k5⟩ := C132_lmi_bits (k := 2) (m := 1) (p := 53) (M := 1) (μ := 1 / 10) (F := halfPlaneF) (B := fun _ _ => 0) (Q₀ := CholExt.init 1) (E₀ := disc)
    (a := ![-1 / 2, 0]) (r := 2 / 5) (tol := 1 / 10 ^ 8) (N := 20) (im := 2000) hfl (fun _ _ _ _ _ => rfl) (fun _ _ _ _ => rfl) (ready_init 1) (by norm_num) (by norm_num)
    (by norm_num) hP hb (by norm_num) (by norm_num) (fun z hz => by
      have h6 := hball z hz
      have h7 := hz0 z hz
      have : disc = ⟨true, false, 0, 1, 1 ^ 2⟩ := by simp [disc]
      rw [this, euclBall_eq_pts le_rfl]
      change ∑ i, (z i - (0 : Fin 2 → ℝ) i) ^ 2 ≤ 1 ^ 2
      rw [Fin.sum_univ_two]
      simp only [Pi.zero_apply, sub_zero]
      nlinarith) (fun z hz => by
      obtain ⟨h6, h7⟩ := hz0 z hz
      refine ⟨fun y => ?_, fun i _ j _ => ?_⟩
      · simp only [quadOn, Nat.Ico_succ_singleton, Finset.sum_singleton, Finset.range_one, (halfPlane_pencil z 0 0).1]
        nlinarith [mul_nonneg (sq_nonneg (y 0)) (show 0 ≤ -z 0 - 1 / 10 by linarith)]
      · rw [(halfPlane_pencil z i j).2, abs_le]
        constructor <;> linarith) (by norm_num) (by norm_num) (halfPlane_resolved hfl) (by
      rw [hv, Real.sqrt_one, mul_one]
      have h6 : √((8 / 3 * (1 / 10 : ℝ)) ^ 2 * (1 / 10)) ≤ 1 / 10 := by rw [Real.sqrt_le_left (by norm_num)]; norm_num
      norm_num at h6 hloss ⊢
      linarith) (by
      rw [hv, Real.sqrt_one, mul_one]
      norm_num at hloss ⊢
      linarith) (by norm_num)
  refine ⟨w', info, k1, k2, k3, k4, ?_⟩
  have h6 := k5 fun _ => 1
  simp only [quadOn, Nat.Ico_succ_singleton, Finset.sum_singleton, Finset.range_one, (halfPlane_pencil w'.2.xc 0 0).1] at h6
  norm_num at h6 ⊢
  linarith

end Verif
