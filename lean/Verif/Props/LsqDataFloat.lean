import Verif.Props.LsqFloatRun
import Verif.Props.CorrFloat
import Verif.Model.CorrTest

/-!
# C146: least-squares fits with every operation rounded, on rounded data

The matrices of a fit are themselves computed; `Verif/Props/LsqFloatRun.lean` takes them as they are stored.
-/
namespace Verif
open FloatSpec Finset MeasureTheory Matrix Ell
variable {k m : ℕ} {u γ R e : ℝ} {fl : ℝ → ℝ} {dot : ℕ → ℕ → (ℕ → ℝ) → (ℕ → ℝ) → ℝ} {F F' : Fin k → ℕ → ℕ → ℝ} {F0 F0' : ℕ → ℕ → ℝ}

/-- All entries of the stored matrices `F'`, `F0'` are within `e` of those of `F`, `F0`. -/
def DataNear (e : ℝ) (F F' : Fin k → ℕ → ℕ → ℝ) (F0 F0' : ℕ → ℕ → ℝ) (m : ℕ) : Prop :=
  ∀ i < m, ∀ j < m, |F0' i j - F0 i j| ≤ e ∧ ∀ q, |F' q i j - F q i j| ≤ e

/-- What the difference of the data does to the two inequalities at points with entries of at most `R`. -/
noncomputable def dataUnit (F : Fin k → ℕ → ℕ → ℝ) (F0 : ℕ → ℕ → ℝ) (m : ℕ) (R e : ℝ) : ℝ :=
  m * ((1 + k * R) * e) + m * (m * ((1 + k * R) * e * (2 * (entrySum F F0 m * (1 + R)) + (1 + k * R) * e)))

theorem combo_near (h : DataNear e F F' F0 F0' m) {x : Fin k → ℝ} (hx : ∀ q, |x q| ≤ R) {i j : ℕ} (hi : i < m) (hj : j < m) : |combo F' x i j - combo F x i j| ≤ k * R * e := by
  unfold combo
  rw [← sum_sub_distrib]
  refine (abs_sum_le_sum_abs _ _).trans ?_
  have h1 : ∀ q ∈ (univ : Finset (Fin k)), |x q * F' q i j - x q * F q i j| ≤ R * e := fun q _ => by
    rw [← mul_sub, abs_mul]
    exact mul_le_mul (hx q) ((h i hi j hj).2 q) (abs_nonneg _) ((abs_nonneg _).trans (hx q))
  have := sum_le_sum h1
  rw [sum_const, card_univ, Fintype.card_fin, nsmul_eq_mul] at this
  linarith

theorem pencil_near (h : DataNear e F F' F0 F0' m) {x : Fin k → ℝ} (hx : ∀ q, |x q| ≤ R) {i j : ℕ} (hi : i < m) (hj : j < m) : |pencil F' F0' x i j - pencil F F0 x i j| ≤ (1 + k * R) * e := by
  have h1 := combo_near h hx hi hj
  have h2 := (h i hi j hj).1
  have e1 : pencil F' F0' x i j - pencil F F0 x i j = (F0' i j - F0 i j) - (combo F' x i j - combo F x i j) := by unfold pencil combo; ring
  rw [e1]
  refine (abs_sub _ _).trans ?_
  linarith

theorem gram_near (h : DataNear e F F' F0 F0' m) (he : 0 ≤ e) (hR : 0 ≤ R) {x : Fin k → ℝ} (hx : ∀ q, |x q| ≤ R) (t : ℝ) {i j : ℕ} (hi : i < m) (hj : j < m) :
    |tiMinusGram m t (pencil F' F0' x) i j - tiMinusGram m t (pencil F F0 x) i j| ≤ m * ((1 + k * R) * e * (2 * (entrySum F F0 m * (1 + R)) + (1 + k * R) * e)) := by
  set P := entrySum F F0 m * (1 + R) with hP
  set c := (1 + k * R) * e with hc
  have hc0 : 0 ≤ c := by positivity
  have hP0 : 0 ≤ P := mul_nonneg (entrySum_nonneg F F0 m) (by linarith)
  have e1 : tiMinusGram m t (pencil F' F0' x) i j - tiMinusGram m t (pencil F F0 x) i j =
      ∑ l ∈ range m, (pencil F F0 x l i * pencil F F0 x l j - pencil F' F0' x l i * pencil F' F0' x l j) := by
    unfold tiMinusGram
    rw [sum_sub_distrib]
    ring
  rw [e1]
  refine (abs_sum_le_sum_abs _ _).trans ?_
  have h1 : ∀ l ∈ range m, |pencil F F0 x l i * pencil F F0 x l j - pencil F' F0' x l i * pencil F' F0' x l j| ≤ c * (2 * P + c) := fun l hl => by
    rw [mem_range] at hl
    have a1 := pencil_near h hx hl hi
    have a2 := pencil_near h hx hl hj
    have a3 : |pencil F F0 x l i| ≤ P := (abs_pencil_le F F0 x l i).trans (pencil_abs_le F F0 hl hi hx hR)
    have a4 : |pencil F F0 x l j| ≤ P := (abs_pencil_le F F0 x l j).trans (pencil_abs_le F F0 hl hj hx hR)
    have a5 : pencil F F0 x l i * pencil F F0 x l j - pencil F' F0' x l i * pencil F' F0' x l j =
        -((pencil F' F0' x l i - pencil F F0 x l i) * pencil F F0 x l j + pencil F F0 x l i * (pencil F' F0' x l j - pencil F F0 x l j) +
          (pencil F' F0' x l i - pencil F F0 x l i) * (pencil F' F0' x l j - pencil F F0 x l j)) := by ring
    rw [a5, abs_neg]
    refine (abs_add_le _ _).trans ((add_le_add_left (abs_add_le _ _) _).trans ?_)
    rw [abs_mul, abs_mul, abs_mul]
    have b1 := mul_le_mul a1 a4 (abs_nonneg _) hc0
    have b2 := mul_le_mul a3 a2 (abs_nonneg _) hP0
    have b3 := mul_le_mul a1 a2 (abs_nonneg _) hc0
    linarith
  have := sum_le_sum h1
  rwa [sum_const, card_range, nsmul_eq_mul] at this

theorem atLeast_near {A A' : ℕ → ℕ → ℝ} {c μ : ℝ} (hc : 0 ≤ c) (h : ∀ i < m, ∀ j < m, |A' i j - A i j| ≤ c) (hA : AtLeast μ A m) : AtLeast (μ - m * c) A' m := fun y => by
  have h1 := quadOn_sub A' A 0 m y
  have h2 := neg_quadOn_le (A := fun i j => A' i j - A i j) (P := fun _ _ => c) h y
  have h3 := quadOn_abs_le (P := fun _ _ => c) (e := m) (M := c) (fun _ _ _ _ => le_rfl) hc y
  have h4 := hA y
  linarith

/-- Both inequalities, from the data to the stored data and back. -/
theorem both_near (h : DataNear e F F' F0 F0' m) (he : 0 ≤ e) (hR : 0 ≤ R) {x : Fin (k + 1) → ℝ} (hx : ∀ q, |x q| ≤ R) (μ : ℝ) :
    (AtLeast μ (combo F (Fin.init x)) m → AtLeast (μ - dataUnit F F0 m R e) (combo F' (Fin.init x)) m) ∧
    (AtLeast μ (tiMinusGram m (x (Fin.last k)) (pencil F F0 (Fin.init x))) m → AtLeast (μ - dataUnit F F0 m R e) (tiMinusGram m (x (Fin.last k)) (pencil F' F0' (Fin.init x))) m) ∧
    (AtLeast μ (combo F' (Fin.init x)) m → AtLeast (μ - dataUnit F F0 m R e) (combo F (Fin.init x)) m) ∧
    (AtLeast μ (tiMinusGram m (x (Fin.last k)) (pencil F' F0' (Fin.init x))) m → AtLeast (μ - dataUnit F F0 m R e) (tiMinusGram m (x (Fin.last k)) (pencil F F0 (Fin.init x))) m) := by
  have hx' : ∀ q, |Fin.init x q| ≤ R := fun q => hx q.castSucc
  have hP0 : 0 ≤ entrySum F F0 m * (1 + R) := mul_nonneg (entrySum_nonneg F F0 m) (by linarith)
  have c1 : 0 ≤ k * R * e := by positivity
  set c2 := m * ((1 + k * R) * e * (2 * (entrySum F F0 m * (1 + R)) + (1 + k * R) * e)) with hc2
  have h2 : 0 ≤ c2 := by positivity
  have le1 : (m : ℝ) * (k * R * e) ≤ dataUnit F F0 m R e := by
    unfold dataUnit
    rw [← hc2]
    have : 0 ≤ m * c2 := by positivity
    have : 0 ≤ m * e := by positivity
    linarith
  have le2 : m * c2 ≤ dataUnit F F0 m R e := by
    unfold dataUnit
    rw [← hc2]
    have : 0 ≤ m * ((1 + k * R) * e) := by positivity
    linarith
  have n1 : ∀ i < m, ∀ j < m, |combo F' (Fin.init x) i j - combo F (Fin.init x) i j| ≤ k * R * e := fun i hi j hj => combo_near h hx' hi hj
  have n2 : ∀ i < m, ∀ j < m, |tiMinusGram m (x (Fin.last k)) (pencil F' F0' (Fin.init x)) i j - tiMinusGram m (x (Fin.last k)) (pencil F F0 (Fin.init x)) i j| ≤ c2 :=
    fun i hi j hj => gram_near h he hR hx' _ hi hj
  exact ⟨fun a => (atLeast_near c1 n1 a).mono (by linarith), fun a => (atLeast_near h2 n2 a).mono (by linarith),
    fun a => (atLeast_near c1 (fun i hi j hj => by rw [abs_sub_comm]; exact n1 i hi j hj) a).mono (by linarith),
    fun a => (atLeast_near h2 (fun i hi j hj => by rw [abs_sub_comm]; exact n2 i hi j hj) a).mono (by linarith)⟩

theorem entrySum_near (h : DataNear e F F' F0 F0' m) (he1 : e ≤ 1) : entrySum F' F0' m ≤ entrySum F F0 m + m * (m * (1 + k)) := by
  have h1 : ∀ i ∈ range m, ∑ j ∈ range m, (|F0' i j| + ∑ q, |F' q i j|) ≤ ∑ j ∈ range m, (|F0 i j| + ∑ q, |F q i j|) + m * (1 + k) := fun i hi => by
    have h2 : ∀ j ∈ range m, |F0' i j| + ∑ q, |F' q i j| ≤ (|F0 i j| + ∑ q, |F q i j|) + (1 + k) := fun j hj => by
      obtain ⟨a1, a2⟩ := h i (mem_range.1 hi) j (mem_range.1 hj)
      have b1 := abs_add_le (F0' i j - F0 i j) (F0 i j)
      rw [sub_add_cancel] at b1
      have b2 : ∀ q ∈ (univ : Finset (Fin k)), |F' q i j| ≤ |F q i j| + 1 := fun q _ => by
        have := abs_add_le (F' q i j - F q i j) (F q i j)
        rw [sub_add_cancel] at this
        linarith [a2 q]
      have b3 := sum_le_sum b2
      rw [sum_add_distrib, sum_const, card_univ, Fintype.card_fin, nsmul_eq_mul, mul_one] at b3
      linarith
    refine (sum_le_sum h2).trans (le_of_eq ?_)
    rw [sum_add_distrib (f := fun j => |F0 i j| + ∑ q, |F q i j|), sum_const, card_range, nsmul_eq_mul]
  refine (sum_le_sum h1).trans (le_of_eq ?_)
  rw [sum_add_distrib, sum_const, card_range, nsmul_eq_mul]
  rfl

/-- **C146** (fits on rounded data).  As `C139_lsq`, but `F`, `F0` are the intended matrices and the run works on stored matrices `F'`, `F0'` with entries within `e₀` of them, `F'` symmetric.  The level it reaches is measured against
the intended problem, and the point found satisfies the intended inequalities up to `ν`. -/
theorem C146_lsq {E₀ : Ell (k + 1)} (hE : E₀.Proper) {z : Fin (k + 1) → ℝ} {μ₀ ρ ν : ℝ} (hμ : 0 < μ₀) (hz1 : AtLeast μ₀ (combo F (Fin.init z)) m)
    (hz2 : AtLeast 0 (tiMinusGram m (z (Fin.last k)) (pencil F F0 (Fin.init z))) m) (hρ : 0 < ρ) (hin : euclBall z ρ ⊆ E₀.pts) (hν : 0 < ν) :
    ∃ (N : ℕ) (ζ₀ e₀ tol₀ : ℝ), 0 < ζ₀ ∧ 0 < e₀ ∧ 0 < tol₀ ∧ ∀ F' F0', (∀ q, SymOn (F' q) m) → DataNear e₀ F F' F0 F0' m →
      ∀ u, 0 ≤ u → u ≤ ζ₀ → ∀ fl dot vdot, RelErr u fl → DotErr u m dot → DotLocal dot → VecDotErr u vdot → ∀ tol, tol ≤ tol₀ →
      ∀ (t0 : WithTop ℝ) (o : LsqOracle ℝ), Ready m o.lmi0 → Ready m o.qmi.Q →
      let Ω := fun x t => liftOracle (lsqOmegaF fl dot F' F0' m x t)
      let S := (Ell.spaceF fl vdot).beside (LsqOracle ℝ)
      (∀ im : Int, (N : Int) ≤ im → ∀ w' xb t info, cuttingPlaneDc Ω S t0 ⟨im, tol⟩ (o, E₀) = .ok (w', xb, t, info) → t ≤ ((z (Fin.last k) + ν : ℝ) : WithTop ℝ)) ∧
      (((z (Fin.last k) + ν : ℝ) : WithTop ℝ) < t0 → ∃ (j : ℕ) (log : _) (p : LsqOracle ℝ × Ell (k + 1)), j < N ∧ DcRounds Ω S tol t0 (o, E₀) j log p ∧
        ∃ o' cut, lsqOmegaF fl dot F' F0' m p.2.xc (bestT t0 log) p.1 = .ok (o', cut, some ((p.2.xc (Fin.last k) : ℝ) : WithTop ℝ)) ∧ p.2.xc (Fin.last k) ≤ z (Fin.last k) + ν ∧
          LsqFound F F0 m ν p.2.xc) := by
  obtain ⟨a, r, A₀, hr0, hA0, -, hball, hKA, hKp⟩ := lsq_room (F0 := F0) hμ hz1 hz2 hρ hin hν
  have hne : a ∈ euclBall a r := by
    change ∑ q, (a q - a q) ^ 2 ≤ r ^ 2
    simp only [sub_self, ne_eq, OfNat.ofNat_ne_zero, not_false_eq_true, zero_pow, sum_const_zero]
    positivity
  have hpos : 0 < volume.real (euclBall a r ∩ E₀.pts) := by
    rw [Set.inter_eq_left.2 hball, vol_ball hE.dim hr0]
    have := euclBall_real_pos (n := k + 1)
    positivity
  obtain ⟨N, L, ε₀, hε₀, C, η', θ', l, q, L₀, v', hS⟩ := C134_precise hE hKA hpos
  set R := A₀ + √L with hR
  have hR0 : 0 ≤ R := by positivity
  set g := entrySum F F0 m + m * (m * (1 + k)) with hg
  have hg0 : 0 ≤ g := add_nonneg (entrySum_nonneg F F0 m) (by positivity)
  set M := R + g * (1 + R) + m * (g * (1 + R)) ^ 2 with hM
  set η : ℝ → ℝ := fun u => (1 + u) ^ (k + 2) - 1 with hη
  set δ : ℝ → ℝ := fun u => (1 + u) * ((1 + u) * ((1 + η u) * (1 + η u))) - 1 with hδ
  set ζ : ℝ → ℝ := fun u => (1 + u) * ((1 + u) * ((1 + u) * ((1 + u) * (1 + η u)))) - 1 with hζ
  obtain ⟨s1, hs1, hs1'⟩ := small_of_cont (g := fun u => 2 * ((26 * (3 * u + 2 * u) + 2 * δ u + 4 * ζ u + 6 * u + 2 * u) * ((m + 1) * M))) (c := min (r / 2) ν)
    (by simp only [hδ, hζ, hη]; fun_prop) (by simp [hδ, hζ, hη]; exact ⟨hr0, hν⟩)
  obtain ⟨s2, hs2, hs2'⟩ := small_of_cont (g := δ) (c := 1 / 10) (by simp only [hδ, hη]; fun_prop) (by simp [hδ, hη])
  obtain ⟨e1, he1, he1'⟩ := small_of_cont (g := fun e => dataUnit F F0 m R e) (c := min (r / 2) (ν / 2)) (by simp only [dataUnit]; fun_prop) (by simp [dataUnit]; exact ⟨hr0, hν⟩)
  refine ⟨N, min (min s1 s2) (min ε₀ (1 / 50)), min e1 1, 199 / 200 * (r / 2 / 2) ^ 2, by positivity, by positivity, by positivity,
    fun F' F0' hF' hnear u hu0 hu fl dot vdot hfl hdot hloc hvdot tol htol t0 o h0 hQ => ?_⟩
  have he0 : 0 ≤ min e1 1 := by positivity
  have hpert := he1' (min e1 1) he0 (min_le_left _ _)
  have k1 : u ≤ s1 := hu.trans ((min_le_left _ _).trans (min_le_left _ _))
  have k2 : u ≤ s2 := hu.trans ((min_le_left _ _).trans (min_le_right _ _))
  have k3 : u ≤ ε₀ := hu.trans ((min_le_right _ _).trans (min_le_left _ _))
  have k4 : u ≤ 1 / 50 := hu.trans ((min_le_right _ _).trans (min_le_right _ _))
  have hvdot' : VecDotErr ε₀ vdot := fun x y => (hvdot x y).trans (mul_le_mul_of_nonneg_right k3 (Finset.sum_nonneg fun i _ => abs_nonneg _))
  have hη0 : 0 ≤ η u := by have := one_le_pow₀ (show 1 ≤ 1 + u by linarith) (n := k + 2); rw [hη]; dsimp only; linarith
  have hδ0 : 0 ≤ δ u := by
    have := one_le_mul_of_one_le_of_one_le (show 1 ≤ 1 + u by linarith) (one_le_mul_of_one_le_of_one_le (show 1 ≤ 1 + u by linarith)
      (one_le_mul_of_one_le_of_one_le (show 1 ≤ 1 + η u by linarith) (show 1 ≤ 1 + η u by linarith)))
    rw [hδ]; dsimp only; linarith
  have hζ0 : 0 ≤ ζ u := by
    have h1u : 1 ≤ 1 + u := by linarith
    have := one_le_mul_of_one_le_of_one_le h1u (one_le_mul_of_one_le_of_one_le h1u (one_le_mul_of_one_le_of_one_le h1u
      (one_le_mul_of_one_le_of_one_le h1u (show 1 ≤ 1 + η u by linarith))))
    rw [hζ]; dsimp only; linarith
  have hsize : lsqUnit F' F0' m R u u (δ u) (ζ u) ≤ (26 * (3 * u + 2 * u) + 2 * δ u + 4 * ζ u + 6 * u + 2 * u) * ((m + 1) * M) := by
    unfold lsqUnit
    refine mul_le_mul_of_nonneg_left (mul_le_mul_of_nonneg_left ?_ (by positivity)) (by positivity)
    have h1 := mul_le_mul_of_nonneg_right (entrySum_near hnear (min_le_right _ _)) (show 0 ≤ 1 + R by linarith)
    have h2 := mul_nonneg (entrySum_nonneg F' F0' m) (show 0 ≤ 1 + R by linarith)
    have h3 := mul_le_mul_of_nonneg_left (pow_le_pow_left₀ h2 h1 2) (Nat.cast_nonneg (α := ℝ) m)
    unfold lsqSize
    rw [hM]
    linarith
  have hsm := hs1' u hu0 k1
  generalize (26 * (3 * u + 2 * u) + 2 * δ u + 4 * ζ u + 6 * u + 2 * u) * ((m + 1) * M) = U at hsize hsm
  have hsure := hS ε₀ u hu0 k3 le_rfl {x | ∀ i, |x i| ≤ R} fun x hx i => hx i
  have hKR : ∀ y ∈ euclBall a r, ∀ i, |y i| ≤ R := fun y hy i => (hKA y hy i).trans (by linarith [Real.sqrt_nonneg L])
  have hKp' : ∀ y ∈ euclBall a r, AtLeast (r / 2) (combo F' (Fin.init y)) m ∧ AtLeast (r / 2) (tiMinusGram m (y (Fin.last k)) (pencil F' F0' (Fin.init y))) m ∧
      y (Fin.last k) + r / 2 ≤ z (Fin.last k) + ν := fun y hy => by
    obtain ⟨b1, b2, b3⟩ := hKp y hy
    obtain ⟨n1, n2, -, -⟩ := both_near hnear he0 hR0 (hKR y hy) r
    have := hpert.trans (min_le_left _ _)
    exact ⟨(n1 b1).mono (by linarith), (n2 b2).mono (by linarith), by linarith⟩
  have e1 : (1 + u) ^ (k + 2) ≤ 1 + η u := le_of_eq (by rw [hη]; ring)
  have e2 : (1 + u) * ((1 + u) * ((1 + η u) * (1 + η u))) ≤ 1 + δ u := le_of_eq (by rw [hδ]; ring)
  have e3 : (1 + u) * ((1 + u) * ((1 + u) * ((1 + u) * (1 + η u)))) ≤ 1 + ζ u := le_of_eq (by rw [hζ]; ring)
  have hkeep := lsq_keeps (N := N) (tol := tol) (ε := ε₀) (T := z (Fin.last k) + ν) hF' hfl hu0 hu0 hdot hloc (by linarith) e1 e2 e3 (hs2' u hu0 k2) (half_pos hr0) hε₀.le ⟨a, hne⟩ hKR hKp'
    (by have := hsm.trans (min_le_left _ _); linarith) htol
  obtain ⟨r1, r2⟩ := C138_dc (t0 := t0) (w₀ := o) hsure hE hfl hu0 k3 hvdot' hkeep ⟨h0, hQ⟩
  refine ⟨fun im hm w' xb t info h => not_lt.1 (r1 im hm w' xb t info h), fun hbad => ?_⟩
  obtain ⟨j, log, p, q1, q2, q3, q4, q5, q6⟩ := r2 hbad
  refine ⟨j, log, p, q1, q5, ?_⟩
  rcases q6 with ⟨o', cut, t1, q6, q7⟩ | ⟨e, q6, -⟩
  · cases t1 with
    | none => exact absurd q4 q7
    | some s =>
      obtain ⟨o1, cut1, t1, h1, -, -, h4⟩ := C139_oracle (F0 := F0') (t := bestT t0 log) hF' hfl hu0 hu0 hdot hloc (by linarith) e1 e2 e3 (hs2' u hu0 k2) q2 q3.1 q3.2
      have hq6 := q6
      simp only [lsqOmegaF, dcAnswer, h1, Except.map, Except.ok.injEq, Prod.mk.injEq] at hq6
      obtain ⟨h5, -, h6⟩ := h4.found s hq6.2.2
      subst h5
      refine ⟨o', cut, q6, ?_, ?_⟩
      · have := not_lt.1 q7
        rwa [Option.getD_some, WithTop.coe_le_coe] at this
      · have hle := hsm.trans (min_le_right _ _)
        have hpe := hpert.trans (min_le_right _ _)
        obtain ⟨-, -, n3, n4⟩ := both_near hnear he0 hR0 q2 (-lsqUnit F' F0' m R u u (δ u) (ζ u))
        exact ⟨(n3 h6.psd).mono (by linarith), (n4 h6.fit).mono (by linarith)⟩
  · exact q6.elim

/-- **C146** (the returned point).  As `C139_returned`, for a run on stored data: a point with entries of at most `B` satisfies the intended inequalities up to `ν`. -/
theorem C146_returned (F : Fin k → ℕ → ℕ → ℝ) (F0 : ℕ → ℕ → ℝ) (m : ℕ) {B ν : ℝ} (hB : 0 ≤ B) (hν : 0 < ν) :
    ∃ ζ₀ e₀ : ℝ, 0 < ζ₀ ∧ 0 < e₀ ∧ ∀ F' F0', (∀ q, SymOn (F' q) m) → DataNear e₀ F F' F0 F0' m → ∀ u, 0 ≤ u → u ≤ ζ₀ → ∀ fl dot, RelErr u fl → DotErr u m dot → DotLocal dot →
      ∀ {V : Type} (S : Space V (Fin (k + 1) → ℝ) ((Fin (k + 1) → ℝ) × Beta) ℝ) (op : Options ℝ) (t0 : WithTop ℝ) (o o' : LsqOracle ℝ) (v v' : V) xb t info, Ready m o.lmi0 → Ready m o.qmi.Q →
      cuttingPlaneDc (fun x t => liftOracle (lsqOmegaF fl dot F' F0' m x t)) (S.beside _) t0 op (o, v) = .ok ((o', v'), xb, t, info) →
      (xb = none ∧ t = t0) ∨ ∃ x, xb = some x ∧ t = ((x (Fin.last k) : ℝ) : WithTop ℝ) ∧ t ≤ t0 ∧ ((∀ q, |x q| ≤ B) → LsqFound F F0 m ν x) := by
  set g := entrySum F F0 m + m * (m * (1 + k)) with hg
  have hg0 : 0 ≤ g := add_nonneg (entrySum_nonneg F F0 m) (by positivity)
  set η : ℝ → ℝ := fun u => (1 + u) ^ (k + 2) - 1 with hη
  set δ : ℝ → ℝ := fun u => (1 + u) * ((1 + u) * ((1 + η u) * (1 + η u))) - 1 with hδ
  obtain ⟨s1, hs1, hs1'⟩ := small_of_cont (g := fun u => (5 / 4 * (3 * u + 2 * u) * (1 + η u) + η u) * m * (g * B)) (c := ν / 2) (by simp only [hη]; fun_prop) (by simpa [hη] using hν)
  obtain ⟨s2, hs2, hs2'⟩ := small_of_cont (g := fun u => (5 / 4 * (3 * u + 2 * u) * (1 + δ u) + δ u) * m * (B + m * (g * (1 + B)) ^ 2)) (c := ν / 2) (by simp only [hδ, hη]; fun_prop) (by simpa [hδ, hη] using hν)
  obtain ⟨e1, he1, he1'⟩ := small_of_cont (g := fun e => dataUnit F F0 m B e) (c := ν / 2) (by simp only [dataUnit]; fun_prop) (by simp [dataUnit]; exact hν)
  refine ⟨min (min s1 s2) (1 / 50), min e1 1, by positivity, by positivity, fun F' F0' hF' hnear u hu0 hu fl dot hfl hdot hloc V S op t0 o o' v v' xb t info h0 hQ h => ?_⟩
  have k1 : u ≤ s1 := hu.trans ((min_le_left _ _).trans (min_le_left _ _))
  have k2 : u ≤ s2 := hu.trans ((min_le_left _ _).trans (min_le_right _ _))
  have k3 : u ≤ 1 / 50 := hu.trans (min_le_right _ _)
  have he0 : 0 ≤ min e1 1 := by positivity
  have hpe := he1' (min e1 1) he0 (min_le_left _ _)
  have hsum := entrySum_near hnear (min_le_right _ _)
  rcases C121_lsq (η := η u) (δ := δ u) hF' hfl hu0 (by linarith) hu0 hdot hloc (by linarith) (le_of_eq (by rw [hη]; ring)) (le_of_eq (by rw [hδ]; ring)) h0 hQ h with h | ⟨x, h1, h2, h3, h4⟩
  · exact .inl h
  · refine .inr ⟨x, h1, h2, h3, fun hx => ?_⟩
    have w1 := hs1' u hu0 k1
    have w2 := hs2' u hu0 k2
    have p1 := (h4 (g * B) (by positivity)).1 fun i hi j hj => (combo_abs_le F' F0' hi hj (fun q => hx q.castSucc) hB).trans (mul_le_mul_of_nonneg_right hsum hB)
    have p2 := (h4 (B + m * (g * (1 + B)) ^ 2) (by positivity)).2 fun i hi j hj => (gram_abs_le F' F0' hi hj (fun q => hx q.castSucc) (hx _)).trans <| by
      have h2 := mul_nonneg (entrySum_nonneg F' F0' m) (show 0 ≤ 1 + B by linarith)
      have h3 := mul_le_mul_of_nonneg_left (pow_le_pow_left₀ h2 (mul_le_mul_of_nonneg_right hsum (show 0 ≤ 1 + B by linarith)) 2) (Nat.cast_nonneg (α := ℝ) m)
      linarith
    generalize (5 / 4 * (3 * u + 2 * u) * (1 + η u) + η u) * m * (g * B) = U₁ at w1 p1
    generalize (5 / 4 * (3 * u + 2 * u) * (1 + δ u) + δ u) * m * (B + m * (g * (1 + B)) ^ 2) = U₂ at w2 p2
    exact ⟨((both_near hnear he0 hB hx _).2.2.1 p1).mono (by linarith), ((both_near hnear he0 hB hx _).2.2.2 p2).mono (by linarith)⟩

variable {n d : ℕ}

/-- Powers of the distances between the sites. -/
noncomputable def distPow (s : Fin n → Fin d → ℝ) (q : ℕ) (i j : Fin n) : ℝ := dist (WithLp.toLp 2 (s i) : EuclideanSpace ℝ (Fin d)) (WithLp.toLp 2 (s j)) ^ q

/-- **C146** (the whole fit of `lsq_corr_poly`).  Sites `s`, data `Y`: the intended problem is to fit `Y` by `∑_q y_q D^q`, `D` the distances.  If this has an admissible `z` with `∑_q z_q D^q` definite, inside the start ellipsoid, then
with enough bits the run — distances, powers, oracle, ellipsoid all rounded — returns a point with a level of at most `z_last + ν` that fits `Y` with the exact powers of the exact distances up to `ν`. -/
theorem C146_bits (s : Fin n → Fin d → ℝ) (Y : Fin n → Fin n → ℝ) {E₀ : Ell (k + 1)} (hE : E₀.Proper) {z : Fin (k + 1) → ℝ} {μ₀ ρ ν B : ℝ} (hμ : 0 < μ₀)
    (hz1 : AtLeast μ₀ (combo (fun q : Fin k => npArr (distPow s q)) (Fin.init z)) n)
    (hz2 : AtLeast 0 (tiMinusGram n (z (Fin.last k)) (pencil (fun q : Fin k => npArr (distPow s q)) (npArr Y) (Fin.init z))) n) (hρ : 0 < ρ) (hin : euclBall z ρ ⊆ E₀.pts) (hν : 0 < ν) (hB : 0 ≤ B) :
    ∃ (N p₀ : ℕ) (tol₀ : ℝ), 0 < tol₀ ∧ ∀ p fl, p₀ ≤ p → Nearest p fl → ∀ tol, tol ≤ tol₀ → ∀ (t0 : WithTop ℝ) (o : LsqOracle ℝ), Ready n o.lmi0 → Ready n o.qmi.Q →
      ((z (Fin.last k) + ν : ℝ) : WithTop ℝ) < t0 →
      let F := fun q : Fin k => npArr (distPow s q)
      let F' := fun q : Fin k => npArr ((polyMatrixF fl (vecDot fl) s k).getD q 0)
      let Ω := fun x t => liftOracle (lsqOmegaF fl (seqDot fl) F' (npArr Y) n x t)
      let S := (Ell.spaceF fl (vecDot fl)).beside (LsqOracle ℝ)
      (∀ im : Int, (N : Int) ≤ im → ∀ o' E' xb t info, cuttingPlaneDc Ω S t0 ⟨im, tol⟩ (o, E₀) = .ok ((o', E'), xb, t, info) →
        ∃ x, xb = some x ∧ t = ((x (Fin.last k) : ℝ) : WithTop ℝ) ∧ x (Fin.last k) ≤ z (Fin.last k) + ν ∧ ((∀ q, |x q| ≤ B) → LsqFound F (npArr Y) n ν x)) ∧
      ∃ (j : ℕ) (log : _) (P : LsqOracle ℝ × Ell (k + 1)), j < N ∧ DcRounds Ω S tol t0 (o, E₀) j log P ∧
        ∃ o' cut, lsqOmegaF fl (seqDot fl) F' (npArr Y) n P.2.xc (bestT t0 log) P.1 = .ok (o', cut, some ((P.2.xc (Fin.last k) : ℝ) : WithTop ℝ)) ∧ P.2.xc (Fin.last k) ≤ z (Fin.last k) + ν ∧
          LsqFound F (npArr Y) n ν P.2.xc := by
  have hk : 1 ≤ k := by have := hE.dim; omega
  obtain ⟨N, ζ₀, e₀, tol₀, h1, g1, h2, h3⟩ := C146_lsq (F0 := npArr Y) hE hμ hz1 hz2 hρ hin hν
  obtain ⟨ζ₁, e₁, h4, g4, h5⟩ := C146_returned (fun q : Fin k => npArr (distPow s q)) (npArr Y) n hB hν
  set Δ : ℝ := ∑ i, ∑ j, ∑ q ∈ range k, distPow s q i j with hΔ
  have hpow : ∀ q i j, 0 ≤ distPow s q i j := fun q i j => by unfold distPow; positivity
  have hΔ' : ∀ q < k, ∀ i j, distPow s q i j ≤ Δ := fun q hq i j =>
    (single_le_sum (f := fun q => distPow s q i j) (fun q _ => hpow q i j) (mem_range.2 hq)).trans <|
    (single_le_sum (f := fun j => ∑ q ∈ range k, distPow s q i j) (fun j _ => sum_nonneg fun q _ => hpow q i j) (mem_univ j)).trans
    (single_le_sum (f := fun i => ∑ j, ∑ q ∈ range k, distPow s q i j) (fun i _ => sum_nonneg fun j _ => sum_nonneg fun q _ => hpow q i j) (mem_univ i))
  have hΔ0 : 0 ≤ Δ := sum_nonneg fun i _ => sum_nonneg fun j _ => sum_nonneg fun q _ => hpow q i j
  obtain ⟨s1, hs1, hs1'⟩ := small_of_cont (g := fun u => (1 + u) ^ (n + k + d + 3) - 1) (c := min (min ζ₀ ζ₁) 1) (by fun_prop) (by simpa using ⟨h1, h4⟩)
  obtain ⟨s2, hs2, hs2'⟩ := small_of_cont (g := fun u => (((1 + ((1 + u) ^ (n + k + d + 3) - 1)) ^ 3 * (1 + ((1 + u) ^ (n + k + d + 3) - 1))) ^ k - 1) * Δ) (c := min e₀ e₁) (by fun_prop) (by simpa using ⟨g1, g4⟩)
  obtain ⟨p₀, hp₀⟩ := exists_pow_lt_of_lt_one (lt_min hs1 hs2) (show (1 / 2 : ℝ) < 1 by norm_num)
  refine ⟨N, p₀, tol₀, h2, fun p fl hp hfl tol htol t0 o h0 hQ hbad => ?_⟩
  have hup : (1 / 2 ^ p : ℝ) ≤ min s1 s2 := by
    rw [show (1 / 2 ^ p : ℝ) = (1 / 2) ^ p by rw [_root_.one_div_pow]]
    exact (pow_le_pow_of_le_one (by norm_num) (by norm_num) hp).trans hp₀.le
  have hr := hfl.relErr
  have hu0 : (0 : ℝ) ≤ 1 / 2 ^ p := by positivity
  have hsm := hs1' _ hu0 (hup.trans (min_le_left _ _))
  have hsm2 := hs2' _ hu0 (hup.trans (min_le_right _ _))
  generalize hu : (1 / 2 ^ p : ℝ) = u at *
  set w := (1 + u) ^ (n + k + d + 3) - 1 with hw
  have hmono : ∀ i, i ≤ n + k + d + 3 → (1 + u) ^ i - 1 ≤ w := fun i hi => sub_le_sub_right (pow_le_pow_right₀ (by linarith) hi) 1
  have hw0 : 0 ≤ w := by have := hmono 0 (by omega); simpa using this
  have huw : u ≤ w := by have := hmono 1 (by omega); simpa using this
  have r1 : RelErr w fl := fun x => (hr x).trans (mul_le_mul_of_nonneg_right huw (abs_nonneg _))
  have r2 : DotErr w n (seqDot fl) := fun s e x y he => (seqDot_err hr hu0 n s e x y he).trans (mul_le_mul_of_nonneg_right (hmono _ (by omega)) (Finset.sum_nonneg fun _ _ => abs_nonneg _))
  have r3 : VecDotErr w (vecDot (n := k + 1) fl) := fun x y => (vecDot_err hr hu0 x y).trans (mul_le_mul_of_nonneg_right (hmono _ (by omega)) (Finset.sum_nonneg fun _ _ => abs_nonneg _))
  have r4 : VecDotErr w (vecDot (n := d) fl) := fun x y => (vecDot_err hr hu0 x y).trans (mul_le_mul_of_nonneg_right (hmono _ (by omega)) (Finset.sum_nonneg fun _ _ => abs_nonneg _))
  have hw1 := hsm.trans (min_le_right _ _)
  obtain ⟨l1, l2⟩ := C146_poly r1 hw0 hw1 hw0 hw1 r4 s k hk
  have hlen : ∀ q : Fin k, (q : ℕ) < (polyMatrixF fl (vecDot fl) s k).length := fun q => by rw [l1]; exact q.2
  have hget : ∀ q : Fin k, (polyMatrixF fl (vecDot fl) s k).getD q 0 = (polyMatrixF fl (vecDot fl) s k)[(q : ℕ)]'(hlen q) := fun q => (List.getElem_eq_getD 0).symm
  have hsym : ∀ q : Fin k, SymOn (npArr ((polyMatrixF fl (vecDot fl) s k).getD q 0)) n := fun q i j hi hj => by
    simp only [npArr, hi, hj, and_self, dite_true, hget]
    exact (l2 q _ _ (hlen q)).1
  have hnear : ∀ e, min e₀ e₁ ≤ e → DataNear e (fun q : Fin k => npArr (distPow s q)) (fun q : Fin k => npArr ((polyMatrixF fl (vecDot fl) s k).getD q 0)) (npArr Y) (npArr Y) n := fun e he i hi j hj => by
    have he0 : 0 ≤ e := (le_min g1.le g4.le).trans he
    refine ⟨by simpa using he0, fun q => ?_⟩
    simp only [npArr, hi, hj, and_self, dite_true, hget]
    refine (l2 q ⟨i, hi⟩ ⟨j, hj⟩ (hlen q)).2.trans (le_trans ?_ (hsm2.trans he))
    have b1 : 1 ≤ (1 + w) ^ 3 * (1 + w) := one_le_mul_of_one_le_of_one_le (one_le_pow₀ (by linarith)) (by linarith)
    refine mul_le_mul (sub_le_sub_right (pow_le_pow_right₀ b1 q.2.le) 1) (hΔ' q q.2 _ _) (hpow q _ _) ?_
    have := one_le_pow₀ b1 (n := k)
    linarith
  obtain ⟨q1, q2⟩ := h3 _ _ hsym (hnear _ (min_le_left _ _)) w hw0 (hsm.trans ((min_le_left _ _).trans (min_le_left _ _))) fl (seqDot fl) (vecDot fl) r1 r2 (seqDot_local fl) r3 tol htol t0 o h0 hQ
  refine ⟨fun im hm o' E' xb t info h => ?_, q2 hbad⟩
  have hle := q1 im hm (o', E') xb t info h
  rcases h5 _ _ hsym (hnear _ (min_le_right _ _)) w hw0 (hsm.trans ((min_le_left _ _).trans (min_le_right _ _))) fl (seqDot fl) r1 r2 (seqDot_local fl) _ _ t0 o o' E₀ E' xb t info h0 hQ h with ⟨-, h⟩ | ⟨x, a1, a2, a3, a4⟩
  · rw [h] at hle; exact absurd hbad (not_lt.2 hle)
  · rw [a2, WithTop.coe_le_coe] at hle
    exact ⟨x, a1, a2, hle, a4⟩

/-! ### Non-vacuity -/

/-- Two sites at distance 1 on a line, `Y = I`, one coefficient: `D^0` is `[[1,1],[1,1]]`, never definite; with two coefficients `2 D^0 - D^1 = [[2,1],[1,2]]` is.  `z = (2, -1, 4)`: `Y - 2 D^0 + D^1 = [[-1,-1],[-1,-1]]` has
norm 2.  `ell(100, 0)`, `t0 = inf`: a level of at most `4.01` is found. -/
example : ∃ (N p₀ : ℕ) (tol₀ : ℝ), 0 < tol₀ ∧ ∀ p fl, p₀ ≤ p → Nearest p fl →
    let s : Fin 2 → Fin 1 → ℝ := ![![0], ![1]]
    let F' := fun q : Fin 2 => npArr ((polyMatrixF fl (vecDot fl) s 2).getD q 0)
    let Y : ℕ → ℕ → ℝ := npArr ![![1, 0], ![0, 1]]
    ∃ (j : ℕ) (log : _) (P : LsqOracle ℝ × Ell 3), j < N ∧
      DcRounds (fun x t => liftOracle (lsqOmegaF fl (seqDot fl) F' Y 2 x t)) ((Ell.spaceF fl (vecDot fl)).beside (LsqOracle ℝ)) tol₀ ⊤
        (⟨⟨⟨0, 0, fun _ _ => 0⟩, CholExt.init 2⟩, CholExt.init 2⟩, ⟨true, false, 0, 1, 10 ^ 2⟩) j log P ∧ P.2.xc 2 ≤ 4.01 := by
  have hD : ∀ q : Fin 2, ∀ i j : Fin 2, distPow (![![0], ![1]] : Fin 2 → Fin 1 → ℝ) q i j = if i = j then (if q = 0 then 1 else 0) else 1 := fun q i j => by
    rw [distPow, EuclideanSpace.dist_eq]
    fin_cases q <;> fin_cases i <;> fin_cases j <;> simp
  obtain ⟨N, p₀, tol₀, h1, h⟩ := C146_bits (k := 2) (![![0], ![1]] : Fin 2 → Fin 1 → ℝ) ![![1, 0], ![0, 1]] (E₀ := ⟨true, false, 0, 1, 10 ^ 2⟩) (z := ![2, -1, 4]) (μ₀ := 1) (ρ := 1) (ν := 0.01) (B := 10)
    ⟨by norm_num, PosDef.one, by norm_num⟩ one_pos (fun y => by
      simp [quadOn, combo, Fin.init, npArr, hD, Finset.sum_range_succ]
      linarith [sq_nonneg (y 0 + y 1)])
    (fun y => by
      simp [quadOn, tiMinusGram, pencil, Fin.init, npArr, hD, Finset.sum_range_succ]
      linarith [sq_nonneg (y 0 - y 1)]) one_pos (by
      rw [euclBall_eq_pts (by norm_num)]
      intro z hz
      have w0 := ball_coord zero_le_one hz 0
      have w1 := ball_coord zero_le_one hz 1
      have w2 := ball_coord zero_le_one hz 2
      simp at w0 w1 w2
      rw [abs_le] at w0 w1 w2
      have w3 : z 0 ^ 2 ≤ 9 := by nlinarith
      have w4 : z 1 ^ 2 ≤ 4 := by nlinarith
      have w5 : z 2 ^ 2 ≤ 25 := by nlinarith
      refine (le_of_eq (Fin.sum_univ_three (fun x : Fin 3 => (z x - 0) ^ 2))).trans ?_
      simp only [sub_zero]
      linarith) (by norm_num) (by norm_num)
  refine ⟨N, p₀, tol₀, h1, fun p fl hp hfl => ?_⟩
  obtain ⟨j, log, P, q1, q2, o', cut, q3, q4, q5⟩ := (h p fl hp hfl tol₀ le_rfl ⊤ ⟨⟨⟨0, 0, fun _ _ => 0⟩, CholExt.init 2⟩, CholExt.init 2⟩ (ready_init 2) (ready_init 2) (WithTop.coe_lt_top _)).2
  refine ⟨j, log, P, q1, q2, ?_⟩
  have : P.2.xc (Fin.last 2) ≤ ![2, -1, 4] (Fin.last 2) + (0.01 : ℝ) := q4
  change P.2.xc (Fin.last 2) ≤ _
  refine this.trans ?_
  simp
  norm_num

end Verif
