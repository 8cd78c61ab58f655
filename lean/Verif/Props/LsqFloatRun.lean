import Verif.Props.EllFloatNear
import Verif.Proofs.LsqFloat
import Verif.Props.FloatRuns

/-!
# C139: least-squares fits with every operation rounded

`cutting_plane_dc` with `lsq_oracle` and `ell`, every operation of the oracle, of the two factorizations and of the ellipsoid rounded.
-/
namespace Verif
open FloatSpec Finset MeasureTheory Matrix Ell
variable {k m : ℕ} {u γ η δ ζ R : ℝ} {fl : ℝ → ℝ} {dot : ℕ → ℕ → (ℕ → ℝ) → (ℕ → ℝ) → ℝ} {F : Fin k → ℕ → ℕ → ℝ} {F0 : ℕ → ℕ → ℝ}

/-- **C139** (one call).  A rounded call of `lsq_oracle` on any object that can be reused raises nothing, and its answer is right up to `lsqUnit`. -/
theorem C139_oracle (hF : ∀ q, SymOn (F q) m) (hfl : RelErr u fl) (hu0 : 0 ≤ u) (hγ : 0 ≤ γ) (hdot : DotErr γ m dot) (hloc : DotLocal dot) (hθ : 3 * u + 2 * γ ≤ 1 / 10)
    (hη : (1 + u) ^ (k + 2) ≤ 1 + η) (hδ : (1 + u) * ((1 + γ) * ((1 + η) * (1 + η))) ≤ 1 + δ) (hζ : (1 + u) * ((1 + γ) * ((1 + γ) * ((1 + γ) * (1 + η)))) ≤ 1 + ζ) (hδ1 : δ ≤ 1 / 10)
    {x : Fin (k + 1) → ℝ} (hx : ∀ q, |x q| ≤ R) (t : WithTop ℝ) {o : LsqOracle ℝ} (h0 : Ready m o.lmi0) (hQ : Ready m o.qmi.Q) :
    ∃ o' cut t1, lsqCallF fl dot F F0 m x t o = .ok (o', cut, t1) ∧ Ready m o'.lmi0 ∧ Ready m o'.qmi.Q ∧ LsqAnswer F F0 m R (lsqUnit F F0 m R u γ δ ζ) x t cut t1 := by
  have hη0 : 0 ≤ η := by have := one_le_pow₀ (show 1 ≤ 1 + u by linarith) (n := k + 2); linarith
  have hηδ : η ≤ δ := by
    have e1 : 1 + η ≤ (1 + η) * (1 + η) := le_mul_of_one_le_left (by linarith) (by linarith)
    have e2 : (1 + η) * (1 + η) ≤ (1 + γ) * ((1 + η) * (1 + η)) := le_mul_of_one_le_left (by positivity) (by linarith)
    have e3 : (1 + γ) * ((1 + η) * (1 + η)) ≤ (1 + u) * ((1 + γ) * ((1 + η) * (1 + η))) := le_mul_of_one_le_left (by positivity) (by linarith)
    linarith
  have hδ0 : 0 ≤ δ := hη0.trans hηδ
  have hζ0 : 0 ≤ ζ := by
    have e1 : 1 ≤ (1 + γ) * (1 + η) := one_le_mul_of_one_le_of_one_le (by linarith) (by linarith)
    have e2 : 1 ≤ (1 + γ) * ((1 + γ) * (1 + η)) := one_le_mul_of_one_le_of_one_le (by linarith) e1
    have e3 : 1 ≤ (1 + γ) * ((1 + γ) * ((1 + γ) * (1 + η))) := one_le_mul_of_one_le_of_one_le (by linarith) e2
    have e4 := one_le_mul_of_one_le_of_one_le (show 1 ≤ 1 + u by linarith) e3
    linarith
  have hR : 0 ≤ R := (abs_nonneg _).trans (hx 0)
  set P := entrySum F F0 m * (1 + R) with hP
  have hP0 : 0 ≤ P := mul_nonneg (entrySum_nonneg F F0 m) (by linarith)
  set M := lsqSize F F0 m R with hM
  have hMe : M = R + P + m * P ^ 2 := by rw [hM, lsqSize]
  have hmP : (0 : ℝ) ≤ m * P ^ 2 := by positivity
  have hM0 : 0 ≤ M := by rw [hMe]; linarith
  have hPM : P ≤ M := by rw [hMe]; linarith
  have hRM : R ≤ M := by rw [hMe]; linarith
  have hmPM : m * P ^ 2 ≤ M := by rw [hMe]; linarith
  set θ := 3 * u + 2 * γ with hθd
  have hθ0 : 0 ≤ θ := by positivity
  set ν := lsqUnit F F0 m R u γ δ ζ with hν
  have hνe : ν = (26 * θ + 2 * δ + 4 * ζ + 6 * γ + 2 * u) * ((m + 1) * M) := rfl
  have hm0 : (0 : ℝ) ≤ m := Nat.cast_nonneg _
  have hν1 : (26 * θ + 2 * δ + 4 * ζ + 6 * γ + 2 * u) * (m * M) ≤ ν := by
    rw [hνe]
    exact mul_le_mul_of_nonneg_left (mul_le_mul_of_nonneg_right (by linarith) hM0) (by positivity)
  have hν2 : (26 * θ + 2 * δ + 4 * ζ + 6 * γ + 2 * u) * M ≤ ν := by
    rw [hνe]
    exact mul_le_mul_of_nonneg_left (le_mul_of_one_le_left hM0 (by linarith)) (by positivity)
  have hci : ∀ {y : Fin (k + 1) → ℝ}, (∀ q, |y q| ≤ R) → ∀ q, |(Fin.init y : Fin k → ℝ) q| ≤ R := fun hy q => hy q.castSucc
  have hcombo : ∀ {y : Fin (k + 1) → ℝ}, (∀ q, |y q| ≤ R) → ∀ i < m, ∀ j < m, absCombo F (Fin.init y) i j ≤ P := fun {y} hy i hi j hj =>
    le_trans (by unfold absPencil; linarith [abs_nonneg (F0 i j)]) (pencil_abs_le F F0 hi hj (hci hy) hR)
  have hpen : ∀ {y : Fin (k + 1) → ℝ}, (∀ q, |y q| ≤ R) → ∀ i < m, ∀ j < m, absPencil F F0 (Fin.init y) i j ≤ P := fun hy i hi j hj => pencil_abs_le F F0 hi hj (hci hy) hR
  have hgram : ∀ i < m, ∀ j < m, absGram m (x (Fin.last k)) (absPencil F F0 (Fin.init x)) i j ≤ M := fun i hi j hj =>
    (gram_abs_le F F0 hi hj (hci hx) (hx _)).trans (by rw [hMe]; linarith)
  have hcabs : ∀ i j, |combo F (Fin.init x) i j| ≤ absCombo F (Fin.init x) i j := fun i j => by
    unfold combo absCombo
    exact (abs_sum_le_sum_abs _ _).trans (le_of_eq (sum_congr rfl fun q _ => by rw [mul_comm]))
  have hgabs : ∀ i j, |tiMinusGram m (x (Fin.last k)) (pencil F F0 (Fin.init x)) i j| ≤ absGram m (x (Fin.last k)) (absPencil F F0 (Fin.init x)) i j := fun i j => by
    unfold tiMinusGram absGram
    refine (abs_sub _ _).trans (add_le_add ?_ ((abs_sum_le_sum_abs _ _).trans (sum_le_sum fun l _ => ?_)))
    · split_ifs <;> simp
    · rw [abs_mul]
      exact mul_le_mul (abs_pencil_le F F0 _ _ _) (abs_pencil_le F F0 _ _ _) (abs_nonneg _) (absPencil_nonneg F F0 _ _ _)
  obtain ⟨o', g, b, t1, h1, h2, h3, h4, h5⟩ := lsqF_any (F0 := F0) hF x t h0 hQ hfl hu0 (by linarith) hγ hdot hloc (by linarith) hη hδ hζ
  refine ⟨o', (g, b), t1, h1, h2, h3, h4, ?_, ?_⟩
  · intro z μ hz hμ hz1 hz2 hlev
    dsimp only
    have edot : g ⬝ᵥ (z - x) = ∑ q, g q * (z q - x q) := by simp [dotProduct]
    rw [edot]
    -- the two constraints
    have fin : ∀ (e : ℕ) (v : ℕ → ℝ) (gz qz : ℝ), 0 < e → v (e - 1) = 1 → μ * (∑ i ∈ range e, v i ^ 2) ≤ qz →
        gz + b ≤ -qz + (26 * θ + δ + (4 * ζ + 6 * γ)) * (m * M * ∑ i ∈ range e, v i ^ 2) → gz + b ≤ -(μ - ν) := by
      intro e v gz qz he hv hq h
      set s := ∑ i ∈ range e, v i ^ 2 with hs
      have hs1 : 1 ≤ s := by
        have := single_le_sum (f := fun i => v i ^ 2) (fun i _ => sq_nonneg _) (mem_range.2 (show e - 1 < e by omega))
        simp only [hv] at this
        linarith
      have k1 : (26 * θ + δ + (4 * ζ + 6 * γ)) * (m * M) ≤ ν := le_trans (mul_le_mul_of_nonneg_right (by linarith) (by positivity)) hν1
      have k2 := mul_le_mul_of_nonneg_right k1 (show 0 ≤ s by linarith)
      have k3 := mul_le_mul_of_nonneg_right (show ν - μ ≤ 0 by linarith) (show 0 ≤ s - 1 by linarith)
      linarith
    have sums : ∀ (e : ℕ), e ≤ m → ∀ (v : ℕ → ℝ) (B' : ℝ), 0 ≤ B' → B' ≤ M → e * B' * (∑ i ∈ range e, v i ^ 2) ≤ m * M * ∑ i ∈ range e, v i ^ 2 := fun e he v B' hB hB' =>
      mul_le_mul_of_nonneg_right (mul_le_mul (by exact_mod_cast he) hB' hB hm0) (sum_nonneg fun i _ => sq_nonneg _)
    have hS : ∀ (e : ℕ), e ≤ m → ∀ (v : ℕ → ℝ) {κ : ℝ}, 0 ≤ κ → κ ≤ 1 / 10 → (∑ i ∈ range e, Real.sqrt ((1 + κ) * M) * |v i|) ^ 2 ≤ 11 / 10 * (m * M * ∑ i ∈ range e, v i ^ 2) := by
      intro e he v κ hκ0 hκ
      have hD : 0 ≤ (1 + κ) * M := by positivity
      rw [← mul_sum, mul_pow, Real.sq_sqrt hD]
      have k1 := mul_le_mul_of_nonneg_left (abs_sum_sq_le e v) hD
      have k2 := mul_le_mul_of_nonneg_left (sums e he v M hM0 le_rfl) (show 0 ≤ 1 + κ by linarith)
      have k3 := mul_le_mul_of_nonneg_right (show 1 + κ ≤ 11 / 10 by linarith) (show 0 ≤ m * M * ∑ i ∈ range e, v i ^ 2 from mul_nonneg (by positivity) (sum_nonneg fun i _ => sq_nonneg _))
      linarith
    rcases h5 with ⟨-, e, a2, a3, a4, a5⟩ | ⟨-, e, a2, a3, a4, a5⟩ | ⟨-, -, a3, a4⟩
    · set v := o'.lmi0.v with hv
      obtain ⟨-, c1⟩ := a5 (fun _ => Real.sqrt ((1 + η) * M)) (fun _ => Real.sqrt_nonneg _) (fun i hi => by
        rw [Real.sq_sqrt (by positivity)]
        have k1 := (le_abs_self _).trans (hcabs i i)
        have k2 := (hcombo hx i hi i hi).trans hPM
        have k3 := mul_le_mul_of_nonneg_left k2 hη0
        linarith)
      have hG0 : 0 ≤ m * M * ∑ i ∈ range e, v i ^ 2 := mul_nonneg (by positivity) (sum_nonneg fun i _ => sq_nonneg _)
      have b1 : quadOn (absCombo F (Fin.init x)) 0 e (fun i => |v i|) ≤ m * M * ∑ i ∈ range e, v i ^ 2 :=
        (quadOn_abs_le (fun i hi j hj => hcombo hx i (by omega) j (by omega)) hP0 _).trans (sums e a3 v P hP0 hPM)
      have b2 : (2 * γ + γ ^ 2) * ∑ q : Fin k, |z q.castSucc - x q.castSucc| * quadOn (absMat (F q)) 0 e (fun i => |v i|) ≤ (4 * ζ + 6 * γ) * (m * M * ∑ i ∈ range e, v i ^ 2) := by
        have k1 := lin_grad_le (F := F) a3 v (hcombo hx) (hcombo hz) hP0
        have k2 := mul_le_mul_of_nonneg_left (k1.trans (mul_le_mul_of_nonneg_left (sums e a3 v P hP0 hPM) zero_le_two)) (show 0 ≤ 2 * γ + γ ^ 2 by positivity)
        have k3 : γ ^ 2 ≤ γ * 1 := by rw [sq]; exact mul_le_mul_of_nonneg_left (by linarith) hγ
        have k4 := mul_le_mul_of_nonneg_right (show (2 * γ + γ ^ 2) * 2 ≤ 4 * ζ + 6 * γ by linarith) hG0
        exact k2.trans (by linarith)
      have b3 := c1 x
      simp only [sub_self, mul_zero, sum_const_zero, abs_zero, zero_mul, add_zero, zero_add] at b3
      have := cut_room h4 hθ0 hθ hη0 (hηδ.trans hδ1) hG0 (c1 z) b3
        ((neg_quadOn_le (fun i _ j _ => hcabs i j) v).trans b1) (hS e a3 v hη0 (hηδ.trans hδ1)) b1 b2
      refine fin e v _ _ a2 a4 ((hz1.sub a3) v) (this.trans ?_)
      have := mul_le_mul_of_nonneg_right (show 26 * θ + η + (4 * ζ + 6 * γ) ≤ 26 * θ + δ + (4 * ζ + 6 * γ) by linarith) hG0
      linarith
    · set v := o'.qmi.Q.v with hv
      obtain ⟨-, c1⟩ := a5 (fun _ => Real.sqrt ((1 + δ) * M)) (fun _ => Real.sqrt_nonneg _) (fun i hi => by
        rw [Real.sq_sqrt (by positivity)]
        have k1 := (le_abs_self _).trans (hgabs i i)
        have k2 := hgram i hi i hi
        have k3 := mul_le_mul_of_nonneg_left k2 hδ0
        linarith)
      have hG0 : 0 ≤ m * M * ∑ i ∈ range e, v i ^ 2 := mul_nonneg (by positivity) (sum_nonneg fun i _ => sq_nonneg _)
      have b1 : quadOn (absGram m (x (Fin.last k)) (absPencil F F0 (Fin.init x))) 0 e (fun i => |v i|) ≤ m * M * ∑ i ∈ range e, v i ^ 2 :=
        (quadOn_abs_le (fun i hi j hj => hgram i (by omega) j (by omega)) hM0 _).trans (sums e a3 v M hM0 le_rfl)
      have b2 : 2 * ζ * (∑ q : Fin k, |z q.castSucc - x q.castSucc| * absBilin m e v (F q) (absPencil F F0 (Fin.init x))) +
          γ * (∑ i ∈ range e, v i ^ 2) * |z (Fin.last k) - x (Fin.last k)| ≤ (4 * ζ + 6 * γ) * (m * M * ∑ i ∈ range e, v i ^ 2) := by
        have k1 := quad_grad_le (F := F) (F0 := F0) a3 v (hpen hx) (hpen hz) hP0
        have k2 := mul_le_mul_of_nonneg_left (k1.trans (mul_le_mul_of_nonneg_left (sums e a3 v _ hmP hmPM) zero_le_two)) (show 0 ≤ 2 * ζ by positivity)
        have k3 : |z (Fin.last k) - x (Fin.last k)| ≤ 2 * (m * M) := by
          have j1 : (1 : ℝ) ≤ m := by exact_mod_cast (by omega : 1 ≤ m)
          have j2 := mul_le_mul_of_nonneg_right j1 hM0
          have j3 := abs_sub (z (Fin.last k)) (x (Fin.last k))
          linarith [hz (Fin.last k), hx (Fin.last k)]
        have k4 := mul_le_mul_of_nonneg_left k3 (show 0 ≤ γ * ∑ i ∈ range e, v i ^ 2 from mul_nonneg hγ (sum_nonneg fun i _ => sq_nonneg _))
        have k5 := mul_nonneg hγ hG0
        refine (add_le_add k2 k4).trans ?_
        linarith
      have b3 := c1 x
      simp only [sub_self, mul_zero, sum_const_zero, abs_zero, zero_mul, add_zero, zero_add] at b3
      have c2 := c1 z
      rw [add_assoc] at c2
      exact fin e v _ _ a2 a4 ((hz2.sub a3) v) (cut_room h4 hθ0 hθ hδ0 hδ1 hG0 c2 b3
        ((neg_quadOn_le (fun i _ j _ => hgabs i j) v).trans b1) (hS e a3 v hδ0 hδ1) b1 b2)
    · rw [a3 z]
      have h2u : 2 * u * M ≤ ν := le_trans (mul_le_mul_of_nonneg_right (by linarith) hM0) hν2
      have hν0 : 0 ≤ ν := le_trans (by positivity) h2u
      rcases a4 with ⟨-, rfl, rfl⟩ | ⟨t0, rfl, c2, rfl, c3⟩
      · rw [Option.getD_some, WithTop.coe_le_coe] at hlev
        linarith
      · rw [Option.getD_none, WithTop.coe_le_coe] at hlev
        have c4 := (abs_le.1 c3).2
        have c5 : u * (x (Fin.last k) - t0) ≤ u * (2 * M) := by
          refine mul_le_mul_of_nonneg_left ?_ hu0
          have j1 := (abs_le.1 (hx (Fin.last k))).2
          have j2 := (abs_le.1 (hz (Fin.last k))).1
          linarith
        linarith
  · intro s hs
    rcases h5 with ⟨a1, -⟩ | ⟨a1, -⟩ | ⟨a1, a2, -, ⟨a4, a5, -⟩ | ⟨t0, -, -, a5, -⟩⟩
    · simp [a1] at hs
    · simp [a1] at hs
    · rw [a5, Option.some.injEq] at hs
      subst hs
      have c : ∀ κ, 0 ≤ κ → κ ≤ δ → -ν ≤ -((5 / 4 * θ * (1 + κ) + κ) * m * M) := fun κ hκ0 hκ => by
        have k1 := mul_le_mul_of_nonneg_left (show 1 + κ ≤ 11 / 10 by linarith) hθ0
        have k2 := mul_le_mul_of_nonneg_right (show 5 / 4 * θ * (1 + κ) + κ ≤ 26 * θ + 2 * δ + 4 * ζ + 6 * γ + 2 * u by linarith) (show 0 ≤ m * M by positivity)
        rw [mul_assoc]
        linarith
      exact ⟨rfl, a4, (near_atLeast (fun i hi => (le_abs_self _).trans (hcabs i i)) (fun i hi j hj => (hcombo hx i hi j hj).trans hPM) hθ0 hη0 hM0 a1).mono (c η hη0 hηδ),
        (near_atLeast (fun i _ => tiMinusGram_le_absGram F F0 _ _ i) hgram hθ0 hδ0 hM0 a2).mono (c δ hδ0 le_rfl)⟩
    · simp [a5] at hs

/-- How much room the points near a strictly feasible one have. -/
theorem lsq_near {z0 y : Fin k → ℝ} {s s' r h μ₀ A : ℝ} (hz0 : ∀ q, |z0 q| ≤ A) (hy : ∀ q, |y q| ≤ A) (hA : 0 ≤ A) (hr : 0 ≤ r) (hyz : ∀ q, |y q - z0 q| ≤ r)
    (h1 : AtLeast μ₀ (combo F z0) m) (h2 : AtLeast 0 (tiMinusGram m s (pencil F F0 z0)) m) (hs : s + h - r ≤ s')
    (hrμ : r + m * (entrySum F F0 m * r) ≤ μ₀) (hh : 2 * r + 2 * (m * (m * (entrySum F F0 m * (1 + A) * (entrySum F F0 m * r)))) ≤ h) :
    AtLeast r (combo F y) m ∧ AtLeast r (tiMinusGram m s' (pencil F F0 y)) m := by
  set f := entrySum F F0 m with hf
  have hf0 : 0 ≤ f := entrySum_nonneg F F0 m
  set P := f * (1 + A) with hP
  have hP0 : 0 ≤ P := by positivity
  have ent : ∀ i < m, ∀ j < m, |∑ q, (y q - z0 q) * F q i j| ≤ f * r := fun i hi j hj => by
    have := combo_abs_le F F0 hi hj hyz hr
    refine (abs_sum_le_sum_abs _ _).trans (le_trans (le_of_eq ?_) this)
    unfold absCombo
    exact sum_congr rfl fun q _ => by rw [mul_comm]
  constructor
  · intro v
    have e1 : quadOn (combo F y) 0 m v = quadOn (combo F z0) 0 m v + quadOn (combo F fun q => y q - z0 q) 0 m v := by
      simp only [quadOn_combo, ← sum_add_distrib]
      exact sum_congr rfl fun q _ => by ring
    have e2 := neg_quadOn_le (A := combo F fun q => y q - z0 q) (P := fun _ _ => f * r) (e := m) (fun i hi j hj => ent i hi j hj) v
    have e3 := quadOn_abs_le (P := fun _ _ => f * r) (e := m) (M := f * r) (fun _ _ _ _ => le_rfl) (by positivity) v
    have e4 := h1 v
    have e5 := mul_le_mul_of_nonneg_right hrμ (show 0 ≤ ∑ i ∈ range m, v i ^ 2 from sum_nonneg fun i _ => sq_nonneg _)
    rw [e1]
    linarith
  · intro v
    have e1 : quadOn (tiMinusGram m s' (pencil F F0 y)) 0 m v = quadOn (tiMinusGram m s (pencil F F0 z0)) 0 m v + (s' - s) * (∑ i ∈ range m, v i ^ 2) -
        quadOn (fun i j => ∑ l ∈ range m, (pencil F F0 y l i * pencil F F0 y l j - pencil F F0 z0 l i * pencil F F0 z0 l j)) 0 m v := by
      have d1 : ∀ (t : ℝ) (x : Fin k → ℝ), quadOn (tiMinusGram m t (pencil F F0 x)) 0 m v =
          t * (∑ i ∈ range m, v i ^ 2) - quadOn (fun i j => ∑ l ∈ range m, pencil F F0 x l i * pencil F F0 x l j) 0 m v := fun t x => by
        have d2 := quadOn_sub (fun i j => if i = j then t else 0) (fun i j => ∑ l ∈ range m, pencil F F0 x l i * pencil F F0 x l j) 0 m v
        have d3 : quadOn (fun i j => if i = j then t else 0) 0 m v = t * ∑ i ∈ range m, v i ^ 2 := by
          unfold quadOn
          rw [Nat.Ico_zero_eq_range, mul_sum]
          refine sum_congr rfl fun i hi => ?_
          rw [sum_eq_single i (fun j _ hj => by beta_reduce; rw [if_neg (Ne.symm hj)]; ring) (fun h => absurd hi h)]
          beta_reduce
          rw [if_pos rfl]
          ring
        rw [← d3, ← d2]
        rfl
      have d4 := quadOn_sub (fun i j => ∑ l ∈ range m, pencil F F0 y l i * pencil F F0 y l j) (fun i j => ∑ l ∈ range m, pencil F F0 z0 l i * pencil F F0 z0 l j) 0 m v
      simp only [← sum_sub_distrib] at d4
      rw [d1, d1, d4]
      ring
    have e2 := neg_quadOn_le (A := fun i j => -∑ l ∈ range m, (pencil F F0 y l i * pencil F F0 y l j - pencil F F0 z0 l i * pencil F F0 z0 l j)) (P := fun _ _ => 2 * (m * (P * (f * r)))) (e := m)
      (fun i hi j hj => by
        rw [abs_neg]
        refine (abs_sum_le_sum_abs _ _).trans ?_
        have d1 : ∀ l ∈ range m, |pencil F F0 y l i * pencil F F0 y l j - pencil F F0 z0 l i * pencil F F0 z0 l j| ≤ 2 * (P * (f * r)) := by
          intro l hl
          rw [mem_range] at hl
          have d2 : ∀ j < m, |pencil F F0 y l j - pencil F F0 z0 l j| ≤ f * r := fun j hj => by
            have := ent l hl j hj
            rw [← abs_neg] at this
            convert this using 2
            unfold pencil
            rw [← sum_neg_distrib, sub_sub_sub_cancel_left, ← sum_sub_distrib]
            exact sum_congr rfl fun q _ => by ring
          have d3 : |pencil F F0 y l j| ≤ P := (abs_pencil_le F F0 y l j).trans (pencil_abs_le F F0 hl hj hy hA)
          have d4 : |pencil F F0 z0 l i| ≤ P := (abs_pencil_le F F0 z0 l i).trans (pencil_abs_le F F0 hl hi hz0 hA)
          have d5 : pencil F F0 y l i * pencil F F0 y l j - pencil F F0 z0 l i * pencil F F0 z0 l j =
            (pencil F F0 y l i - pencil F F0 z0 l i) * pencil F F0 y l j + pencil F F0 z0 l i * (pencil F F0 y l j - pencil F F0 z0 l j) := by ring
          rw [d5]
          refine (abs_add_le _ _).trans ?_
          rw [abs_mul, abs_mul]
          have d6 := mul_le_mul (d2 i hi) d3 (abs_nonneg _) (by positivity)
          have d7 := mul_le_mul d4 (d2 j hj) (abs_nonneg _) hP0
          linarith
        have d8 := sum_le_sum d1
        rw [sum_const, card_range, nsmul_eq_mul] at d8
        linarith) v
    have e3 := quadOn_abs_le (P := fun _ _ => 2 * (m * (P * (f * r)))) (e := m) (M := 2 * (m * (P * (f * r)))) (fun _ _ _ _ => le_rfl) (by positivity) v
    have e6 : quadOn (fun i j => -∑ l ∈ range m, (pencil F F0 y l i * pencil F F0 y l j - pencil F F0 z0 l i * pencil F F0 z0 l j)) 0 m v =
        -quadOn (fun i j => ∑ l ∈ range m, (pencil F F0 y l i * pencil F F0 y l j - pencil F F0 z0 l i * pencil F F0 z0 l j)) 0 m v := by
      have := quadOn_smul (-1) (fun i j => ∑ l ∈ range m, (pencil F F0 y l i * pencil F F0 y l j - pencil F F0 z0 l i * pencil F F0 z0 l j)) 0 m v
      simp only [neg_mul, one_mul] at this
      exact this
    rw [e6, neg_neg] at e2
    have e4 := h2 v
    have e5 := mul_le_mul_of_nonneg_right (show r + 2 * (m * (m * (P * (f * r)))) ≤ s' - s by linarith) (show 0 ≤ ∑ i ∈ range m, v i ^ 2 from sum_nonneg fun i _ => sq_nonneg _)
    rw [e1]
    linarith

/-- `lsq_oracle` with rounding, as `cutting_plane_dc` sees it. -/
noncomputable def lsqOmegaF (fl : ℝ → ℝ) (dot : ℕ → ℕ → (ℕ → ℝ) → (ℕ → ℝ) → ℝ) (F : Fin k → ℕ → ℕ → ℝ) (F0 : ℕ → ℕ → ℝ) (m : ℕ) (x : Fin (k + 1) → ℝ) (t : WithTop ℝ) (o : LsqOracle ℝ) :
    Except PyErr (LsqOracle ℝ × ((Fin (k + 1) → ℝ) × Beta) × Option (WithTop ℝ)) :=
  dcAnswer (fun c => (c.1, Beta.scalar c.2)) (lsqCallF fl dot F F0 m x t o)

/-- While the level is above `T`, the cuts keep a set of points with room. -/
theorem lsq_keeps (hF : ∀ q, SymOn (F q) m) (hfl : RelErr u fl) (hu0 : 0 ≤ u) (hγ : 0 ≤ γ) (hdot : DotErr γ m dot) (hloc : DotLocal dot) (hθ : 3 * u + 2 * γ ≤ 1 / 10)
    (hη : (1 + u) ^ (k + 2) ≤ 1 + η) (hδ : (1 + u) * ((1 + γ) * ((1 + η) * (1 + η))) ≤ 1 + δ) (hζ : (1 + u) * ((1 + γ) * ((1 + γ) * ((1 + γ) * (1 + η)))) ≤ 1 + ζ) (hδ1 : δ ≤ 1 / 10)
    {K : Set (Fin (k + 1) → ℝ)} {r T tol ε : ℝ} {N : ℕ} (hr : 0 < r) (hε : 0 ≤ ε) (hne : K.Nonempty) (hKR : ∀ z ∈ K, ∀ q, |z q| ≤ R)
    (hK : ∀ z ∈ K, AtLeast r (combo F (Fin.init z)) m ∧ AtLeast r (tiMinusGram m (z (Fin.last k)) (pencil F F0 (Fin.init z))) m ∧ z (Fin.last k) + r ≤ T)
    (hν : 2 * lsqUnit F F0 m R u γ δ ζ ≤ r) (htol : tol ≤ 199 / 200 * (r / 2) ^ 2) :
    DcKeepsNear N K {x | ∀ q, |x q| ≤ R} (fun _ o => Ready m o.lmi0 ∧ Ready m o.qmi.Q) (fun t : WithTop ℝ => (T : WithTop ℝ) < t) (fun _ => False) tol ε (lsqOmegaF fl dot F F0 m) := by
  constructor
  · intro x t o o' c t1 h hbad
    cases t1 with
    | none => exact hbad
    | some s =>
      refine lt_of_lt_of_le hbad ?_
      rw [Option.getD_some]
      -- the level never rises
      simp only [lsqOmegaF, dcAnswer] at h
      cases hc : lsqCallF fl dot F F0 m x t o with
      | error e => simp [hc, Except.map] at h
      | ok a =>
        simp only [hc, Except.map, Except.ok.injEq, Prod.mk.injEq] at h
        obtain ⟨-, -, h⟩ := h
        unfold lsqCallF at hc
        rcases hl : lmi0CallF fl dot F m (fun q => x q.castSucc) o.lmi0 with e | ⟨Q0, _ | ⟨g1, fj⟩⟩ <;> simp only [hl] at hc
        · simp at hc
        · rcases hq : qmiCallF fl dot F F0 m m (fun q => x q.castSucc) (o.qmi.setT (x (Fin.last k))) with e | ⟨q1, _ | ⟨g1, fj⟩⟩ <;> simp only [hq] at hc
          · simp at hc
          · cases t with
            | top => exact le_top
            | coe t =>
              dsimp only at hc
              split_ifs at hc with hpos
              · rw [← Except.ok.inj hc] at h; simp at h
              · rw [← Except.ok.inj hc] at h
                simp only [Option.some.injEq] at h
                rw [← h, WithTop.coe_le_coe]
                by_contra hgt
                have hgt : 0 < x (Fin.last k) - t := by linarith
                have e1 := hfl (x (Fin.last k) - t)
                rw [abs_of_pos hgt] at e1
                have e2 := (abs_le.1 e1).1
                have e3 : u * (x (Fin.last k) - t) < 1 * (x (Fin.last k) - t) := mul_lt_mul_of_pos_right (by linarith) hgt
                linarith
          · rcases hw : q1.Q.witnessF dot with e | ⟨Q2, ep⟩ <;> simp only [hw] at hc
            · simp at hc
            · rw [← Except.ok.inj hc] at h; simp at h
        · rw [← Except.ok.inj hc] at h; simp at h
  · intro j _ x hx t o ho hbad
    obtain ⟨o', cut, t1, h1, h2, h3, h4⟩ := C139_oracle (F0 := F0) hF hfl hu0 hγ hdot hloc hθ hη hδ hζ hδ1 hx t ho.1 ho.2
    refine .inr ⟨o', cut.1, cut.2, t1, by simp [lsqOmegaF, dcAnswer, h1, Except.map], fun hbad' => ⟨⟨h2, h3⟩, ?_⟩⟩
    set ν := lsqUnit F F0 m R u γ δ ζ with hνd
    have hdeep := h4.deep
    have key : ∀ z ∈ K, cut.1 ⬝ᵥ (z - x) + cut.2 ≤ -(r / 2) := fun z hz => by
      obtain ⟨a1, a2, a3⟩ := hK z hz
      have := h4.keeps z r (hKR z hz) (by linarith) a1 a2 ((WithTop.coe_le_coe.2 a3).trans hbad'.le)
      linarith
    refine ⟨fun h0 => ?_, fun z hz => ?_⟩
    · obtain ⟨z, hz⟩ := hne
      have := key z hz
      dsimp only at h0
      rw [h0, zero_dotProduct] at this
      linarith
    · dsimp only
      have h5 := key z hz
      rw [max_eq_left hdeep]
      refine ⟨by linarith, htol.trans ?_, ?_⟩
      · have : (r / 2) ^ 2 ≤ (cut.1 ⬝ᵥ (z - x)) ^ 2 := by
          rw [← neg_sq (cut.1 ⬝ᵥ (z - x))]
          exact pow_le_pow_left₀ (by linarith) (by linarith) 2
        linarith
      · have h8 := mul_nonneg hε (abs_nonneg (cut.1 ⬝ᵥ (z - x)))
        have h9 := mul_nonneg (Nat.cast_nonneg (α := ℝ) (k + 1)) hdeep
        linarith

/-- A ball inside the first ellipsoid, centred above `z`, all of whose points have room `r` and are better than `z_last + ν` by `r`. -/
theorem lsq_room {E₀ : Ell (k + 1)} {z : Fin (k + 1) → ℝ} {μ₀ ρ ν : ℝ} (hμ : 0 < μ₀) (hz1 : AtLeast μ₀ (combo F (Fin.init z)) m)
    (hz2 : AtLeast 0 (tiMinusGram m (z (Fin.last k)) (pencil F F0 (Fin.init z))) m) (hρ : 0 < ρ) (hin : euclBall z ρ ⊆ E₀.pts) (hν : 0 < ν) :
    ∃ (a : Fin (k + 1) → ℝ) (r A₀ : ℝ), 0 < r ∧ 0 ≤ A₀ ∧ (∀ q : Fin k, a q.castSucc = z q.castSucc) ∧ euclBall a r ⊆ E₀.pts ∧ (∀ y ∈ euclBall a r, ∀ q, |y q| ≤ A₀) ∧
      ∀ y ∈ euclBall a r, AtLeast r (combo F (Fin.init y)) m ∧ AtLeast r (tiMinusGram m (y (Fin.last k)) (pencil F F0 (Fin.init y))) m ∧ y (Fin.last k) + r ≤ z (Fin.last k) + ν := by
  set f := entrySum F F0 m with hf
  have hf0 : 0 ≤ f := entrySum_nonneg F F0 m
  set A₀ := ∑ q, |z q| + 2 with hA₀
  have hzA : ∀ q, |z q| ≤ A₀ - 2 := fun q => by
    have := single_le_sum (f := fun q => |z q|) (fun q _ => abs_nonneg _) (mem_univ q)
    linarith
  have hA0 : 0 ≤ A₀ := by have : 0 ≤ ∑ q, |z q| := sum_nonneg fun q _ => abs_nonneg _
                          linarith
  set c := 2 + 2 * (m * (m * (f * (1 + A₀) * f))) with hc
  have hc2 : 2 ≤ c := by have : 0 ≤ 2 * (m * (m * (f * (1 + A₀) * f))) := by positivity
                         linarith
  set r := min (min (1 / (c + 2)) (μ₀ / (1 + m * f))) (min (ρ / (c + 2)) (ν / (c + 2))) with hr
  have hr0 : 0 < r := by positivity
  have hr1 : (c + 2) * r ≤ 1 := by
    have : r ≤ 1 / (c + 2) := (min_le_left _ _).trans (min_le_left _ _)
    rwa [le_div_iff₀ (by linarith), mul_comm] at this
  have hr2 : r + m * (f * r) ≤ μ₀ := by
    have : r ≤ μ₀ / (1 + m * f) := (min_le_left _ _).trans (min_le_right _ _)
    rw [le_div_iff₀ (by positivity)] at this
    linarith
  have hr3 : (c + 2) * r ≤ ρ := by
    have : r ≤ ρ / (c + 2) := (min_le_right _ _).trans (min_le_left _ _)
    rwa [le_div_iff₀ (by linarith), mul_comm] at this
  have hr4 : (c + 2) * r ≤ ν := by
    have : r ≤ ν / (c + 2) := (min_le_right _ _).trans (min_le_right _ _)
    rwa [le_div_iff₀ (by linarith), mul_comm] at this
  set h := c * r with hh
  have hh0 : 0 ≤ h := by positivity
  have hhr : h + 2 * r = (c + 2) * r := by rw [hh]; ring
  set a : Fin (k + 1) → ℝ := fun q => z q + if q = Fin.last k then h else 0 with ha
  have hpt : ∀ y ∈ euclBall a r, ∀ q, |y q - a q| ≤ r := fun y hy q => by
    have hy : ∑ q, (y q - a q) ^ 2 ≤ r ^ 2 := hy
    exact abs_le_of_sq_le_sq ((single_le_sum (f := fun q => (y q - a q) ^ 2) (fun q _ => sq_nonneg _) (mem_univ q)).trans hy) hr0.le
  have hal : a (Fin.last k) = z (Fin.last k) + h := by simp [ha]
  have hai : ∀ q : Fin k, a q.castSucc = z q.castSucc := fun q => by simp [ha, Fin.castSucc_ne_last]
  have hball : euclBall a r ⊆ E₀.pts := fun y hy => hin <| by
    have hl := hpt y hy (Fin.last k)
    have hy : ∑ q, (y q - a q) ^ 2 ≤ r ^ 2 := hy
    change ∑ q, (y q - z q) ^ 2 ≤ ρ ^ 2
    have e1 : ∑ q, (y q - z q) ^ 2 = ∑ q, (y q - a q) ^ 2 + 2 * h * (y (Fin.last k) - a (Fin.last k)) + h ^ 2 := by
      rw [Fin.sum_univ_castSucc, Fin.sum_univ_castSucc, hal]
      simp only [hai]
      ring
    have e2 := mul_le_mul_of_nonneg_left (abs_le.1 hl).2 (show 0 ≤ 2 * h by linarith)
    have e3 : (h + r) ^ 2 ≤ ρ ^ 2 := pow_le_pow_left₀ (by linarith) (by linarith) 2
    have e4 : (h + r) ^ 2 = h ^ 2 + 2 * h * r + r ^ 2 := by ring
    linarith
  have hKA : ∀ y ∈ euclBall a r, ∀ q, |y q| ≤ A₀ := fun y hy q => by
    have h1 := hpt y hy q
    have h2 : |a q| ≤ |z q| + h := by
      rw [ha]
      refine (abs_add_le _ _).trans (add_le_add_right ?_ _)
      split_ifs
      · rw [abs_of_nonneg hh0]
      · simpa using hh0
    have h3 := abs_add_le (y q - a q) (a q)
    rw [sub_add_cancel] at h3
    linarith [hzA q]
  have hKp : ∀ y ∈ euclBall a r, AtLeast r (combo F (Fin.init y)) m ∧ AtLeast r (tiMinusGram m (y (Fin.last k)) (pencil F F0 (Fin.init y))) m ∧
      y (Fin.last k) + r ≤ z (Fin.last k) + ν := fun y hy => by
    have hl := abs_le.1 (hpt y hy (Fin.last k))
    rw [hal] at hl
    obtain ⟨b1, b2⟩ := lsq_near (F := F) (F0 := F0) (m := m) (z0 := Fin.init z) (y := Fin.init y) (s := z (Fin.last k)) (s' := y (Fin.last k)) (r := r) (h := h) (μ₀ := μ₀) (A := A₀)
      (fun q => (hzA q.castSucc).trans (by linarith)) (fun q => hKA y hy q.castSucc) hA0 hr0.le (fun q => by have := hpt y hy q.castSucc; rwa [hai] at this) hz1 hz2 (by linarith) hr2
      (le_of_eq (by rw [hh, hc]; ring))
    exact ⟨b1, b2, by linarith⟩
  exact ⟨a, r, A₀, hr0, hA0, hai, hball, hKA, hKp⟩

/-- **C139** (least-squares fits).  Let `z` be in the interior of the first ellipsoid, with `Σ z_q F_q` positive definite and `z_last·I - F(z)'F(z) ⪰ 0`, and let `ν > 0`.  There are a number `N` of iterations, a
precision and a tolerance with the following, for every state of the oracle that can be reused and every start level (also `inf`).  A run with `max_it ≥ N` that returns has a level of at most `z_last + ν`.  If the
start level is above that, then within the first `N` oracle calls, before which nothing is raised, a level of at most `z_last + ν` is found, at a point that satisfies both inequalities up to `ν`. -/
theorem C139_lsq (hF : ∀ q, SymOn (F q) m) {E₀ : Ell (k + 1)} (hE : E₀.Proper) {z : Fin (k + 1) → ℝ} {μ₀ ρ ν : ℝ} (hμ : 0 < μ₀) (hz1 : AtLeast μ₀ (combo F (Fin.init z)) m)
    (hz2 : AtLeast 0 (tiMinusGram m (z (Fin.last k)) (pencil F F0 (Fin.init z))) m) (hρ : 0 < ρ) (hin : euclBall z ρ ⊆ E₀.pts) (hν : 0 < ν) :
    ∃ (N : ℕ) (ζ₀ tol₀ : ℝ), 0 < ζ₀ ∧ 0 < tol₀ ∧ ∀ u, 0 ≤ u → u ≤ ζ₀ → ∀ fl dot vdot, RelErr u fl → DotErr u m dot → DotLocal dot → VecDotErr u vdot → ∀ tol, tol ≤ tol₀ →
      ∀ (t0 : WithTop ℝ) (o : LsqOracle ℝ), Ready m o.lmi0 → Ready m o.qmi.Q →
      let Ω := fun x t => liftOracle (lsqOmegaF fl dot F F0 m x t)
      let S := (Ell.spaceF fl vdot).beside (LsqOracle ℝ)
      (∀ im : Int, (N : Int) ≤ im → ∀ w' xb t info, cuttingPlaneDc Ω S t0 ⟨im, tol⟩ (o, E₀) = .ok (w', xb, t, info) → t ≤ ((z (Fin.last k) + ν : ℝ) : WithTop ℝ)) ∧
      (((z (Fin.last k) + ν : ℝ) : WithTop ℝ) < t0 → ∃ (j : ℕ) (log : _) (p : LsqOracle ℝ × Ell (k + 1)), j < N ∧ DcRounds Ω S tol t0 (o, E₀) j log p ∧
        ∃ o' cut, lsqOmegaF fl dot F F0 m p.2.xc (bestT t0 log) p.1 = .ok (o', cut, some ((p.2.xc (Fin.last k) : ℝ) : WithTop ℝ)) ∧ p.2.xc (Fin.last k) ≤ z (Fin.last k) + ν ∧
          LsqFound F F0 m ν p.2.xc) := by
  obtain ⟨a, r, A₀, hr0, hA0, -, hball, hKA, hKp⟩ := lsq_room (F0 := F0) hμ hz1 hz2 hρ hin hν
  have hne : a ∈ euclBall a r := by
    change ∑ q, (a q - a q) ^ 2 ≤ r ^ 2
    simp only [sub_self, ne_eq, OfNat.ofNat_ne_zero, not_false_eq_true, zero_pow, sum_const_zero]
    positivity
  have hpos : 0 < volume.real (euclBall a r ∩ E₀.pts) := by
    rw [Set.inter_eq_left.2 hball, vol_ball hE.dim hr0]
    have := euclBall_real_pos (n := k + 1)
    positivity
  obtain ⟨N, L, ε₀, hε₀, C, η', θ', l, q, L₀, v', hS⟩ := C134_precise hE hKA hpos
  set R := A₀ + √L with hR
  set η : ℝ → ℝ := fun u => (1 + u) ^ (k + 2) - 1 with hη
  set δ : ℝ → ℝ := fun u => (1 + u) * ((1 + u) * ((1 + η u) * (1 + η u))) - 1 with hδ
  set ζ : ℝ → ℝ := fun u => (1 + u) * ((1 + u) * ((1 + u) * ((1 + u) * (1 + η u)))) - 1 with hζ
  obtain ⟨s1, hs1, hs1'⟩ := small_of_cont (g := fun u => 2 * lsqUnit F F0 m R u u (δ u) (ζ u)) (c := min r ν)
    (by simp only [lsqUnit, hδ, hζ, hη]; fun_prop) (by simp [lsqUnit, hδ, hζ, hη]; exact ⟨hr0, hν⟩)
  obtain ⟨s2, hs2, hs2'⟩ := small_of_cont (g := δ) (c := 1 / 10) (by simp only [hδ, hη]; fun_prop) (by simp [hδ, hη])
  refine ⟨N, min (min s1 s2) (min ε₀ (1 / 50)), 199 / 200 * (r / 2) ^ 2, by positivity, by positivity, fun u hu0 hu fl dot vdot hfl hdot hloc hvdot tol htol t0 o h0 hQ => ?_⟩
  have k1 : u ≤ s1 := hu.trans ((min_le_left _ _).trans (min_le_left _ _))
  have k2 : u ≤ s2 := hu.trans ((min_le_left _ _).trans (min_le_right _ _))
  have k3 : u ≤ ε₀ := hu.trans ((min_le_right _ _).trans (min_le_left _ _))
  have k4 : u ≤ 1 / 50 := hu.trans ((min_le_right _ _).trans (min_le_right _ _))
  have hvdot' : VecDotErr ε₀ vdot := fun x y => (hvdot x y).trans (mul_le_mul_of_nonneg_right k3 (Finset.sum_nonneg fun i _ => abs_nonneg _))
  have hsm := hs1' u hu0 k1
  have hsure := hS ε₀ u hu0 k3 le_rfl {x | ∀ i, |x i| ≤ R} fun x hx i => hx i
  have hKR : ∀ y ∈ euclBall a r, ∀ i, |y i| ≤ R := fun y hy i => (hKA y hy i).trans (by linarith [Real.sqrt_nonneg L])
  have e1 : (1 + u) ^ (k + 2) ≤ 1 + η u := le_of_eq (by rw [hη]; ring)
  have e2 : (1 + u) * ((1 + u) * ((1 + η u) * (1 + η u))) ≤ 1 + δ u := le_of_eq (by rw [hδ]; ring)
  have e3 : (1 + u) * ((1 + u) * ((1 + u) * ((1 + u) * (1 + η u)))) ≤ 1 + ζ u := le_of_eq (by rw [hζ]; ring)
  have hkeep := lsq_keeps (N := N) (tol := tol) (ε := ε₀) (T := z (Fin.last k) + ν) hF hfl hu0 hu0 hdot hloc (by linarith) e1 e2 e3 (hs2' u hu0 k2) hr0 hε₀.le ⟨a, hne⟩ hKR hKp
    (hsm.trans (min_le_left _ _)) htol
  obtain ⟨r1, r2⟩ := C138_dc (t0 := t0) (w₀ := o) hsure hE hfl hu0 k3 hvdot' hkeep ⟨h0, hQ⟩
  have hlev : ((z (Fin.last k) + ν : ℝ) : WithTop ℝ) ≤ ((z (Fin.last k) + ν : ℝ) : WithTop ℝ) := le_rfl
  refine ⟨fun im hm w' xb t info h => (not_lt.1 (r1 im hm w' xb t info h)).trans hlev, fun hbad => ?_⟩
  obtain ⟨j, log, p, q1, q2, q3, q4, q5, q6⟩ := r2 (hlev.trans_lt hbad)
  refine ⟨j, log, p, q1, q5, ?_⟩
  rcases q6 with ⟨o', cut, t1, q6, q7⟩ | ⟨e, q6, -⟩
  · cases t1 with
    | none => exact absurd q4 q7
    | some s =>
      obtain ⟨o1, cut1, t1, h1, -, -, h4⟩ := C139_oracle (F0 := F0) (t := bestT t0 log) hF hfl hu0 hu0 hdot hloc (by linarith) e1 e2 e3 (hs2' u hu0 k2) q2 q3.1 q3.2
      have hq6 := q6
      simp only [lsqOmegaF, dcAnswer, h1, Except.map, Except.ok.injEq, Prod.mk.injEq] at hq6
      obtain ⟨h5, -, h6⟩ := h4.found s hq6.2.2
      subst h5
      refine ⟨o', cut, q6, ?_, ?_⟩
      · have := (not_lt.1 q7).trans hlev
        rwa [Option.getD_some, WithTop.coe_le_coe] at this
      · have hle : lsqUnit F F0 m R u u (δ u) (ζ u) ≤ ν := by
          have := hsm.trans (min_le_right _ _)
          have h7 : 0 ≤ lsqUnit F F0 m R u u (δ u) (ζ u) ∨ lsqUnit F F0 m R u u (δ u) (ζ u) < 0 := le_or_gt _ _
          rcases h7 with h7 | h7 <;> linarith
        exact ⟨h6.psd.mono (neg_le_neg hle), h6.fit.mono (neg_le_neg hle)⟩
  · exact q6.elim

/-- **C139** (the returned point).  For any box `|x_q| ≤ B` and `ν > 0` there is a precision with the following, for any search space.  A run that returns gives the start level back with no point, or a point `x`
whose last entry is the level, no worse than the start level; if `x` is in the box then both inequalities hold at `x` up to `ν`. -/
theorem C139_returned (hF : ∀ q, SymOn (F q) m) {B ν : ℝ} (hB : 0 ≤ B) (hν : 0 < ν) :
    ∃ ζ₀ : ℝ, 0 < ζ₀ ∧ ∀ u, 0 ≤ u → u ≤ ζ₀ → ∀ fl dot, RelErr u fl → DotErr u m dot → DotLocal dot → ∀ {V : Type} (S : Space V (Fin (k + 1) → ℝ) ((Fin (k + 1) → ℝ) × Beta) ℝ) (op : Options ℝ)
      (t0 : WithTop ℝ) (o o' : LsqOracle ℝ) (v v' : V) xb t info, Ready m o.lmi0 → Ready m o.qmi.Q →
      cuttingPlaneDc (fun x t => liftOracle (lsqOmegaF fl dot F F0 m x t)) (S.beside _) t0 op (o, v) = .ok ((o', v'), xb, t, info) →
      (xb = none ∧ t = t0) ∨ ∃ x, xb = some x ∧ t = ((x (Fin.last k) : ℝ) : WithTop ℝ) ∧ t ≤ t0 ∧ ((∀ q, |x q| ≤ B) → LsqFound F F0 m ν x) := by
  set f := entrySum F F0 m with hf
  have hf0 : 0 ≤ f := entrySum_nonneg F F0 m
  set η : ℝ → ℝ := fun u => (1 + u) ^ (k + 2) - 1 with hη
  set δ : ℝ → ℝ := fun u => (1 + u) * ((1 + u) * ((1 + η u) * (1 + η u))) - 1 with hδ
  obtain ⟨s1, hs1, hs1'⟩ := small_of_cont (g := fun u => (5 / 4 * (3 * u + 2 * u) * (1 + η u) + η u) * m * (f * B)) (c := ν) (by simp only [hη]; fun_prop) (by simpa [hη] using hν)
  obtain ⟨s2, hs2, hs2'⟩ := small_of_cont (g := fun u => (5 / 4 * (3 * u + 2 * u) * (1 + δ u) + δ u) * m * (B + m * (f * (1 + B)) ^ 2)) (c := ν) (by simp only [hδ, hη]; fun_prop) (by simpa [hδ, hη] using hν)
  refine ⟨min (min s1 s2) (1 / 50), by positivity, fun u hu0 hu fl dot hfl hdot hloc V S op t0 o o' v v' xb t info h0 hQ h => ?_⟩
  have k1 : u ≤ s1 := hu.trans ((min_le_left _ _).trans (min_le_left _ _))
  have k2 : u ≤ s2 := hu.trans ((min_le_left _ _).trans (min_le_right _ _))
  have k3 : u ≤ 1 / 50 := hu.trans (min_le_right _ _)
  rcases C121_lsq (η := η u) (δ := δ u) hF hfl hu0 (by linarith) hu0 hdot hloc (by linarith) (le_of_eq (by rw [hη]; ring)) (le_of_eq (by rw [hδ]; ring)) h0 hQ h with h | ⟨x, h1, h2, h3, h4⟩
  · exact .inl h
  · refine .inr ⟨x, h1, h2, h3, fun hx => ⟨?_, ?_⟩⟩
    · exact ((h4 (f * B) (by positivity)).1 fun i hi j hj => combo_abs_le F F0 hi hj (fun q => hx q.castSucc) hB).mono (neg_le_neg (hs1' u hu0 k1))
    · exact ((h4 (B + m * (f * (1 + B)) ^ 2) (by positivity)).2 fun i hi j hj => gram_abs_le F F0 hi hj (fun q => hx q.castSucc) (hx _)).mono (neg_le_neg (hs2' u hu0 k2))

/-- **C139** (bits).  The same for rounding to nearest with `p` bits and all sums taken from left to right. -/
theorem C139_bits (hF : ∀ q, SymOn (F q) m) {E₀ : Ell (k + 1)} (hE : E₀.Proper) {z : Fin (k + 1) → ℝ} {μ₀ ρ ν B : ℝ} (hμ : 0 < μ₀) (hz1 : AtLeast μ₀ (combo F (Fin.init z)) m)
    (hz2 : AtLeast 0 (tiMinusGram m (z (Fin.last k)) (pencil F F0 (Fin.init z))) m) (hρ : 0 < ρ) (hin : euclBall z ρ ⊆ E₀.pts) (hν : 0 < ν) (hB : 0 ≤ B) :
    ∃ (N p₀ : ℕ) (tol₀ : ℝ), 0 < tol₀ ∧ ∀ p fl, p₀ ≤ p → Nearest p fl → ∀ tol, tol ≤ tol₀ → ∀ (t0 : WithTop ℝ) (o : LsqOracle ℝ), Ready m o.lmi0 → Ready m o.qmi.Q →
      ((z (Fin.last k) + ν : ℝ) : WithTop ℝ) < t0 →
      let Ω := fun x t => liftOracle (lsqOmegaF fl (seqDot fl) F F0 m x t)
      let S := (Ell.spaceF fl (vecDot fl)).beside (LsqOracle ℝ)
      (∀ im : Int, (N : Int) ≤ im → ∀ o' E' xb t info, cuttingPlaneDc Ω S t0 ⟨im, tol⟩ (o, E₀) = .ok ((o', E'), xb, t, info) →
        ∃ x, xb = some x ∧ t = ((x (Fin.last k) : ℝ) : WithTop ℝ) ∧ x (Fin.last k) ≤ z (Fin.last k) + ν ∧ ((∀ q, |x q| ≤ B) → LsqFound F F0 m ν x)) ∧
      ∃ (j : ℕ) (log : _) (P : LsqOracle ℝ × Ell (k + 1)), j < N ∧ DcRounds Ω S tol t0 (o, E₀) j log P ∧
        ∃ o' cut, lsqOmegaF fl (seqDot fl) F F0 m P.2.xc (bestT t0 log) P.1 = .ok (o', cut, some ((P.2.xc (Fin.last k) : ℝ) : WithTop ℝ)) ∧ P.2.xc (Fin.last k) ≤ z (Fin.last k) + ν ∧
          LsqFound F F0 m ν P.2.xc := by
  obtain ⟨N, ζ₀, tol₀, h1, h2, h3⟩ := C139_lsq (F0 := F0) hF hE hμ hz1 hz2 hρ hin hν
  obtain ⟨ζ₁, h4, h5⟩ := C139_returned (F0 := F0) hF hB hν
  obtain ⟨s1, hs1, hs1'⟩ := small_of_cont (g := fun u => (1 + u) ^ (m + k + 3) - 1) (c := min ζ₀ ζ₁) (by fun_prop) (by simpa using ⟨h1, h4⟩)
  obtain ⟨p₀, hp₀⟩ := exists_pow_lt_of_lt_one hs1 (show (1 / 2 : ℝ) < 1 by norm_num)
  refine ⟨N, p₀, tol₀, h2, fun p fl hp hfl tol htol t0 o h0 hQ hbad => ?_⟩
  have hup : (1 / 2 ^ p : ℝ) ≤ s1 := by
    rw [show (1 / 2 ^ p : ℝ) = (1 / 2) ^ p by rw [_root_.one_div_pow]]
    exact (pow_le_pow_of_le_one (by norm_num) (by norm_num) hp).trans hp₀.le
  have hr := hfl.relErr
  have hu0 : (0 : ℝ) ≤ 1 / 2 ^ p := by positivity
  have hsm := hs1' _ hu0 hup
  generalize hu : (1 / 2 ^ p : ℝ) = u at *
  set w := (1 + u) ^ (m + k + 3) - 1 with hw
  have hmono : ∀ i, i ≤ m + k + 3 → (1 + u) ^ i - 1 ≤ w := fun i hi => sub_le_sub_right (pow_le_pow_right₀ (by linarith) hi) 1
  have hw0 : 0 ≤ w := by have := hmono 0 (by omega); simpa using this
  have huw : u ≤ w := by have := hmono 1 (by omega); simpa using this
  have r1 : RelErr w fl := fun x => (hr x).trans (mul_le_mul_of_nonneg_right huw (abs_nonneg _))
  have r2 : DotErr w m (seqDot fl) := fun s e x y he => (seqDot_err hr hu0 m s e x y he).trans (mul_le_mul_of_nonneg_right (hmono _ (by omega)) (Finset.sum_nonneg fun _ _ => abs_nonneg _))
  have r3 : VecDotErr w (vecDot (n := k + 1) fl) := fun x y => (vecDot_err hr hu0 x y).trans (mul_le_mul_of_nonneg_right (hmono _ (by omega)) (Finset.sum_nonneg fun _ _ => abs_nonneg _))
  obtain ⟨q1, q2⟩ := h3 w hw0 (hsm.trans (min_le_left _ _)) fl (seqDot fl) (vecDot fl) r1 r2 (seqDot_local fl) r3 tol htol t0 o h0 hQ
  refine ⟨fun im hm o' E' xb t info h => ?_, q2 hbad⟩
  have hle := q1 im hm (o', E') xb t info h
  rcases h5 w hw0 (hsm.trans (min_le_right _ _)) fl (seqDot fl) r1 r2 (seqDot_local fl) _ _ t0 o o' E₀ E' xb t info h0 hQ h with ⟨-, h⟩ | ⟨x, a1, a2, a3, a4⟩
  · rw [h] at hle; exact absurd hbad (not_lt.2 hle)
  · rw [a2, WithTop.coe_le_coe] at hle
    exact ⟨x, a1, a2, hle, a4⟩

/-! ### Non-vacuity -/

/-- `F_1 = [[1]]`, `F0 = [[2]]`: minimise `s` with `y ≥ 0` and `s ≥ (2 - y)²`; `ell(16, 0)`, `t0 = inf`.  The best level is 0; a level of at most `0.01` is found. -/
example : ∃ (N p₀ : ℕ) (tol₀ : ℝ), 0 < tol₀ ∧ ∀ p fl, p₀ ≤ p → Nearest p fl →
    let F : Fin 1 → ℕ → ℕ → ℝ := fun _ _ _ => 1
    ∃ (j : ℕ) (log : _) (P : LsqOracle ℝ × Ell 2), j < N ∧
      DcRounds (fun x t => liftOracle (lsqOmegaF fl (seqDot fl) F (fun _ _ => 2) 1 x t)) ((Ell.spaceF fl (vecDot fl)).beside (LsqOracle ℝ)) tol₀ ⊤
        (⟨⟨⟨0, 0, fun _ _ => 0⟩, CholExt.init 1⟩, CholExt.init 1⟩, ⟨true, false, 0, 1, 4 ^ 2⟩) j log P ∧
      ∃ o' cut, lsqOmegaF fl (seqDot fl) F (fun _ _ => 2) 1 P.2.xc (bestT ⊤ log) P.1 = .ok (o', cut, some ((P.2.xc 1 : ℝ) : WithTop ℝ)) ∧ P.2.xc 1 ≤ 0.01 ∧ LsqFound F (fun _ _ => 2) 1 0.01 P.2.xc := by
  obtain ⟨N, p₀, tol₀, h1, h⟩ := C139_bits (F := fun _ : Fin 1 => fun _ _ => 1) (F0 := fun _ _ => 2) (m := 1) (E₀ := ⟨true, false, 0, 1, 4 ^ 2⟩) (z := ![2, 0]) (μ₀ := 2) (ρ := 1) (ν := 0.01) (B := 10)
    (fun q i j _ _ => rfl) ⟨le_rfl, PosDef.one, by norm_num⟩ two_pos (fun y => by simp [quadOn, combo, Fin.init]; nlinarith [sq_nonneg (y 0)])
    (fun y => by simp [quadOn, tiMinusGram, pencil, Fin.init]) one_pos (by
      rw [euclBall_eq_pts le_rfl]
      intro z hz
      have w0 := ball_coord zero_le_one hz 0
      have w1 := ball_coord zero_le_one hz 1
      simp only [cons_val_zero, cons_val_one] at w0 w1
      norm_num at w0 w1
      rw [abs_le] at w0 w1
      simp only [euclBall, Set.mem_ofPred_eq, Fin.sum_univ_two, Pi.zero_apply]
      nlinarith) (by norm_num) (by norm_num)
  refine ⟨N, p₀, tol₀, h1, fun p fl hp hfl => ?_⟩
  obtain ⟨j, log, P, q1, q2, o', cut, q3, q4, q5⟩ := (h p fl hp hfl tol₀ le_rfl ⊤ ⟨⟨⟨0, 0, fun _ _ => 0⟩, CholExt.init 1⟩, CholExt.init 1⟩ (ready_init 1) (ready_init 1) (WithTop.coe_lt_top _)).2
  refine ⟨j, log, P, q1, q2, o', cut, q3, ?_, q5⟩
  have : P.2.xc (Fin.last 1) ≤ ![2, 0] (Fin.last 1) + (0.01 : ℝ) := q4
  change P.2.xc (Fin.last 1) ≤ _
  simpa using this

end Verif
