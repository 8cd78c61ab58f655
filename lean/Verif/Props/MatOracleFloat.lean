import Verif.Model.MatOracleFloat
import Verif.Proofs.MatOracle
import Verif.Props.CholFloat

/-!
# C115: the linear matrix inequality oracles in floating point

As in C114: `u` bounds the relative error of one operation, `γ` that of a dot product, `θ = 3u + 2γ`.  `η` bounds the relative
error of a matrix entry, which is a sum of `k + 1` terms.
-/
namespace Verif
open Finset FloatSpec
variable {α : Type _} [Field α] [LinearOrder α] [IsStrictOrderedRing α] {k : ℕ}

/-- `Σ_q |x_q| |F_q|` -/
def absCombo (F : Fin k → ℕ → ℕ → α) (x : Fin k → α) (i j : ℕ) : α := ∑ q, |F q i j * x q|

/-- `|B| + Σ_q |x_q| |F_q|` -/
def absPencil (F : Fin k → ℕ → ℕ → α) (B : ℕ → ℕ → α) (x : Fin k → α) (i j : ℕ) : α := |B i j| + absCombo F x i j

/-- Entrywise absolute value. -/
def absMat (A : ℕ → ℕ → α) (i j : ℕ) : α := |A i j|

variable {u γ η : α} {fl : α → α} {dot : ℕ → ℕ → (ℕ → α) → (ℕ → α) → α}

/-- A perturbation of the entries perturbs the quadratic form. -/
theorem quadOn_perturb {A A' E : ℕ → ℕ → α} {s e : ℕ} (h : ∀ i j, i < e → j < e → |A' i j - A i j| ≤ E i j) (y : ℕ → α) :
    |quadOn A' s e y - quadOn A s e y| ≤ quadOn E s e (fun i => |y i|) := by
  unfold quadOn
  rw [← Finset.sum_sub_distrib]
  refine (Finset.abs_sum_le_sum_abs _ _).trans (Finset.sum_le_sum fun i hi => ?_)
  rw [← Finset.sum_sub_distrib]
  refine (Finset.abs_sum_le_sum_abs _ _).trans (Finset.sum_le_sum fun j hj => ?_)
  rw [Finset.mem_Ico] at hi hj
  rw [← sub_mul, ← mul_sub, abs_mul, abs_mul]
  exact mul_le_mul_of_nonneg_right (mul_le_mul_of_nonneg_left (h i j hi.2 hj.2) (abs_nonneg _)) (abs_nonneg _)

omit [LinearOrder α] [IsStrictOrderedRing α] in
theorem quadOn_smul (c : α) (A : ℕ → ℕ → α) (s e : ℕ) (y : ℕ → α) : quadOn (fun i j => c * A i j) s e y = c * quadOn A s e y := by
  unfold quadOn
  rw [Finset.mul_sum]
  refine Finset.sum_congr rfl fun i _ => ?_
  rw [Finset.mul_sum]
  exact Finset.sum_congr rfl fun j _ => by ring

omit [LinearOrder α] [IsStrictOrderedRing α] in
theorem finRange_sum (t : Fin k → α) : ((List.finRange k).map t).sum = ∑ q, t q := by
  rw [← List.sum_ofFn, List.ofFn_eq_map]

theorem linEntryF_err (hfl : RelErr u fl) (hu : 0 ≤ u) (F : Fin k → ℕ → ℕ → α) (x : Fin k → α) (i j : ℕ) :
    |linEntryF fl F x i j - combo F x i j| ≤ ((1 + u) ^ (k + 1) - 1) * absCombo F x i j := by
  have h := fold_err hfl hu (fun q => F q i j * x q) (List.finRange k)
  rw [finRange_sum, finRange_sum, List.length_finRange] at h
  have : combo F x i j = ∑ q, F q i j * x q := Finset.sum_congr rfl fun q _ => mul_comm _ _
  rw [this]
  exact h

theorem absCombo_nonneg (F : Fin k → ℕ → ℕ → α) (x : Fin k → α) (i j : ℕ) : 0 ≤ absCombo F x i j :=
  Finset.sum_nonneg fun _ _ => abs_nonneg _

theorem combo_abs (F : Fin k → ℕ → ℕ → α) (x : Fin k → α) (i j : ℕ) : |combo F x i j| ≤ absCombo F x i j :=
  (Finset.abs_sum_le_sum_abs _ _).trans (Finset.sum_le_sum fun q _ => by rw [mul_comm])

theorem affEntryF_err (hfl : RelErr u fl) (hu : 0 ≤ u) (hη : (1 + u) ^ (k + 2) ≤ 1 + η) (F : Fin k → ℕ → ℕ → α) (B : ℕ → ℕ → α)
    (x : Fin k → α) (i j : ℕ) : |affEntryF fl F B x i j - pencil F B x i j| ≤ η * absPencil F B x i j := by
  have h1 := linEntryF_err hfl hu F x i j
  have h2 := hfl (B i j - linEntryF fl F x i j)
  have h3 := absCombo_nonneg F x i j
  have h4 := combo_abs F x i j
  have hp : pencil F B x i j = B i j - combo F x i j := rfl
  have h5 : |linEntryF fl F x i j| ≤ (1 + u) ^ (k + 1) * absCombo F x i j := by
    have := abs_sub_abs_le_abs_sub (linEntryF fl F x i j) (combo F x i j)
    linarith
  have h6 : |B i j - linEntryF fl F x i j| ≤ |B i j| + (1 + u) ^ (k + 1) * absCombo F x i j := (abs_sub _ _).trans (by linarith)
  have h7 := mul_le_mul_of_nonneg_left h6 hu
  have h8 : u ≤ (1 + u) ^ (k + 2) - 1 := by
    have : (1 + u) ^ 1 ≤ (1 + u) ^ (k + 2) := pow_le_pow_right₀ (by linarith) (by omega)
    linarith
  have h9 : u * |B i j| ≤ ((1 + u) ^ (k + 2) - 1) * |B i j| := mul_le_mul_of_nonneg_right h8 (abs_nonneg _)
  have h10 : ((1 + u) ^ (k + 2) - 1) * absPencil F B x i j = ((1 + u) ^ (k + 2) - 1) * |B i j| +
      (u * ((1 + u) ^ (k + 1) * absCombo F x i j) + ((1 + u) ^ (k + 1) - 1) * absCombo F x i j) := by
    unfold absPencil; ring
  have h11 : ((1 + u) ^ (k + 2) - 1) * absPencil F B x i j ≤ η * absPencil F B x i j :=
    mul_le_mul_of_nonneg_right (by linarith) (add_nonneg (abs_nonneg _) h3)
  refine le_trans ?_ h11
  rw [h10, hp]
  unfold affEntryF
  rw [abs_le] at *
  constructor <;> linarith [h1.1, h1.2, h2.1, h2.2]

/-- The computed quadratic form. -/
theorem symQuadF_err (hγ : 0 ≤ γ) {m : ℕ} (hdot : DotErr γ m dot) (c : CholExt α) (hp : c.p.2 ≤ m) (A : ℕ → ℕ → α) :
    |c.symQuadF dot A - quadOn A c.p.1 c.p.2 c.v| ≤ (2 * γ + γ ^ 2) * quadOn (absMat A) c.p.1 c.p.2 (fun i => |c.v i|) := by
  unfold CholExt.symQuadF
  simp only
  set s := c.p.1
  set n := c.p.2
  set v := c.v
  set d : ℕ → α := fun j => dot s n v (fun i => A i j) with hd
  have h1 : ∀ j, |d j - ∑ i ∈ Ico s n, v i * A i j| ≤ γ * ∑ i ∈ Ico s n, |v i| * |A i j| := fun j => by
    simpa only [abs_mul] using hdot s n v (fun i => A i j) hp
  have h2 := hdot s n d v hp
  have hq : quadOn A s n v = ∑ j ∈ Ico s n, (∑ i ∈ Ico s n, v i * A i j) * v j := by
    unfold quadOn
    rw [Finset.sum_comm]
    exact Finset.sum_congr rfl fun j _ => by rw [Finset.sum_mul]
  have hq' : quadOn (absMat A) s n (fun i => |v i|) = ∑ j ∈ Ico s n, (∑ i ∈ Ico s n, |v i| * |A i j|) * |v j| := by
    unfold quadOn absMat
    rw [Finset.sum_comm]
    exact Finset.sum_congr rfl fun j _ => by rw [Finset.sum_mul]
  have h3 : ∀ j, |d j| ≤ (1 + γ) * ∑ i ∈ Ico s n, |v i| * |A i j| := fun j => by
    have h4 := h1 j
    have h5 := abs_sub_abs_le_abs_sub (d j) (∑ i ∈ Ico s n, v i * A i j)
    have h6 : |∑ i ∈ Ico s n, v i * A i j| ≤ ∑ i ∈ Ico s n, |v i| * |A i j| :=
      (Finset.abs_sum_le_sum_abs _ _).trans (Finset.sum_le_sum fun i _ => by rw [abs_mul])
    linarith
  have h7 : ∑ j ∈ Ico s n, |d j * v j| ≤ (1 + γ) * quadOn (absMat A) s n (fun i => |v i|) := by
    rw [hq', Finset.mul_sum]
    refine Finset.sum_le_sum fun j _ => ?_
    rw [abs_mul, ← mul_assoc]
    exact mul_le_mul_of_nonneg_right (h3 j) (abs_nonneg _)
  have h8 : |(∑ j ∈ Ico s n, d j * v j) - quadOn A s n v| ≤ γ * quadOn (absMat A) s n (fun i => |v i|) := by
    rw [hq, hq', ← Finset.sum_sub_distrib, Finset.mul_sum]
    refine (Finset.abs_sum_le_sum_abs _ _).trans (Finset.sum_le_sum fun j _ => ?_)
    rw [← sub_mul, abs_mul, ← mul_assoc]
    exact mul_le_mul_of_nonneg_right (h1 j) (abs_nonneg _)
  have h9 := mul_le_mul_of_nonneg_left h7 hγ
  have h10 : (2 * γ + γ ^ 2) * quadOn (absMat A) s n (fun i => |v i|) =
      γ * ((1 + γ) * quadOn (absMat A) s n (fun i => |v i|)) + γ * quadOn (absMat A) s n (fun i => |v i|) := by ring
  rw [h10]
  rw [abs_le] at *
  constructor <;> linarith [h2.1, h2.2, h8.1, h8.2]

/-- The factorisation of a matrix known up to entrywise errors. -/
theorem matF_core {m : ℕ} {Q : CholExt α} (hQ : Ready m Q) {W : Type _} {getA : ℕ → ℕ → W → Except PyErr (W × α)}
    {Pre In : ℕ → W → Prop} {A' A E : ℕ → ℕ → α} (hS : Serves getA A' m Pre In) {w : W} (hw : Pre 0 w) (hsym : SymOn A' m)
    (hE : ∀ i j, i < m → j < m → |A' i j - A i j| ≤ E i j) (hfl : RelErr u fl) (hu0 : 0 ≤ u) (hu : u ≤ 1 / 10) (hγ : 0 ≤ γ)
    (hdot : DotErr γ m dot) (hθ : 3 * u + 2 * γ ≤ 1 / 5) :
    ∃ w' Q1 b, Q.factorF fl dot getA w = .ok (w', Q1, b) ∧ Ready m Q1 ∧
      (b = true → ∀ ρ : ℕ → α, (∀ i, 0 ≤ ρ i) → (∀ i < m, A i i + E i i ≤ ρ i ^ 2) → ∀ y : ℕ → α, (∃ i < m, y i ≠ 0) →
        -(5 / 4 * (3 * u + 2 * γ) * (∑ i ∈ range m, ρ i * |y i|) ^ 2 + quadOn E 0 m (fun i => |y i|)) < quadOn A 0 m y) ∧
      (b = false → ∃ Q2 ep e, Q1.witnessF dot = .ok (Q2, ep) ∧ Ready m Q2 ∧ 0 ≤ ep ∧ Q2.p = (0, e) ∧ 0 < e ∧ e ≤ m ∧
        Q2.v (e - 1) = 1 ∧ In (e - 1) w' ∧ ∀ ρ : ℕ → α, (∀ i, 0 ≤ ρ i) → (∀ i < m, A i i + E i i ≤ ρ i ^ 2) →
          quadOn A 0 e Q2.v ≤ 3 * (3 * u + 2 * γ) * (∑ i ∈ range e, ρ i * |Q2.v i|) ^ 2 + quadOn E 0 e (fun i => |Q2.v i|) ∧
          quadOn A 0 e Q2.v ≤
            -ep + 5 * (3 * u + 2 * γ) * ((∑ i ∈ range e, ρ i * |Q2.v i|) ^ 2 + ep) + quadOn E 0 e (fun i => |Q2.v i|)) := by
  obtain ⟨hn, ha⟩ := hQ
  subst hn
  have hρ' : ∀ ρ : ℕ → α, (∀ i < Q.n, A i i + E i i ≤ ρ i ^ 2) → ∀ i < Q.n, A' i i ≤ ρ i ^ 2 := fun ρ h i hi => by
    have h1 := (abs_le.1 (hE i i hi hi)).2
    linarith [h i hi]
  obtain ⟨w', Q1, b, hf, h1, h2⟩ := C114_total Q hS hfl hu0 (by linarith) hdot hw
  refine ⟨w', Q1, b, hf, ⟨h1, h2.trans ha⟩, fun hb ρ hρ0 hρ y hy => ?_, fun hb => ?_⟩
  · subst hb
    have h3 := C114_accept Q ha hS hsym hfl hu0 hu hγ hdot hθ hw hf hρ0 (hρ' ρ hρ) hy
    have h4 := quadOn_perturb (s := 0) hE y
    linarith [(abs_le.1 h4).2]
  · subst hb
    obtain ⟨Q2, ep, h3, h4, -, h5, h6, h7, h8, ⟨h9, h10, hin⟩, h11⟩ := C114_reject Q hS hsym hfl hu0 hu hγ hdot hθ hw hf
    have h7' := h7 ha
    obtain ⟨n2, a2, ⟨s2, e2⟩, v2, T2⟩ := Q2
    simp only at h5 h6 h7' h8 h9 h10 h11 hin
    subst h7'
    refine ⟨_, ep, e2, h3, ⟨h9, h10.trans ha⟩, h4, rfl, by omega, h6, h8, hin, fun ρ hρ0 hρ => ?_⟩
    obtain ⟨h12, h13⟩ := h11 ρ hρ0 fun i _ hi => hρ' ρ hρ i (by omega)
    have h14 := quadOn_perturb (A := A) (A' := A') (s := 0) (e := e2) (fun i j hi hj => hE i j (by omega) (by omega)) v2
    rw [range_eq_Ico]
    exact ⟨by linarith [(abs_le.1 h14).1], by linarith [(abs_le.1 h14).1, (abs_le.1 h13).2]⟩

/-- The cut of a rounded `lmi_oracle` at any point `z`: it is violated by no more than the form of the matrix at `z`, up to rounding. -/
theorem lmiF_any {F : Fin k → ℕ → ℕ → α} {B : ℕ → ℕ → α} {m : ℕ} (hF : ∀ q, SymOn (F q) m) (hB : SymOn B m) (x : Fin k → α)
    {Q : CholExt α} (hQ : Ready m Q) (hfl : RelErr u fl) (hu0 : 0 ≤ u) (hu : u ≤ 1 / 10) (hγ : 0 ≤ γ)
    (hdot : DotErr γ m dot) (hθ : 3 * u + 2 * γ ≤ 1 / 5) (hη : (1 + u) ^ (k + 2) ≤ 1 + η) :
    ∃ Q' r, lmiCallF fl dot F B m x Q = .ok (Q', r) ∧ Ready m Q' ∧
      (r = none → ∀ ρ : ℕ → α, (∀ i, 0 ≤ ρ i) → (∀ i < m, pencil F B x i i + η * absPencil F B x i i ≤ ρ i ^ 2) →
        ∀ y : ℕ → α, (∃ i < m, y i ≠ 0) →
          -(5 / 4 * (3 * u + 2 * γ) * (∑ i ∈ range m, ρ i * |y i|) ^ 2 + η * quadOn (absPencil F B x) 0 m (fun i => |y i|)) <
            quadOn (pencil F B x) 0 m y) ∧
      ∀ g ep, r = some (g, ep) → 0 ≤ ep ∧ ∃ e, 0 < e ∧ e ≤ m ∧ Q'.v (e - 1) = 1 ∧
        ∀ ρ : ℕ → α, (∀ i, 0 ≤ ρ i) → (∀ i < m, pencil F B x i i + η * absPencil F B x i i ≤ ρ i ^ 2) →
          quadOn (pencil F B x) 0 e Q'.v ≤ 3 * (3 * u + 2 * γ) * (∑ i ∈ range e, ρ i * |Q'.v i|) ^ 2 +
            η * quadOn (absPencil F B x) 0 e (fun i => |Q'.v i|) ∧
          ∀ z, ∑ q, g q * (z q - x q) + ep ≤ -quadOn (pencil F B z) 0 e Q'.v +
            5 * (3 * u + 2 * γ) * ((∑ i ∈ range e, ρ i * |Q'.v i|) ^ 2 + ep) +
            η * quadOn (absPencil F B x) 0 e (fun i => |Q'.v i|) +
            (2 * γ + γ ^ 2) * ∑ q, |z q - x q| * quadOn (absMat (F q)) 0 e (fun i => |Q'.v i|) := by
  have hsym : SymOn (affEntryF fl F B x) m := fun i j hi hj => by
    have : linEntryF fl F x i j = linEntryF fl F x j i := by
      unfold linEntryF
      congr 1
      funext a q
      rw [hF q i j hi hj]
    rw [affEntryF, affEntryF, hB i j hi hj, this]
  have hS : Serves (W := Unit) (readAt m (affEntryF fl F B x)) (affEntryF fl F B x) m (fun _ _ => True) (fun _ _ => True) :=
    serves_readAt le_rfl _ _ fun i j _ _ => rfl
  obtain ⟨⟨⟩, Q1, b, hf, hr, hacc, hrej⟩ := matF_core hQ (E := fun i j => η * absPencil F B x i j) hS (w := ()) trivial hsym
    (fun i j _ _ => affEntryF_err hfl hu0 hη F B x i j) hfl hu0 hu hγ hdot hθ
  cases b with
  | true =>
    refine ⟨Q1, none, by simp only [lmiCallF, hf], hr, fun _ ρ hρ0 hρ y hy => ?_, fun g ep h => by simp at h⟩
    have := hacc rfl ρ hρ0 hρ y hy
    rwa [quadOn_smul] at this
  | false =>
    obtain ⟨Q2, ep, e, hw, hr2, hep, hp, he0, hem, hv, -, hq⟩ := hrej rfl
    refine ⟨Q2, some (fun q => Q2.symQuadF dot (F q), ep), by simp only [lmiCallF, hf, hw], hr2, fun h => by simp at h, ?_⟩
    intro g ep' h
    simp only [Option.some.injEq, Prod.mk.injEq] at h
    obtain ⟨rfl, rfl⟩ := h
    refine ⟨hep, e, he0, hem, hv, fun ρ hρ0 hρ => ?_⟩
    obtain ⟨h1, h2⟩ := hq ρ hρ0 hρ
    rw [quadOn_smul] at h1 h2
    refine ⟨h1, fun z => ?_⟩
    have h3 : ∀ q, Q2.symQuadF dot (F q) * (z q - x q) ≤ quadOn (F q) 0 e Q2.v * (z q - x q) +
        (2 * γ + γ ^ 2) * (|z q - x q| * quadOn (absMat (F q)) 0 e (fun i => |Q2.v i|)) := fun q => by
      have h4 := symQuadF_err hγ hdot Q2 (by rw [hp]; exact hem) (F q)
      rw [hp] at h4
      have h5 := mul_le_mul_of_nonneg_right h4 (abs_nonneg (z q - x q))
      rw [← abs_mul] at h5
      linarith [le_abs_self ((Q2.symQuadF dot (F q) - quadOn (F q) 0 e Q2.v) * (z q - x q))]
    have h4 := Finset.sum_le_sum fun q (_ : q ∈ Finset.univ) => h3 q
    rw [Finset.sum_add_distrib, ← Finset.mul_sum] at h4
    have h5 := quadOn_pencil F B z 0 e Q2.v
    rw [quadOn_pencil] at h2
    have h6 : ∑ q, quadOn (F q) 0 e Q2.v * (z q - x q) =
        ∑ q, z q * quadOn (F q) 0 e Q2.v - ∑ q, x q * quadOn (F q) 0 e Q2.v := by
      rw [← Finset.sum_sub_distrib]
      exact Finset.sum_congr rfl fun q _ => by ring
    linarith

/-- **C115** (`lmi_oracle` in floating point), on any reused object.  It never raises.  If it accepts `x`, then `B - Σ x_q F_q` is
positive definite up to the rounding errors.  If it returns a cut, then the matrix is not positive definite by more than the
rounding errors, and the cut holds for every feasible `z`, up to the rounding errors (of the factorisation, of the entries of the
matrix, and of the gradient). -/
theorem C115_lmi {F : Fin k → ℕ → ℕ → α} {B : ℕ → ℕ → α} {m : ℕ} (hF : ∀ q, SymOn (F q) m) (hB : SymOn B m) (x : Fin k → α)
    {Q : CholExt α} (hQ : Ready m Q) (hfl : RelErr u fl) (hu0 : 0 ≤ u) (hu : u ≤ 1 / 10) (hγ : 0 ≤ γ)
    (hdot : DotErr γ m dot) (hθ : 3 * u + 2 * γ ≤ 1 / 5) (hη : (1 + u) ^ (k + 2) ≤ 1 + η) :
    ∃ Q' r, lmiCallF fl dot F B m x Q = .ok (Q', r) ∧ Ready m Q' ∧
      (r = none → ∀ ρ : ℕ → α, (∀ i, 0 ≤ ρ i) → (∀ i < m, pencil F B x i i + η * absPencil F B x i i ≤ ρ i ^ 2) →
        ∀ y : ℕ → α, (∃ i < m, y i ≠ 0) →
          -(5 / 4 * (3 * u + 2 * γ) * (∑ i ∈ range m, ρ i * |y i|) ^ 2 + η * quadOn (absPencil F B x) 0 m (fun i => |y i|)) <
            quadOn (pencil F B x) 0 m y) ∧
      ∀ g ep, r = some (g, ep) → 0 ≤ ep ∧ ∃ e, 0 < e ∧ e ≤ m ∧ Q'.v (e - 1) = 1 ∧
        ∀ ρ : ℕ → α, (∀ i, 0 ≤ ρ i) → (∀ i < m, pencil F B x i i + η * absPencil F B x i i ≤ ρ i ^ 2) →
          quadOn (pencil F B x) 0 e Q'.v ≤ 3 * (3 * u + 2 * γ) * (∑ i ∈ range e, ρ i * |Q'.v i|) ^ 2 +
            η * quadOn (absPencil F B x) 0 e (fun i => |Q'.v i|) ∧
          ∀ z, PSDon (pencil F B z) 0 m → ∑ q, g q * (z q - x q) + ep ≤
            5 * (3 * u + 2 * γ) * ((∑ i ∈ range e, ρ i * |Q'.v i|) ^ 2 + ep) +
            η * quadOn (absPencil F B x) 0 e (fun i => |Q'.v i|) +
            (2 * γ + γ ^ 2) * ∑ q, |z q - x q| * quadOn (absMat (F q)) 0 e (fun i => |Q'.v i|) := by
  obtain ⟨Q', r, h1, h2, h3, h4⟩ := lmiF_any hF hB x hQ hfl hu0 hu hγ hdot hθ hη
  refine ⟨Q', r, h1, h2, h3, fun g ep h => ?_⟩
  obtain ⟨h5, e, h6, h7, h8, h9⟩ := h4 g ep h
  refine ⟨h5, e, h6, h7, h8, fun ρ hρ0 hρ => ?_⟩
  obtain ⟨h10, h11⟩ := h9 ρ hρ0 hρ
  refine ⟨h10, fun z hz => (h11 z).trans ?_⟩
  have := (hz.sub le_rfl h7) Q'.v
  linarith

/-- `lmi0_oracle` in floating point: the cut, for arbitrary `z`. -/
theorem lmi0F_any {F : Fin k → ℕ → ℕ → α} {m : ℕ} (hF : ∀ q, SymOn (F q) m) (x : Fin k → α)
    {Q : CholExt α} (hQ : Ready m Q) (hfl : RelErr u fl) (hu0 : 0 ≤ u) (hu : u ≤ 1 / 10) (hγ : 0 ≤ γ)
    (hdot : DotErr γ m dot) (hθ : 3 * u + 2 * γ ≤ 1 / 5) (hη : (1 + u) ^ (k + 1) ≤ 1 + η) :
    ∃ Q' r, lmi0CallF fl dot F m x Q = .ok (Q', r) ∧ Ready m Q' ∧
      (r = none → ∀ ρ : ℕ → α, (∀ i, 0 ≤ ρ i) → (∀ i < m, combo F x i i + η * absCombo F x i i ≤ ρ i ^ 2) →
        ∀ y : ℕ → α, (∃ i < m, y i ≠ 0) →
          -(5 / 4 * (3 * u + 2 * γ) * (∑ i ∈ range m, ρ i * |y i|) ^ 2 + η * quadOn (absCombo F x) 0 m (fun i => |y i|)) <
            quadOn (combo F x) 0 m y) ∧
      ∀ g ep, r = some (g, ep) → 0 ≤ ep ∧ ∃ e, 0 < e ∧ e ≤ m ∧ Q'.v (e - 1) = 1 ∧
        ∀ ρ : ℕ → α, (∀ i, 0 ≤ ρ i) → (∀ i < m, combo F x i i + η * absCombo F x i i ≤ ρ i ^ 2) →
          quadOn (combo F x) 0 e Q'.v ≤ 3 * (3 * u + 2 * γ) * (∑ i ∈ range e, ρ i * |Q'.v i|) ^ 2 +
            η * quadOn (absCombo F x) 0 e (fun i => |Q'.v i|) ∧
          ∀ z, ∑ q, g q * (z q - x q) + ep ≤ -quadOn (combo F z) 0 e Q'.v +
            5 * (3 * u + 2 * γ) * ((∑ i ∈ range e, ρ i * |Q'.v i|) ^ 2 + ep) +
            η * quadOn (absCombo F x) 0 e (fun i => |Q'.v i|) +
            (2 * γ + γ ^ 2) * ∑ q, |z q - x q| * quadOn (absMat (F q)) 0 e (fun i => |Q'.v i|) := by
  have hsym : SymOn (linEntryF fl F x) m := fun i j hi hj => by
    unfold linEntryF
    congr 1
    funext a q
    rw [hF q i j hi hj]
  have hS : Serves (W := Unit) (readAt m (linEntryF fl F x)) (linEntryF fl F x) m (fun _ _ => True) (fun _ _ => True) :=
    serves_readAt le_rfl _ _ fun i j _ _ => rfl
  obtain ⟨⟨⟩, Q1, b, hf, hr, hacc, hrej⟩ := matF_core hQ (E := fun i j => η * absCombo F x i j) hS (w := ()) trivial hsym
    (fun i j _ _ => (linEntryF_err hfl hu0 F x i j).trans (mul_le_mul_of_nonneg_right (by linarith) (absCombo_nonneg F x i j)))
    hfl hu0 hu hγ hdot hθ
  cases b with
  | true =>
    refine ⟨Q1, none, by simp only [lmi0CallF, hf], hr, fun _ ρ hρ0 hρ y hy => ?_, fun g ep h => by simp at h⟩
    have := hacc rfl ρ hρ0 hρ y hy
    rwa [quadOn_smul] at this
  | false =>
    obtain ⟨Q2, ep, e, hw, hr2, hep, hp, he0, hem, hv, -, hq⟩ := hrej rfl
    refine ⟨Q2, some (fun q => -Q2.symQuadF dot (F q), ep), by simp only [lmi0CallF, hf, hw], hr2, fun h => by simp at h, ?_⟩
    intro g ep' h
    simp only [Option.some.injEq, Prod.mk.injEq] at h
    obtain ⟨rfl, rfl⟩ := h
    refine ⟨hep, e, he0, hem, hv, fun ρ hρ0 hρ => ?_⟩
    obtain ⟨h1, h2⟩ := hq ρ hρ0 hρ
    rw [quadOn_smul] at h1 h2
    refine ⟨h1, fun z => ?_⟩
    have h3 : ∀ q, -Q2.symQuadF dot (F q) * (z q - x q) ≤ -(quadOn (F q) 0 e Q2.v * (z q - x q)) +
        (2 * γ + γ ^ 2) * (|z q - x q| * quadOn (absMat (F q)) 0 e (fun i => |Q2.v i|)) := fun q => by
      have h4 := symQuadF_err hγ hdot Q2 (by rw [hp]; exact hem) (F q)
      rw [hp] at h4
      have h5 := mul_le_mul_of_nonneg_right h4 (abs_nonneg (z q - x q))
      rw [← abs_mul] at h5
      linarith [neg_abs_le ((Q2.symQuadF dot (F q) - quadOn (F q) 0 e Q2.v) * (z q - x q))]
    have h4 := Finset.sum_le_sum fun q (_ : q ∈ Finset.univ) => h3 q
    rw [Finset.sum_add_distrib, ← Finset.mul_sum, Finset.sum_neg_distrib] at h4
    rw [quadOn_combo] at h2 ⊢
    have h6 : ∑ q, quadOn (F q) 0 e Q2.v * (z q - x q) =
        ∑ q, z q * quadOn (F q) 0 e Q2.v - ∑ q, x q * quadOn (F q) 0 e Q2.v := by
      rw [← Finset.sum_sub_distrib]
      exact Finset.sum_congr rfl fun q _ => by ring
    linarith

/-- **C115** (`lmi0_oracle` in floating point). -/
theorem C115_lmi0 {F : Fin k → ℕ → ℕ → α} {m : ℕ} (hF : ∀ q, SymOn (F q) m) (x : Fin k → α)
    {Q : CholExt α} (hQ : Ready m Q) (hfl : RelErr u fl) (hu0 : 0 ≤ u) (hu : u ≤ 1 / 10) (hγ : 0 ≤ γ)
    (hdot : DotErr γ m dot) (hθ : 3 * u + 2 * γ ≤ 1 / 5) (hη : (1 + u) ^ (k + 1) ≤ 1 + η) :
    ∃ Q' r, lmi0CallF fl dot F m x Q = .ok (Q', r) ∧ Ready m Q' ∧
      (r = none → ∀ ρ : ℕ → α, (∀ i, 0 ≤ ρ i) → (∀ i < m, combo F x i i + η * absCombo F x i i ≤ ρ i ^ 2) →
        ∀ y : ℕ → α, (∃ i < m, y i ≠ 0) →
          -(5 / 4 * (3 * u + 2 * γ) * (∑ i ∈ range m, ρ i * |y i|) ^ 2 + η * quadOn (absCombo F x) 0 m (fun i => |y i|)) <
            quadOn (combo F x) 0 m y) ∧
      ∀ g ep, r = some (g, ep) → 0 ≤ ep ∧ ∃ e, 0 < e ∧ e ≤ m ∧ Q'.v (e - 1) = 1 ∧
        ∀ ρ : ℕ → α, (∀ i, 0 ≤ ρ i) → (∀ i < m, combo F x i i + η * absCombo F x i i ≤ ρ i ^ 2) →
          quadOn (combo F x) 0 e Q'.v ≤ 3 * (3 * u + 2 * γ) * (∑ i ∈ range e, ρ i * |Q'.v i|) ^ 2 +
            η * quadOn (absCombo F x) 0 e (fun i => |Q'.v i|) ∧
          ∀ z, PSDon (combo F z) 0 m → ∑ q, g q * (z q - x q) + ep ≤
            5 * (3 * u + 2 * γ) * ((∑ i ∈ range e, ρ i * |Q'.v i|) ^ 2 + ep) +
            η * quadOn (absCombo F x) 0 e (fun i => |Q'.v i|) +
            (2 * γ + γ ^ 2) * ∑ q, |z q - x q| * quadOn (absMat (F q)) 0 e (fun i => |Q'.v i|) := by
  obtain ⟨Q', r, h1, h2, h3, h4⟩ := lmi0F_any hF x hQ hfl hu0 hu hγ hdot hθ hη
  refine ⟨Q', r, h1, h2, h3, fun g ep h => ?_⟩
  obtain ⟨h5, e, h6, h7, h8, h9⟩ := h4 g ep h
  refine ⟨h5, e, h6, h7, h8, fun ρ hρ0 hρ => ⟨(h9 ρ hρ0 hρ).1, fun z hz => ?_⟩⟩
  have h10 := (h9 ρ hρ0 hρ).2 z
  have h11 := (hz.sub le_rfl h7) Q'.v
  linarith

omit [IsStrictOrderedRing α] in
/-- **C115**: `lmi_old_oracle` computes the same floating-point numbers as `lmi_oracle`, bit for bit, for any rounding and any
dot product. -/
theorem C115_lmi_old_agrees (F : Fin k → ℕ → ℕ → α) (B : ℕ → ℕ → α) (m : ℕ) (x : Fin k → α) (Q : CholExt α) :
    lmiOldCallF fl dot F B m x Q = lmiCallF fl dot F B m x Q := by
  have hS : ∀ (l : List (Fin k)) (S : ℕ → ℕ → α), l.foldl (fun S q => fun i j => fl (S i j + fl (F q i j * x q))) S =
      fun i j => l.foldl (fun a q => fl (a + fl (F q i j * x q))) (S i j) := by
    intro l
    induction l with
    | nil => intro S; rfl
    | cons q l ih => intro S; rw [List.foldl_cons, ih]; rfl
  unfold lmiOldCallF lmiCallF
  simp only [hS]
  have hA : (fun i j => fl (B i j - (List.finRange k).foldl (fun a q => fl (a + fl (F q i j * x q))) 0)) = affEntryF fl F B x := rfl
  rw [hA]
  rcases Q.factorF fl dot (readAt (W := Unit) m (affEntryF fl F B x)) () with e | ⟨⟨⟩, Q1, b⟩
  · rfl
  · cases b
    · simp
    · simp

omit [IsStrictOrderedRing α] in
/-- Without rounding these are the oracles of `Verif/Model/MatOracle.lean`. -/
theorem C115_exact (F : Fin k → ℕ → ℕ → α) (B : ℕ → ℕ → α) (m : ℕ) (x : Fin k → α) (Q : CholExt α) :
    lmiCallF id exactDot F B m x Q = lmiCall F B m x Q ∧ lmi0CallF id exactDot F m x Q = lmi0Call F m x Q := by
  have hl : ∀ (l : List (Fin k)) (i j : ℕ) (a : α), l.foldl (fun a q => id (a + id (F q i j * x q))) a =
      a + (l.map fun q => F q i j * x q).sum := by
    intro l i j
    induction l with
    | nil => intro a; simp
    | cons q l ih => intro a; rw [List.foldl_cons, ih, List.map_cons, List.sum_cons]; simp only [id]; ring
  have h1 : linEntryF id F x = linEntry F x := by
    funext i j
    unfold linEntryF linEntry
    rw [hl, zero_add, finRange_sum]
  have h2 : affEntryF id F B x = affEntry F B x := by
    funext i j
    unfold affEntryF affEntry
    rw [h1]; rfl
  have h3 : ∀ (c : CholExt α) (A : ℕ → ℕ → α), c.symQuadF exactDot A = c.symQuad A := fun c A => rfl
  unfold lmiCallF lmiCall lmi0CallF lmi0Call
  simp only [factorF_exact, witnessF_exact, h1, h2, h3]
  exact ⟨rfl, rfl⟩

/-- **C115** (the verdict in floating point with `p` bits): rounding to nearest, sums from left to right.  With
`θ = (4m + 7) / 2^p` and `η = 2 (k + 2) / 2^p`, a point that satisfies the inequality with a margin above `3 θ` and `η` is
accepted, and a point that violates it by more than `5/4 θ` and `η` is cut. -/
theorem C115_double {p : ℕ} {fl : ℚ → ℚ} (hfl : Nearest p fl) {F : Fin k → ℕ → ℕ → ℚ} {B : ℕ → ℕ → ℚ} {m : ℕ}
    (hF : ∀ q, SymOn (F q) m) (hB : SymOn B m) (x : Fin k → ℚ) {Q : CholExt ℚ} (hQ : Ready m Q)
    (hm : 5 * (4 * (m : ℚ) + 7) ≤ 2 ^ p) (hk : 2 * ((k : ℚ) + 2) ≤ 2 ^ p) {ρ : ℕ → ℚ} (hρ0 : ∀ i, 0 ≤ ρ i)
    (hρ : ∀ i < m, pencil F B x i i + 2 * (k + 2) / 2 ^ p * absPencil F B x i i ≤ ρ i ^ 2) :
    ∃ Q' r, lmiCallF fl (seqDot fl) F B m x Q = .ok (Q', r) ∧ Ready m Q' ∧
      ((∀ y : ℕ → ℚ, (∃ i < m, y i ≠ 0) → 3 * ((4 * m + 7) / 2 ^ p) * (∑ i ∈ range m, ρ i * |y i|) ^ 2 +
          2 * (k + 2) / 2 ^ p * quadOn (absPencil F B x) 0 m (fun i => |y i|) < quadOn (pencil F B x) 0 m y) → r = none) ∧
      ((∃ y : ℕ → ℚ, (∃ i < m, y i ≠ 0) ∧ quadOn (pencil F B x) 0 m y ≤ -(5 / 4 * ((4 * m + 7) / 2 ^ p) *
          (∑ i ∈ range m, ρ i * |y i|) ^ 2 + 2 * (k + 2) / 2 ^ p * quadOn (absPencil F B x) 0 m (fun i => |y i|))) → r ≠ none) := by
  set u : ℚ := 1 / 2 ^ p with hu
  have hu0 : 0 ≤ u := by positivity
  have hn0 : (0 : ℚ) ≤ m := Nat.cast_nonneg _
  have hup : 2 ^ p * u = 1 := by rw [hu]; field_simp
  have hbig : 5 * (4 * (m : ℚ) + 7) * u ≤ 1 := by rw [← hup]; exact mul_le_mul_of_nonneg_right hm hu0
  have hnu : 0 ≤ (m : ℚ) * u := mul_nonneg hn0 hu0
  have hN : ((m + 1 : ℕ) : ℚ) * u ≤ 1 / 2 := by push_cast; linarith
  have hK : ((k + 2 : ℕ) : ℚ) * u ≤ 1 / 2 := by
    have : 2 * ((k : ℚ) + 2) * u ≤ 1 := by rw [← hup]; exact mul_le_mul_of_nonneg_right hk hu0
    push_cast; linarith
  have hγ0 : (0 : ℚ) ≤ 2 * (((m + 1 : ℕ) : ℚ) * u) := by positivity
  have hdot : DotErr (2 * (((m + 1 : ℕ) : ℚ) * u)) m (seqDot fl) := fun s e x y he =>
    (seqDot_err hfl.relErr hu0 m s e x y he).trans
      (mul_le_mul_of_nonneg_right (pow_sub_one_le hu0 _ hN) (Finset.sum_nonneg fun _ _ => abs_nonneg _))
  have hθ : 3 * u + 2 * (2 * (((m + 1 : ℕ) : ℚ) * u)) = (4 * m + 7) / 2 ^ p := by
    rw [div_eq_mul_one_div, ← hu]; push_cast; ring
  have hη : 2 * (((k + 2 : ℕ) : ℚ) * u) = 2 * (k + 2) / 2 ^ p := by
    rw [div_eq_mul_one_div, ← hu]; push_cast; ring
  have key := C115_lmi hF hB x hQ hfl.relErr hu0 (by linarith) hγ0 hdot (by push_cast; linarith)
    (η := 2 * (((k + 2 : ℕ) : ℚ) * u)) (by have := pow_sub_one_le hu0 _ hK; linarith)
  rw [hθ, hη] at key
  obtain ⟨Q', r, h1, h2, h3, h4⟩ := key
  refine ⟨Q', r, h1, h2, fun hpd => ?_, fun ⟨y, hy, hq⟩ hr => absurd (h3 hr ρ hρ0 hρ y hy) (not_lt.2 hq)⟩
  rcases r with _ | ⟨g, ep⟩
  · rfl
  · obtain ⟨-, e, he0, hem, hv, h5⟩ := h4 g ep rfl
    have h6 := (h5 ρ hρ0 hρ).1
    have h7 := hpd (fun i => if i < e then Q'.v i else 0) ⟨e - 1, by omega, by
      simp only [if_pos (show e - 1 < e by omega), hv]; exact one_ne_zero⟩
    have habs : (fun i => |if i < e then Q'.v i else 0|) = fun i => if i < e then |Q'.v i| else 0 := by
      funext i
      split_ifs
      · rfl
      · exact abs_zero
    have hsum : ∑ i ∈ range m, ρ i * |if i < e then Q'.v i else 0| = ∑ i ∈ range e, ρ i * |Q'.v i| := by
      rw [range_eq_Ico, range_eq_Ico, ← Finset.sum_Ico_consecutive _ (Nat.zero_le e) hem, Finset.sum_eq_zero (s := Ico e m), add_zero]
      · exact Finset.sum_congr rfl fun i hi => by rw [Finset.mem_Ico] at hi; rw [if_pos hi.2]
      · intro i hi
        rw [Finset.mem_Ico] at hi
        rw [if_neg (by omega)]; simp
    rw [hsum, habs, quadOn_extend hem, quadOn_extend hem] at h7
    linarith

/-! ### Non-vacuity: `[[2, 1], [1, 2]] - x [[1, 0], [0, 1]]` in double precision -/

/-- `x = 0` is accepted, `x = 2` is cut. -/
example : (∃ Q', lmiCallF (ieee 53) (seqDot (ieee 53)) (fun _ : Fin 1 => two 1 0 1) (two 2 1 2) 2 (fun _ => 0) (CholExt.init 2) =
      .ok (Q', none)) ∧
    ∃ Q' g ep, lmiCallF (ieee 53) (seqDot (ieee 53)) (fun _ : Fin 1 => two 1 0 1) (two 2 1 2) 2 (fun _ => 2) (CholExt.init 2) =
      .ok (Q', some (g, ep)) := by
  have hfl := ieee_nearest (α := ℚ) (p := 53) (by norm_num)
  constructor
  · obtain ⟨Q', r, h1, -, h2, -⟩ := C115_double hfl (F := fun _ : Fin 1 => two 1 0 1) (B := two 2 1 2) (m := 2) (fun _ => two_sym _ _ _)
      (two_sym _ _ _) (fun _ => 0) (ready_init 2) (by norm_num) (by norm_num) (ρ := fun _ => 2) (fun _ => by norm_num) (fun i hi => by
        rcases (show i = 0 ∨ i = 1 by omega) with rfl | rfl <;> norm_num [two, pencil, absPencil, absCombo, combo])
    suffices hr : r = none from ⟨Q', hr ▸ h1⟩
    refine h2 fun y ⟨i, hi, hy⟩ => ?_
    have e1 : quadOn (pencil (fun _ : Fin 1 => two 1 0 1) (two 2 1 2) fun _ => 0) 0 2 y = 2 * y 0 ^ 2 + 2 * y 0 * y 1 + 2 * y 1 ^ 2 := by
      simp [quadOn_pencil, two_quad]
    have e2 : quadOn (absPencil (fun _ : Fin 1 => two 1 0 1) (two 2 1 2) fun _ => 0) 0 2 (fun i => |y i|) =
        2 * |y 0| ^ 2 + 2 * (|y 0| * |y 1|) + 2 * |y 1| ^ 2 := by
      simp only [quadOn, absPencil, absCombo, two, Nat.Ico_zero_eq_range, Finset.sum_range_succ, Finset.sum_range_zero]
      norm_num
      rw [← sq_abs (y 0), ← sq_abs (y 1)]
      ring
    rw [e1, e2]
    simp only [Finset.sum_range_succ, Finset.sum_range_zero, zero_add]
    have hn : 0 < |y 0| ^ 2 + |y 1| ^ 2 := by
      rcases (show i = 0 ∨ i = 1 by omega) with rfl | rfl
      · have : 0 < |y 0| := abs_pos.2 hy
        positivity
      · have : 0 < |y 1| := abs_pos.2 hy
        positivity
    have h3 := neg_abs_le (y 0 * y 1)
    rw [abs_mul] at h3
    have h4 := sq_nonneg (|y 0| - |y 1|)
    rw [← sq_abs (y 0), ← sq_abs (y 1)]
    generalize |y 0| = a at *
    generalize |y 1| = b at *
    have h5 : a * b ≤ (a ^ 2 + b ^ 2) / 2 := by linarith
    push_cast
    calc _ = (180 / 2 ^ 53 + 12 / 2 ^ 53) * (a ^ 2 + b ^ 2) + (360 / 2 ^ 53 + 12 / 2 ^ 53) * (a * b) := by ring
      _ < 2 * (a ^ 2 + b ^ 2) - 2 * ((a ^ 2 + b ^ 2) / 2) := by linarith
      _ ≤ _ := by linarith
  · obtain ⟨Q', r, h1, -, -, h2⟩ := C115_double hfl (F := fun _ : Fin 1 => two 1 0 1) (B := two 2 1 2) (m := 2) (fun _ => two_sym _ _ _)
      (two_sym _ _ _) (fun _ => 2) (ready_init 2) (by norm_num) (by norm_num) (ρ := fun _ => 1) (fun _ => by norm_num) (fun i hi => by
        rcases (show i = 0 ∨ i = 1 by omega) with rfl | rfl <;> norm_num [two, pencil, absPencil, absCombo, combo])
    have h3 := h2 ⟨fun i => if i = 0 then 1 else -1, ⟨0, by norm_num, by norm_num⟩, by
      rw [quadOn_pencil]
      norm_num [Finset.sum_range_succ, two_quad, quadOn, absPencil, absCombo, two]⟩
    rcases r with _ | ⟨g, ep⟩
    · exact absurd rfl h3
    · exact ⟨Q', g, ep, h1⟩

end Verif
