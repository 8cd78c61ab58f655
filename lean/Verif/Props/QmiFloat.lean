import Verif.Model.QmiFloat
import Verif.Props.MatOracle
import Verif.Props.MatOracleFloat

/-!
# C116: the quadratic matrix inequality and least-squares oracles in floating point

`u`, `γ`, `θ`, `η` as in C115.  `δ` bounds the relative error of an entry of `t·I - F(x)'F(x)`, `ζ` that of a gradient.
-/
namespace Verif
open Finset FloatSpec
variable {α : Type _} [Field α] [LinearOrder α] [IsStrictOrderedRing α] {k : ℕ}

/-- `|t|·I + P'P` -/
def absGram (nr : ℕ) (t : α) (P : ℕ → ℕ → α) (i j : ℕ) : α := (if i = j then |t| else 0) + ∑ l ∈ range nr, P l i * P l j

/-- `Σ_l (Σ_i |v_i| |F_{il}|) (Σ_i |v_i| P_{li})` -/
def absBilin (nr e : ℕ) (v : ℕ → α) (F P : ℕ → ℕ → α) : α :=
  ∑ l ∈ range nr, (∑ i ∈ range e, |v i| * |F i l|) * ∑ i ∈ range e, |v i| * P l i

variable {u γ η δ ζ : α} {fl : α → α} {dot : ℕ → ℕ → (ℕ → α) → (ℕ → α) → α}

theorem absPencil_nonneg (F : Fin k → ℕ → ℕ → α) (B : ℕ → ℕ → α) (x : Fin k → α) (i j : ℕ) : 0 ≤ absPencil F B x i j :=
  add_nonneg (abs_nonneg _) (absCombo_nonneg F x i j)

theorem pencil_abs (F : Fin k → ℕ → ℕ → α) (B : ℕ → ℕ → α) (x : Fin k → α) (i j : ℕ) : |pencil F B x i j| ≤ absPencil F B x i j :=
  (abs_sub _ _).trans (add_le_add_right (combo_abs F x i j) _)

/-- The error of a product of two approximate numbers. -/
theorem mul_err {a b c d p q ε ε' : α} (hε : 0 ≤ ε) (hp : 0 ≤ p) (hac : |a - c| ≤ ε * p) (hbd : |b - d| ≤ ε' * q)
    (hc : |c| ≤ p) (hd : |d| ≤ q) : |a * b - c * d| ≤ ((1 + ε) * (1 + ε') - 1) * (p * q) := by
  have e : a * b - c * d = (a - c) * (b - d) + (a - c) * d + c * (b - d) := by ring
  have h1 : |(a - c) * (b - d)| ≤ ε * p * (ε' * q) := by
    rw [abs_mul]; exact mul_le_mul hac hbd (abs_nonneg _) (mul_nonneg hε hp)
  have h2 : |(a - c) * d| ≤ ε * p * q := by
    rw [abs_mul]; exact mul_le_mul hac hd (abs_nonneg _) (mul_nonneg hε hp)
  have h3 : |c * (b - d)| ≤ p * (ε' * q) := by
    rw [abs_mul]; exact mul_le_mul hc hbd (abs_nonneg _) hp
  have h4 := abs_add_three ((a - c) * (b - d)) ((a - c) * d) (c * (b - d))
  rw [e]
  have : ((1 + ε) * (1 + ε') - 1) * (p * q) = ε * p * (ε' * q) + ε * p * q + p * (ε' * q) := by ring
  linarith

/-- The error of a dot product of two approximate vectors. -/
theorem dot_err {m s e : ℕ} (hγ : 0 ≤ γ) (hdot : DotErr γ m dot) (he : e ≤ m) {x x' y y' p q : ℕ → α} {ε ε' : α} (hε : 0 ≤ ε)
    (hp : ∀ i, 0 ≤ p i) (hx : ∀ i, i < e → |x' i - x i| ≤ ε * p i)
    (hy : ∀ i, i < e → |y' i - y i| ≤ ε' * q i) (hxp : ∀ i, |x i| ≤ p i) (hyq : ∀ i, |y i| ≤ q i) :
    |dot s e x' y' - ∑ i ∈ Ico s e, x i * y i| ≤ ((1 + γ) * ((1 + ε) * (1 + ε')) - 1) * ∑ i ∈ Ico s e, p i * q i := by
  have h1 := hdot s e x' y' he
  have h2 : |∑ i ∈ Ico s e, x' i * y' i - ∑ i ∈ Ico s e, x i * y i| ≤ ((1 + ε) * (1 + ε') - 1) * ∑ i ∈ Ico s e, p i * q i := by
    rw [← Finset.sum_sub_distrib, Finset.mul_sum]
    refine (Finset.abs_sum_le_sum_abs _ _).trans (Finset.sum_le_sum fun i hi => ?_)
    rw [Finset.mem_Ico] at hi
    exact mul_err hε (hp i) (hx i hi.2) (hy i hi.2) (hxp i) (hyq i)
  have h3 : ∑ i ∈ Ico s e, |x' i * y' i| ≤ (1 + ε) * (1 + ε') * ∑ i ∈ Ico s e, p i * q i := by
    rw [Finset.mul_sum]
    refine Finset.sum_le_sum fun i hi => ?_
    rw [Finset.mem_Ico] at hi
    have a1 : |x' i| ≤ (1 + ε) * p i := by
      have := abs_sub_abs_le_abs_sub (x' i) (x i); have := hx i hi.2; have := hxp i; linarith
    have a2 : |y' i| ≤ (1 + ε') * q i := by
      have := abs_sub_abs_le_abs_sub (y' i) (y i); have := hy i hi.2; have := hyq i; linarith
    rw [abs_mul]
    calc |x' i| * |y' i| ≤ (1 + ε) * p i * ((1 + ε') * q i) :=
          mul_le_mul a1 a2 (abs_nonneg _) (mul_nonneg (by linarith) (hp i))
      _ = _ := by ring
  have h4 := mul_le_mul_of_nonneg_left h3 hγ
  have h5 := abs_sub_le (dot s e x' y') (∑ i ∈ Ico s e, x' i * y' i) (∑ i ∈ Ico s e, x i * y i)
  have : ((1 + γ) * ((1 + ε) * (1 + ε')) - 1) * ∑ i ∈ Ico s e, p i * q i =
      γ * ((1 + ε) * (1 + ε') * ∑ i ∈ Ico s e, p i * q i) + ((1 + ε) * (1 + ε') - 1) * ∑ i ∈ Ico s e, p i * q i := by ring
  linarith

/-- What `QMI.eval` computes for `j ≤ i`. -/
def qmiEntryF (fl : α → α) (dot : ℕ → ℕ → (ℕ → α) → (ℕ → α) → α) (F : Fin k → ℕ → ℕ → α) (F0 : ℕ → ℕ → α) (nr : ℕ) (x : Fin k → α)
    (t : α) (i j : ℕ) : α :=
  let a := -dot 0 nr (fun l => affEntryF fl F F0 x l i) (fun l => affEntryF fl F F0 x l j)
  if i = j then fl (t + a) else a

/-- The symmetric matrix with that lower triangle. -/
def lowerSym (A : ℕ → ℕ → α) (i j : ℕ) : α := if j ≤ i then A i j else A j i

omit [Field α] [LinearOrder α] [IsStrictOrderedRing α] in
theorem lowerSym_sym (A : ℕ → ℕ → α) (m : ℕ) : SymOn (lowerSym A) m := fun i j _ _ => by
  unfold lowerSym
  rcases lt_trichotomy i j with h | h | h
  · rw [if_neg (by omega), if_pos (by omega)]
  · rw [h]
  · rw [if_pos (by omega), if_neg (by omega)]

omit [IsStrictOrderedRing α] in
theorem absGram_symm (nr : ℕ) (t : α) (P : ℕ → ℕ → α) (i j : ℕ) : absGram nr t P i j = absGram nr t P j i := by
  unfold absGram
  congr 1
  · by_cases h : i = j
    · rw [if_pos h, if_pos h.symm]
    · rw [if_neg h, if_neg (Ne.symm h)]
  · exact Finset.sum_congr rfl fun l _ => mul_comm _ _

theorem qmiEntryF_err (hfl : RelErr u fl) (hu0 : 0 ≤ u) (hγ : 0 ≤ γ) {m : ℕ} (hdot : DotErr γ m dot)
    (hη : (1 + u) ^ (k + 2) ≤ 1 + η) (hη0 : 0 ≤ η) (hδ : (1 + u) * ((1 + γ) * ((1 + η) * (1 + η))) ≤ 1 + δ) (F : Fin k → ℕ → ℕ → α)
    (F0 : ℕ → ℕ → α) (x : Fin k → α) (t : α) (i j : ℕ) :
    |qmiEntryF fl dot F F0 m x t i j - tiMinusGram m t (pencil F F0 x) i j| ≤ δ * absGram m t (absPencil F F0 x) i j := by
  set P := absPencil F F0 x with hP
  set M := pencil F F0 x with hM
  have hP0 : ∀ a b, 0 ≤ P a b := fun a b => absPencil_nonneg F F0 x a b
  set S := ∑ l ∈ range m, P l i * P l j with hS
  have hS0 : 0 ≤ S := Finset.sum_nonneg fun l _ => mul_nonneg (hP0 _ _) (hP0 _ _)
  set d := dot 0 m (fun l => affEntryF fl F F0 x l i) (fun l => affEntryF fl F F0 x l j) with hd
  have h1 : |d - ∑ l ∈ range m, M l i * M l j| ≤ ((1 + γ) * ((1 + η) * (1 + η)) - 1) * S := by
    have := dot_err (s := 0) hγ hdot le_rfl (x := fun l => M l i) (y := fun l => M l j) (p := fun l => P l i) (q := fun l => P l j)
      (x' := fun l => affEntryF fl F F0 x l i) (y' := fun l => affEntryF fl F F0 x l j) hη0 (fun l => hP0 _ _)
      (fun l _ => affEntryF_err hfl hu0 hη F F0 x l i) (fun l _ => affEntryF_err hfl hu0 hη F F0 x l j)
      (fun l => pencil_abs F F0 x l i) (fun l => pencil_abs F F0 x l j)
    rwa [← range_eq_Ico] at this
  set K := (1 + γ) * ((1 + η) * (1 + η)) with hK
  have hη1 : 1 ≤ (1 + η) * (1 + η) := one_le_mul_of_one_le_of_one_le (by linarith) (by linarith)
  have hK1 : 1 ≤ K := one_le_mul_of_one_le_of_one_le (by linarith) hη1
  have hKδ : K ≤ 1 + δ := by
    have : 0 ≤ u * K := mul_nonneg hu0 (by linarith)
    linarith
  by_cases hij : i = j
  · unfold qmiEntryF tiMinusGram absGram
    simp only [if_pos hij]
    rw [← hd, ← hS]
    have h2 := hfl (t + -d)
    have h3 : |∑ l ∈ range m, M l i * M l j| ≤ S :=
      (Finset.abs_sum_le_sum_abs _ _).trans (Finset.sum_le_sum fun l _ => by
        rw [abs_mul]; exact mul_le_mul (pencil_abs F F0 x l i) (pencil_abs F F0 x l j) (abs_nonneg _) (hP0 _ _))
    have h4 : |d| ≤ K * S := by
      have := abs_sub_abs_le_abs_sub d (∑ l ∈ range m, M l i * M l j)
      linarith
    have h5 : |t + -d| ≤ |t| + K * S := (abs_add_le _ _).trans (by rw [abs_neg]; linarith)
    have h6 := mul_le_mul_of_nonneg_left h5 hu0
    have h7 : u ≤ δ := by
      have : u * 1 ≤ u * K := mul_le_mul_of_nonneg_left hK1 hu0
      linarith
    have h8 : u * |t| ≤ δ * |t| := mul_le_mul_of_nonneg_right h7 (abs_nonneg _)
    have h9 : ((1 + u) * K - 1) * S ≤ δ * S := mul_le_mul_of_nonneg_right (by linarith) hS0
    have h10 : ((1 + u) * K - 1) * S = u * (K * S) + (K - 1) * S := by ring
    rw [abs_le] at *
    constructor <;> linarith [h1.1, h1.2, h2.1, h2.2]
  · unfold qmiEntryF tiMinusGram absGram
    simp only [if_neg hij]
    rw [← hd, ← hS, zero_sub, zero_add, ← abs_neg]
    have h2 : (K - 1) * S ≤ δ * S := mul_le_mul_of_nonneg_right (by linarith) hS0
    have h3 : -(-d - -∑ l ∈ range m, M l i * M l j) = d - ∑ l ∈ range m, M l i * M l j := by ring
    rw [h3]
    linarith

theorem lowerSym_err (hfl : RelErr u fl) (hu0 : 0 ≤ u) (hγ : 0 ≤ γ) {m : ℕ} (hdot : DotErr γ m dot)
    (hη : (1 + u) ^ (k + 2) ≤ 1 + η) (hη0 : 0 ≤ η) (hδ : (1 + u) * ((1 + γ) * ((1 + η) * (1 + η))) ≤ 1 + δ) (F : Fin k → ℕ → ℕ → α)
    (F0 : ℕ → ℕ → α) (x : Fin k → α) (t : α) (i j : ℕ) :
    |lowerSym (qmiEntryF fl dot F F0 m x t) i j - tiMinusGram m t (pencil F F0 x) i j| ≤ δ * absGram m t (absPencil F F0 x) i j := by
  unfold lowerSym
  by_cases h : j ≤ i
  · rw [if_pos h]
    exact qmiEntryF_err hfl hu0 hγ hdot hη hη0 hδ F F0 x t i j
  · rw [if_neg h, absGram_symm, symOn_gram m t (pencil F F0 x) (i + j + 1) i j (by omega) (by omega)]
    exact qmiEntryF_err hfl hu0 hγ hdot hη hη0 hδ F F0 x t j i

omit [LinearOrder α] [IsStrictOrderedRing α] in
/-- The cached evaluation serves it once `count` has been reset. -/
theorem serves_qmiF (F : Fin k → ℕ → ℕ → α) (F0 : ℕ → ℕ → α) (nr m : ℕ) (x : Fin k → α) (t : α) :
    Serves (qmiEvalF fl dot F F0 nr x) (lowerSym (qmiEntryF fl dot F F0 nr x t)) m
      (fun i s => s.t = t ∧ s.count = i ∧ ∀ r, r < i → s.Fx r = fun l => affEntryF fl F F0 x l r)
      (fun i s => s.t = t ∧ s.count = i + 1 ∧ ∀ r, r < i + 1 → s.Fx r = fun l => affEntryF fl F F0 x l r) := by
  have hval : ∀ i j (s : QmiSt α), j ≤ i → s.t = t → (∀ r, r < i + 1 → s.Fx r = fun l => affEntryF fl F F0 x l r) →
      (if i = j then fl (s.t + -dot 0 nr (s.Fx i) (s.Fx j)) else -dot 0 nr (s.Fx i) (s.Fx j)) =
        lowerSym (qmiEntryF fl dot F F0 nr x t) i j := by
    intro i j s hj ht hr
    rw [hr i (by omega), hr j (by omega), ht, lowerSym, if_pos hj]
    rfl
  refine ⟨?_, ?_, fun i s h => h⟩
  · rintro i j s - hj ⟨h1, h2, h3⟩
    have hFx : ∀ r, r < i + 1 → Function.update s.Fx i (fun l => affEntryF fl F F0 x l i) r = fun l => affEntryF fl F F0 x l r := by
      intro r hr
      by_cases hri : r = i
      · subst hri; simp only [Function.update_self]
      · simp only [Function.update_of_ne hri]; exact h3 r (by omega)
    refine ⟨{ s with
        count := i + 1
        Fx := Function.update s.Fx i fun l => affEntryF fl F F0 x l i }, ?_, h1, rfl, hFx⟩
    simp only [qmiEvalF, if_neg (show ¬ i < j by omega), if_pos (show s.count < i + 1 by omega)]
    rw [← hval i j { s with
        count := i + 1
        Fx := Function.update s.Fx i fun l => affEntryF fl F F0 x l i } hj h1 hFx]
  · rintro i j s - hj ⟨h1, h2, h3⟩
    refine ⟨s, ?_, h1, h2, h3⟩
    simp only [qmiEvalF, if_neg (show ¬ i < j by omega), if_neg (show ¬ s.count < i + 1 by omega)]
    rw [← hval i j s hj h1 h3]

/-- The computed gradient. -/
theorem qmiGradF_err (hfl : RelErr u fl) (hu0 : 0 ≤ u) (hγ : 0 ≤ γ) {m e : ℕ} (hdot : DotErr γ m dot) (hem : e ≤ m)
    (hζ : (1 + u) * ((1 + γ) * ((1 + γ) * ((1 + γ) * (1 + η)))) ≤ 1 + ζ) {v : ℕ → α} {F M' M P : ℕ → ℕ → α} (hP0 : ∀ i j, 0 ≤ P i j)
    (hM' : ∀ l i, i < e → |M' l i - M l i| ≤ η * P l i) (hM : ∀ l i, |M l i| ≤ P l i) :
    |fl (-2 * dot 0 m (fun l => dot 0 e v fun i => F i l) fun l => dot 0 e v fun i => M' l i) -
      -2 * ∑ l ∈ range m, (∑ i ∈ range e, v i * F i l) * ∑ i ∈ range e, v i * M l i| ≤ 2 * ζ * absBilin m e v F P := by
  have hW0 : ∀ l, 0 ≤ ∑ i ∈ range e, |v i| * |F i l| := fun l => Finset.sum_nonneg fun i _ => mul_nonneg (abs_nonneg _) (abs_nonneg _)
  have hN0 : ∀ l, 0 ≤ ∑ i ∈ range e, |v i| * P l i := fun l => Finset.sum_nonneg fun i _ => mul_nonneg (abs_nonneg _) (hP0 _ _)
  have h1 : ∀ l, |(dot 0 e v fun i => F i l) - ∑ i ∈ range e, v i * F i l| ≤ γ * ∑ i ∈ range e, |v i| * |F i l| := fun l => by
    have := hdot 0 e v (fun i => F i l) hem
    simpa only [abs_mul, ← range_eq_Ico] using this
  have h2 : ∀ l, |(dot 0 e v fun i => M' l i) - ∑ i ∈ range e, v i * M l i| ≤ ((1 + γ) * (1 + η) - 1) * ∑ i ∈ range e, |v i| * P l i := fun l => by
    have := dot_err (s := 0) hγ hdot hem (x := v) (x' := v) (y := fun i => M l i) (y' := fun i => M' l i) (p := fun i => |v i|)
      (q := fun i => P l i) (ε := 0) (ε' := η) le_rfl (fun i => abs_nonneg _) (fun i _ => by simp)
      (fun i hi => hM' l i hi) (fun i => le_rfl) (fun i => hM l i)
    rwa [add_zero, one_mul, ← range_eq_Ico] at this
  have h3 : ∀ l, |∑ i ∈ range e, v i * F i l| ≤ ∑ i ∈ range e, |v i| * |F i l| := fun l =>
    (Finset.abs_sum_le_sum_abs _ _).trans (Finset.sum_le_sum fun i _ => by rw [abs_mul])
  have h4 : ∀ l, |∑ i ∈ range e, v i * M l i| ≤ ∑ i ∈ range e, |v i| * P l i := fun l =>
    (Finset.abs_sum_le_sum_abs _ _).trans (Finset.sum_le_sum fun i _ => by
      rw [abs_mul]; exact mul_le_mul_of_nonneg_left (hM l i) (abs_nonneg _))
  have h5 := dot_err (s := 0) hγ hdot le_rfl (x := fun l => ∑ i ∈ range e, v i * F i l) (x' := fun l => dot 0 e v fun i => F i l)
    (y := fun l => ∑ i ∈ range e, v i * M l i) (y' := fun l => dot 0 e v fun i => M' l i)
    (p := fun l => ∑ i ∈ range e, |v i| * |F i l|) (q := fun l => ∑ i ∈ range e, |v i| * P l i) (ε := γ) (ε' := (1 + γ) * (1 + η) - 1)
    hγ hW0 (fun l _ => h1 l) (fun l _ => h2 l) h3 h4
  rw [← range_eq_Ico] at h5
  have hbil : ∑ l ∈ range m, (∑ i ∈ range e, |v i| * |F i l|) * ∑ i ∈ range e, |v i| * P l i = absBilin m e v F P := rfl
  rw [hbil, show 1 + ((1 + γ) * (1 + η) - 1) = (1 + γ) * (1 + η) by ring] at h5
  set d := dot 0 m (fun l => dot 0 e v fun i => F i l) fun l => dot 0 e v fun i => M' l i with hd
  set G := ∑ l ∈ range m, (∑ i ∈ range e, v i * F i l) * ∑ i ∈ range e, v i * M l i with hG
  have hG' : |G| ≤ absBilin m e v F P := (Finset.abs_sum_le_sum_abs _ _).trans (Finset.sum_le_sum fun l _ => by
    rw [abs_mul]; exact mul_le_mul (h3 l) (h4 l) (abs_nonneg _) (hW0 l))
  set K := (1 + γ) * ((1 + γ) * ((1 + γ) * (1 + η))) with hK
  have hS0 : 0 ≤ absBilin m e v F P := Finset.sum_nonneg fun l _ => mul_nonneg (hW0 l) (hN0 l)
  have h6 : |d| ≤ K * absBilin m e v F P := by
    have := abs_sub_abs_le_abs_sub d G
    linarith
  have h7 := hfl (-2 * d)
  rw [abs_mul, abs_neg, abs_two] at h7
  have h8 := mul_le_mul_of_nonneg_left h6 hu0
  have h9 : ((1 + u) * K - 1) * absBilin m e v F P ≤ ζ * absBilin m e v F P := mul_le_mul_of_nonneg_right (by linarith) hS0
  have h10 : ((1 + u) * K - 1) * absBilin m e v F P = u * (K * absBilin m e v F P) + (K - 1) * absBilin m e v F P := by ring
  have h11 : u * (2 * |d|) = 2 * (u * |d|) := by ring
  rw [h11] at h7
  rw [abs_le] at *
  constructor <;> linarith [h5.1, h5.2, h7.1, h7.2]

/-- Convexity of `|F(x) v|²`, for symmetric `F_q`. -/
theorem qmi_convex {F : Fin k → ℕ → ℕ → α} {F0 : ℕ → ℕ → α} {m e : ℕ} (hF : ∀ q, SymOn (F q) m) (hem : e ≤ m) (x z : Fin k → α)
    (t s : α) (v : ℕ → α) :
    quadOn (tiMinusGram m s (pencil F F0 z)) 0 e v + ∑ q, (-2 * ∑ l ∈ range m, (∑ i ∈ range e, v i * F q i l) *
      ∑ i ∈ range e, v i * pencil F F0 x l i) * (z q - x q) ≤
      (s - t) * (∑ i ∈ range e, v i * v i) + quadOn (tiMinusGram m t (pencil F F0 x)) 0 e v := by
  rw [quadOn_gram, quadOn_gram]
  simp only [← range_eq_Ico]
  set a : ℕ → α := fun l => ∑ i ∈ range e, v i * pencil F F0 x l i with ha
  set b : ℕ → α := fun l => ∑ i ∈ range e, v i * pencil F F0 z l i with hb'
  have hab : ∀ l ∈ range m, b l - a l = -∑ q, (z q - x q) * ∑ i ∈ range e, v i * F q i l := by
    intro l hl
    rw [Finset.mem_range] at hl
    have h1 : ∀ i ∈ range e, v i * pencil F F0 z l i - v i * pencil F F0 x l i = -∑ q, (z q - x q) * (v i * F q i l) := by
      intro i hi
      rw [Finset.mem_range] at hi
      unfold pencil
      rw [← mul_sub, sub_sub_sub_cancel_left, ← Finset.sum_sub_distrib, Finset.mul_sum, ← Finset.sum_neg_distrib]
      exact Finset.sum_congr rfl fun q _ => by rw [hF q l i hl (by omega)]; ring
    rw [ha, hb', ← Finset.sum_sub_distrib, Finset.sum_congr rfl h1, Finset.sum_neg_distrib, Finset.sum_comm]
    simp only [Finset.mul_sum]
  have hg : ∑ q, (-2 * ∑ l ∈ range m, (∑ i ∈ range e, v i * F q i l) * a l) * (z q - x q) = ∑ l ∈ range m, 2 * a l * (b l - a l) := by
    have h2 : ∀ l ∈ range m, 2 * a l * (b l - a l) = ∑ q, -2 * ((∑ i ∈ range e, v i * F q i l) * a l) * (z q - x q) := by
      intro l hl
      rw [hab l hl, mul_neg, Finset.mul_sum, ← Finset.sum_neg_distrib]
      exact Finset.sum_congr rfl fun q _ => by ring
    rw [Finset.sum_congr rfl h2, Finset.sum_comm]
    refine Finset.sum_congr rfl fun q _ => ?_
    rw [Finset.mul_sum, Finset.sum_mul]
  have hsq : ∑ l ∈ range m, 2 * a l * (b l - a l) + ∑ l ∈ range m, a l ^ 2 - ∑ l ∈ range m, b l ^ 2 =
      -∑ l ∈ range m, (b l - a l) ^ 2 := by
    rw [← Finset.sum_add_distrib, ← Finset.sum_sub_distrib, ← Finset.sum_neg_distrib]
    exact Finset.sum_congr rfl fun l _ => by ring
  have hnn : 0 ≤ ∑ l ∈ range m, (b l - a l) ^ 2 := Finset.sum_nonneg fun l _ => sq_nonneg _
  rw [hg]
  linarith

/-- Everything about one call of `qmi_oracle`, including the dependence on `t` (used by `lsq_oracle`). -/
theorem qmiF_core {F : Fin k → ℕ → ℕ → α} {F0 : ℕ → ℕ → α} {m : ℕ} (hF : ∀ q, SymOn (F q) m) (x : Fin k → α) {o : QmiOracle α}
    (hQ : Ready m o.Q) (hfl : RelErr u fl) (hu0 : 0 ≤ u) (hu : u ≤ 1 / 10) (hγ : 0 ≤ γ) (hdot : DotErr γ m dot)
    (hθ : 3 * u + 2 * γ ≤ 1 / 5) (hη : (1 + u) ^ (k + 2) ≤ 1 + η) (hδ : (1 + u) * ((1 + γ) * ((1 + η) * (1 + η))) ≤ 1 + δ)
    (hζ : (1 + u) * ((1 + γ) * ((1 + γ) * ((1 + γ) * (1 + η)))) ≤ 1 + ζ) :
    ∃ o' r, qmiCallF fl dot F F0 m m x o = .ok (o', r) ∧ Ready m o'.Q ∧
      (r = none → ∀ ρ : ℕ → α, (∀ i, 0 ≤ ρ i) →
        (∀ i < m, tiMinusGram m o.qmi.t (pencil F F0 x) i i + δ * absGram m o.qmi.t (absPencil F F0 x) i i ≤ ρ i ^ 2) →
        ∀ y : ℕ → α, (∃ i < m, y i ≠ 0) →
          -(5 / 4 * (3 * u + 2 * γ) * (∑ i ∈ range m, ρ i * |y i|) ^ 2 +
            δ * quadOn (absGram m o.qmi.t (absPencil F F0 x)) 0 m (fun i => |y i|)) <
            quadOn (tiMinusGram m o.qmi.t (pencil F F0 x)) 0 m y) ∧
      ∀ g ep, r = some (g, ep) → 0 ≤ ep ∧ ∃ e, 0 < e ∧ e ≤ m ∧ o'.Q.v (e - 1) = 1 ∧ o'.Q.p = (0, e) ∧
        (∃ Q1 : CholExt α, Q1.witnessF dot = .ok (o'.Q, ep)) ∧
        ∀ ρ : ℕ → α, (∀ i, 0 ≤ ρ i) →
          (∀ i < m, tiMinusGram m o.qmi.t (pencil F F0 x) i i + δ * absGram m o.qmi.t (absPencil F F0 x) i i ≤ ρ i ^ 2) →
          quadOn (tiMinusGram m o.qmi.t (pencil F F0 x)) 0 e o'.Q.v ≤ 3 * (3 * u + 2 * γ) * (∑ i ∈ range e, ρ i * |o'.Q.v i|) ^ 2 +
            δ * quadOn (absGram m o.qmi.t (absPencil F F0 x)) 0 e (fun i => |o'.Q.v i|) ∧
          ∀ z s, ∑ q, g q * (z q - x q) + ep ≤ -quadOn (tiMinusGram m s (pencil F F0 z)) 0 e o'.Q.v +
            (s - o.qmi.t) * (∑ i ∈ range e, o'.Q.v i * o'.Q.v i) +
            5 * (3 * u + 2 * γ) * ((∑ i ∈ range e, ρ i * |o'.Q.v i|) ^ 2 + ep) +
            δ * quadOn (absGram m o.qmi.t (absPencil F F0 x)) 0 e (fun i => |o'.Q.v i|) +
            2 * ζ * ∑ q, |z q - x q| * absBilin m e o'.Q.v (F q) (absPencil F F0 x) := by
  have hη0 : 0 ≤ η := by
    have := one_le_pow₀ (n := k + 2) (show (1 : α) ≤ 1 + u by linarith)
    linarith
  have hS := serves_qmiF (fl := fl) (dot := dot) F F0 m m x o.qmi.t
  have hpre : ({ o.qmi with count := 0 } : QmiSt α).t = o.qmi.t ∧ ({ o.qmi with count := 0 } : QmiSt α).count = 0 ∧
      ∀ r, r < 0 → ({ o.qmi with count := 0 } : QmiSt α).Fx r = fun l => affEntryF fl F F0 x l r :=
    ⟨rfl, rfl, fun r hr => absurd hr (by omega)⟩
  obtain ⟨s1, Q1, b, hf, hr, hacc, hrej⟩ := matF_core hQ (A := tiMinusGram m o.qmi.t (pencil F F0 x))
    (E := fun i j => δ * absGram m o.qmi.t (absPencil F F0 x) i j) hS hpre (lowerSym_sym _ m)
    (fun i j _ _ => lowerSym_err hfl hu0 hγ hdot hη hη0 hδ F F0 x o.qmi.t i j) hfl hu0 hu hγ hdot hθ
  cases b with
  | true =>
    refine ⟨⟨s1, Q1⟩, none, by simp only [qmiCallF, hf], hr, fun _ ρ hρ0 hρ y hy => ?_, fun g ep h => by simp at h⟩
    have := hacc rfl ρ hρ0 hρ y hy
    rwa [quadOn_smul] at this
  | false =>
    obtain ⟨Q2, ep, e, hw, hr2, hep, hp, he0, hem, hv, hin, hq⟩ := hrej rfl
    have hng : ¬ (m ≠ m ∧ k ≠ 0) := fun h => h.1 rfl
    refine ⟨⟨s1, Q2⟩, some (fun q => fl (-2 * dot 0 m (fun l => dot 0 e Q2.v fun i => F q i l)
      fun l => dot 0 e Q2.v fun i => s1.Fx i l), ep), by simp only [qmiCallF, hf, hw, qmiNegGradF, if_neg hng, hp], hr2,
      fun h => by simp at h, ?_⟩
    intro g ep' h
    simp only [Option.some.injEq, Prod.mk.injEq] at h
    obtain ⟨rfl, rfl⟩ := h
    refine ⟨hep, e, he0, hem, hv, hp, ⟨Q1, hw⟩, fun ρ hρ0 hρ => ?_⟩
    obtain ⟨h1, h2⟩ := hq ρ hρ0 hρ
    rw [quadOn_smul] at h1 h2
    refine ⟨h1, fun z s => ?_⟩
    have h6 := qmi_convex (F0 := F0) hF hem x z o.qmi.t s Q2.v
    have h3 : ∀ q, fl (-2 * dot 0 m (fun l => dot 0 e Q2.v fun i => F q i l) fun l => dot 0 e Q2.v fun i => s1.Fx i l) * (z q - x q) ≤
        (-2 * ∑ l ∈ range m, (∑ i ∈ range e, Q2.v i * F q i l) * ∑ i ∈ range e, Q2.v i * pencil F F0 x l i) * (z q - x q) +
        2 * ζ * (|z q - x q| * absBilin m e Q2.v (F q) (absPencil F F0 x)) := fun q => by
      have h4 := qmiGradF_err (F := F q) (v := Q2.v) (M' := fun l i => s1.Fx i l) hfl hu0 hγ hdot hem hζ
        (absPencil_nonneg F F0 x) (fun l i hi => by
          rw [hin.2.2 i (by omega)]
          exact affEntryF_err hfl hu0 hη F F0 x l i) (pencil_abs F F0 x)
      have h5 := mul_le_mul_of_nonneg_right h4 (abs_nonneg (z q - x q))
      rw [← abs_mul, sub_mul] at h5
      have h7 := (le_abs_self _).trans h5
      linarith
    have h4 := Finset.sum_le_sum fun q (_ : q ∈ Finset.univ) => h3 q
    rw [Finset.sum_add_distrib, ← Finset.mul_sum] at h4
    linarith

omit [LinearOrder α] [IsStrictOrderedRing α] in
theorem witnessLoopF_keep (T : ℕ → ℕ → α) (s e : ℕ) : ∀ r v i, s + r ≤ i → witnessLoopF dot T s e r v i = v i
  | 0, _, _, _ => rfl
  | r + 1, v, i, h => by
    rw [witnessLoopF]
    rw [witnessLoopF_keep T s e r _ i (by omega), Function.update_of_ne (by omega)]

omit [IsStrictOrderedRing α] in
theorem witnessLoopF_fix (hl : DotLocal dot) (T : ℕ → ℕ → α) (s e : ℕ) : ∀ r v, ∀ i, s < i → i ≤ s + r →
    witnessLoopF dot T s e r v (i - 1) = -dot i e (fun m => T m (i - 1)) (witnessLoopF dot T s e r v)
  | 0, _, i, h1, h2 => by omega
  | r + 1, v, i, h1, h2 => by
    rw [witnessLoopF]
    by_cases hi : i = s + (r + 1)
    · subst hi
      rw [witnessLoopF_keep T s e r _ _ (by omega), Function.update_self]
      congr 1
      refine hl _ _ _ _ _ _ fun j h3 h4 => ⟨rfl, ?_⟩
      rw [witnessLoopF_keep T s e r _ _ (by omega), Function.update_of_ne (by omega)]
    · exact witnessLoopF_fix hl T s e r _ i h1 (by omega)

omit [LinearOrder α] [IsStrictOrderedRing α] in
theorem witnessLoopF_same (T : ℕ → ℕ → α) (s e : ℕ) : ∀ r v, (∀ i, s < i → i ≤ s + r → v (i - 1) = -dot i e (fun m => T m (i - 1)) v) →
    witnessLoopF dot T s e r v = v
  | 0, _, _ => rfl
  | r + 1, v, h => by
    rw [witnessLoopF]
    rw [← h (s + (r + 1)) (by omega) le_rfl, Function.update_eq_self]
    exact witnessLoopF_same T s e r v fun i h1 h2 => h i h1 (by omega)

omit [IsStrictOrderedRing α] in
/-- Asking for the witness again changes nothing. -/
theorem witnessF_again (hl : DotLocal dot) {c c' : CholExt α} {ep : α} (h : c.witnessF dot = .ok (c', ep)) :
    c'.witnessF dot = .ok (c', ep) := by
  simp only [CholExt.witnessF] at h
  split at h
  · simp at h
  rename_i hs
  simp only [Except.ok.injEq, Prod.mk.injEq] at h
  obtain ⟨rfl, rfl⟩ := h
  rw [CholExt.witnessF, if_neg (by simpa [CholExt.isSpd] using hs)]
  simp only [Except.ok.injEq, Prod.mk.injEq, and_true]
  set w := witnessLoopF dot c.T c.p.1 c.p.2 (c.p.2 - 1 - c.p.1) (Function.update c.v (c.p.2 - 1) 1) with hw
  have h1 : Function.update w (c.p.2 - 1) 1 = w := by
    by_cases hlt : c.p.1 ≤ c.p.2 - 1
    · have : w (c.p.2 - 1) = 1 := by rw [hw, witnessLoopF_keep _ _ _ _ _ _ (by omega), Function.update_self]
      rw [← this, Function.update_eq_self]
    · have h0 : c.p.2 - 1 - c.p.1 = 0 := by omega
      rw [hw, h0]
      simp [witnessLoopF]
  rw [h1, witnessLoopF_same]
  exact fun i h1 h2 => by rw [hw]; exact witnessLoopF_fix hl _ _ _ _ _ i h1 h2

/-- **C116** (`qmi_oracle` in floating point), after `update(t)`, on any earlier state of the object.  It never raises.  If it
accepts `x`, then `t·I - F(x)'F(x)` is positive definite up to the rounding errors.  If it returns a cut, then that matrix is
not positive definite by more than the rounding errors, and the cut holds up to the rounding errors for every `z` with
`t·I - F(z)'F(z) ⪰ 0`. -/
theorem C116_qmi {F : Fin k → ℕ → ℕ → α} {F0 : ℕ → ℕ → α} {m : ℕ} (hF : ∀ q, SymOn (F q) m) (t : α) (x : Fin k → α)
    {o : QmiOracle α} (hQ : Ready m o.Q) (hfl : RelErr u fl) (hu0 : 0 ≤ u) (hu : u ≤ 1 / 10) (hγ : 0 ≤ γ) (hdot : DotErr γ m dot)
    (hθ : 3 * u + 2 * γ ≤ 1 / 5) (hη : (1 + u) ^ (k + 2) ≤ 1 + η) (hδ : (1 + u) * ((1 + γ) * ((1 + η) * (1 + η))) ≤ 1 + δ)
    (hζ : (1 + u) * ((1 + γ) * ((1 + γ) * ((1 + γ) * (1 + η)))) ≤ 1 + ζ) :
    ∃ o' r, qmiCallF fl dot F F0 m m x (o.setT t) = .ok (o', r) ∧ Ready m o'.Q ∧
      (r = none → ∀ ρ : ℕ → α, (∀ i, 0 ≤ ρ i) →
        (∀ i < m, tiMinusGram m t (pencil F F0 x) i i + δ * absGram m t (absPencil F F0 x) i i ≤ ρ i ^ 2) →
        ∀ y : ℕ → α, (∃ i < m, y i ≠ 0) →
          -(5 / 4 * (3 * u + 2 * γ) * (∑ i ∈ range m, ρ i * |y i|) ^ 2 +
            δ * quadOn (absGram m t (absPencil F F0 x)) 0 m (fun i => |y i|)) < quadOn (tiMinusGram m t (pencil F F0 x)) 0 m y) ∧
      ∀ g ep, r = some (g, ep) → 0 ≤ ep ∧ ∃ e, 0 < e ∧ e ≤ m ∧ o'.Q.v (e - 1) = 1 ∧
        ∀ ρ : ℕ → α, (∀ i, 0 ≤ ρ i) →
          (∀ i < m, tiMinusGram m t (pencil F F0 x) i i + δ * absGram m t (absPencil F F0 x) i i ≤ ρ i ^ 2) →
          quadOn (tiMinusGram m t (pencil F F0 x)) 0 e o'.Q.v ≤ 3 * (3 * u + 2 * γ) * (∑ i ∈ range e, ρ i * |o'.Q.v i|) ^ 2 +
            δ * quadOn (absGram m t (absPencil F F0 x)) 0 e (fun i => |o'.Q.v i|) ∧
          ∀ z, PSDon (tiMinusGram m t (pencil F F0 z)) 0 m → ∑ q, g q * (z q - x q) + ep ≤
            5 * (3 * u + 2 * γ) * ((∑ i ∈ range e, ρ i * |o'.Q.v i|) ^ 2 + ep) +
            δ * quadOn (absGram m t (absPencil F F0 x)) 0 e (fun i => |o'.Q.v i|) +
            2 * ζ * ∑ q, |z q - x q| * absBilin m e o'.Q.v (F q) (absPencil F F0 x) := by
  obtain ⟨o', r, h1, h2, h3, h4⟩ := qmiF_core (F0 := F0) hF x (o := o.setT t) hQ hfl hu0 hu hγ hdot hθ hη hδ hζ
  refine ⟨o', r, h1, h2, h3, fun g ep hr => ?_⟩
  obtain ⟨h5, e, h6, h7, h8, -, -, h9⟩ := h4 g ep hr
  refine ⟨h5, e, h6, h7, h8, fun ρ hρ0 hρ => ⟨(h9 ρ hρ0 hρ).1, fun z hz => ?_⟩⟩
  have h10 := (h9 ρ hρ0 hρ).2 z t
  have h11 := (hz.sub le_rfl h7) o'.Q.v
  have ht : (o.setT t).qmi.t = t := rfl
  rw [ht] at h10
  linarith

/-- `lsq_oracle` in floating point: the cuts, for arbitrary `z`. -/
theorem lsqF_any {F : Fin k → ℕ → ℕ → α} {F0 : ℕ → ℕ → α} {m : ℕ} (hF : ∀ q, SymOn (F q) m) (x : Fin (k + 1) → α) (t : WithTop α)
    {o : LsqOracle α} (h0 : Ready m o.lmi0) (hQ : Ready m o.qmi.Q) (hfl : RelErr u fl) (hu0 : 0 ≤ u) (hu : u ≤ 1 / 10) (hγ : 0 ≤ γ)
    (hdot : DotErr γ m dot) (hloc : DotLocal dot)
    (hθ : 3 * u + 2 * γ ≤ 1 / 5) (hη : (1 + u) ^ (k + 2) ≤ 1 + η) (hδ : (1 + u) * ((1 + γ) * ((1 + η) * (1 + η))) ≤ 1 + δ)
    (hζ : (1 + u) * ((1 + γ) * ((1 + γ) * ((1 + γ) * (1 + η)))) ≤ 1 + ζ) :
    ∃ o' g b t1, lsqCallF fl dot F F0 m x t o = .ok (o', (g, b), t1) ∧ Ready m o'.lmi0 ∧ Ready m o'.qmi.Q ∧ 0 ≤ b ∧
      -- the linear constraint is cut
      ((t1 = none ∧ ∃ e, 0 < e ∧ e ≤ m ∧ o'.lmi0.v (e - 1) = 1 ∧ ∀ ρ : ℕ → α, (∀ i, 0 ≤ ρ i) →
        (∀ i < m, combo F (Fin.init x) i i + η * absCombo F (Fin.init x) i i ≤ ρ i ^ 2) →
        quadOn (combo F (Fin.init x)) 0 e o'.lmi0.v ≤ 3 * (3 * u + 2 * γ) * (∑ i ∈ range e, ρ i * |o'.lmi0.v i|) ^ 2 +
          η * quadOn (absCombo F (Fin.init x)) 0 e (fun i => |o'.lmi0.v i|) ∧
        ∀ z : Fin (k + 1) → α, ∑ q, g q * (z q - x q) + b ≤ -quadOn (combo F (Fin.init z)) 0 e o'.lmi0.v +
          5 * (3 * u + 2 * γ) * ((∑ i ∈ range e, ρ i * |o'.lmi0.v i|) ^ 2 + b) +
          η * quadOn (absCombo F (Fin.init x)) 0 e (fun i => |o'.lmi0.v i|) +
          (2 * γ + γ ^ 2) * ∑ q : Fin k, |z q.castSucc - x q.castSucc| * quadOn (absMat (F q)) 0 e (fun i => |o'.lmi0.v i|)) ∨
      -- the quadratic constraint is cut
      (t1 = none ∧ ∃ e, 0 < e ∧ e ≤ m ∧ o'.qmi.Q.v (e - 1) = 1 ∧ ∀ ρ : ℕ → α, (∀ i, 0 ≤ ρ i) →
        (∀ i < m, tiMinusGram m (x (Fin.last k)) (pencil F F0 (Fin.init x)) i i +
          δ * absGram m (x (Fin.last k)) (absPencil F F0 (Fin.init x)) i i ≤ ρ i ^ 2) →
        quadOn (tiMinusGram m (x (Fin.last k)) (pencil F F0 (Fin.init x))) 0 e o'.qmi.Q.v ≤
          3 * (3 * u + 2 * γ) * (∑ i ∈ range e, ρ i * |o'.qmi.Q.v i|) ^ 2 +
          δ * quadOn (absGram m (x (Fin.last k)) (absPencil F F0 (Fin.init x))) 0 e (fun i => |o'.qmi.Q.v i|) ∧
        ∀ z : Fin (k + 1) → α, ∑ q, g q * (z q - x q) + b ≤
          -quadOn (tiMinusGram m (z (Fin.last k)) (pencil F F0 (Fin.init z))) 0 e o'.qmi.Q.v + 5 * (3 * u + 2 * γ) * ((∑ i ∈ range e, ρ i * |o'.qmi.Q.v i|) ^ 2 + b) +
          δ * quadOn (absGram m (x (Fin.last k)) (absPencil F F0 (Fin.init x))) 0 e (fun i => |o'.qmi.Q.v i|) +
          2 * ζ * (∑ q : Fin k, |z q.castSucc - x q.castSucc| * absBilin m e o'.qmi.Q.v (F q) (absPencil F F0 (Fin.init x))) +
          γ * (∑ i ∈ range e, o'.qmi.Q.v i ^ 2) * |z (Fin.last k) - x (Fin.last k)|) ∨
      -- both constraints are accepted
      ((∀ ρ : ℕ → α, (∀ i, 0 ≤ ρ i) → (∀ i < m, combo F (Fin.init x) i i + η * absCombo F (Fin.init x) i i ≤ ρ i ^ 2) →
        ∀ y : ℕ → α, (∃ i < m, y i ≠ 0) → -(5 / 4 * (3 * u + 2 * γ) * (∑ i ∈ range m, ρ i * |y i|) ^ 2 +
          η * quadOn (absCombo F (Fin.init x)) 0 m (fun i => |y i|)) < quadOn (combo F (Fin.init x)) 0 m y) ∧
       (∀ ρ : ℕ → α, (∀ i, 0 ≤ ρ i) → (∀ i < m, tiMinusGram m (x (Fin.last k)) (pencil F F0 (Fin.init x)) i i +
          δ * absGram m (x (Fin.last k)) (absPencil F F0 (Fin.init x)) i i ≤ ρ i ^ 2) →
        ∀ y : ℕ → α, (∃ i < m, y i ≠ 0) → -(5 / 4 * (3 * u + 2 * γ) * (∑ i ∈ range m, ρ i * |y i|) ^ 2 +
          δ * quadOn (absGram m (x (Fin.last k)) (absPencil F F0 (Fin.init x))) 0 m (fun i => |y i|)) <
            quadOn (tiMinusGram m (x (Fin.last k)) (pencil F F0 (Fin.init x))) 0 m y) ∧
       (∀ z : Fin (k + 1) → α, ∑ q, g q * (z q - x q) = z (Fin.last k) - x (Fin.last k)) ∧
       ((((x (Fin.last k) : α) : WithTop α) ≤ t ∧ t1 = some ((x (Fin.last k) : α) : WithTop α) ∧ b = 0) ∨
        ∃ t0 : α, t = t0 ∧ t0 < x (Fin.last k) ∧ t1 = none ∧ |b - (x (Fin.last k) - t0)| ≤ u * (x (Fin.last k) - t0)))) := by
  have hη1 : (1 + u) ^ (k + 1) ≤ 1 + η := (pow_le_pow_right₀ (by linarith) (by omega)).trans hη
  have hxi : (fun q : Fin k => x q.castSucc) = Fin.init x := rfl
  obtain ⟨Q0, r0, e1, e2, e3, e4⟩ := lmi0F_any hF (Fin.init x) h0 hfl hu0 hu hγ hdot hθ hη1
  rcases r0 with _ | ⟨g1, fj⟩
  · obtain ⟨o1, r1, a1, a2, a3, a4⟩ := qmiF_core (F0 := F0) hF (Fin.init x) (o := o.qmi.setT (x (Fin.last k))) hQ hfl hu0 hu hγ hdot
      hθ hη hδ hζ
    have ht : (o.qmi.setT (x (Fin.last k))).qmi.t = x (Fin.last k) := rfl
    rw [ht] at a3 a4
    rcases r1 with _ | ⟨g1, fj⟩
    · have hgz : ∀ z : Fin (k + 1) → α, ∑ q, (Fin.snoc (fun _ => 0) 1 : Fin (k + 1) → α) q * (z q - x q) =
          z (Fin.last k) - x (Fin.last k) := fun z => by
        rw [Fin.sum_univ_castSucc]
        simp [Fin.snoc_castSucc, Fin.snoc_last]
      cases t with
      | top =>
        exact ⟨⟨o1, Q0⟩, Fin.snoc (fun _ => 0) 1, 0, some _, by simp only [lsqCallF, hxi, e1, a1], e2, a2, le_rfl,
          .inr (.inr ⟨e3 rfl, a3 rfl, hgz, .inl ⟨le_top, rfl, rfl⟩⟩)⟩
      | coe t0 =>
        have hr := hfl (x (Fin.last k) - t0)
        by_cases hc : 0 < fl (x (Fin.last k) - t0)
        · have hpos : t0 < x (Fin.last k) := by
            by_contra hle
            rw [abs_of_nonpos (show x (Fin.last k) - t0 ≤ 0 by linarith)] at hr
            have h1 := (abs_le.1 hr).2
            have h2 : u * -(x (Fin.last k) - t0) ≤ 1 * -(x (Fin.last k) - t0) := mul_le_mul_of_nonneg_right (by linarith) (by linarith)
            linarith
          rw [abs_of_pos (sub_pos.2 hpos)] at hr
          exact ⟨⟨o1, Q0⟩, Fin.snoc (fun _ => 0) 1, fl (x (Fin.last k) - t0), none, by simp only [lsqCallF, hxi, e1, a1, if_pos hc], e2, a2,
            hc.le, .inr (.inr ⟨e3 rfl, a3 rfl, hgz, .inr ⟨t0, rfl, hpos, rfl, hr⟩⟩)⟩
        · have hle : x (Fin.last k) ≤ t0 := by
            by_contra hgt
            have hgt : 0 < x (Fin.last k) - t0 := by linarith
            rw [abs_of_pos hgt] at hr
            have h1 := (abs_le.1 hr).1
            have h2 : u * (x (Fin.last k) - t0) < 1 * (x (Fin.last k) - t0) := mul_lt_mul_of_pos_right (by linarith) hgt
            linarith
          exact ⟨⟨o1, Q0⟩, Fin.snoc (fun _ => 0) 1, 0, some _, by simp only [lsqCallF, hxi, e1, a1, if_neg hc], e2, a2, le_rfl,
            .inr (.inr ⟨e3 rfl, a3 rfl, hgz, .inl ⟨WithTop.coe_le_coe.2 hle, rfl, rfl⟩⟩)⟩
    · obtain ⟨b1, e, b2, b3, b4, b5, ⟨Q1, b6⟩, b7⟩ := a4 g1 fj rfl
      refine ⟨⟨o1, Q0⟩, Fin.snoc g1 (-dot o1.Q.p.1 o1.Q.p.2 o1.Q.v o1.Q.v), fj, none,
        by simp only [lsqCallF, hxi, e1, a1, witnessF_again hloc b6], e2, a2, b1, .inr (.inl ⟨rfl, e, b2, b3, b4, fun ρ hρ0 hρ => ?_⟩)⟩
      obtain ⟨c1, c2⟩ := b7 ρ hρ0 hρ
      refine ⟨c1, fun z => ?_⟩
      have c3 := c2 (Fin.init z) (z (Fin.last k))
      have c4 := hdot 0 e o1.Q.v o1.Q.v b3
      rw [← range_eq_Ico] at c4
      have c5 : ∑ i ∈ range e, |o1.Q.v i * o1.Q.v i| = ∑ i ∈ range e, o1.Q.v i ^ 2 :=
        Finset.sum_congr rfl fun i _ => by rw [abs_mul_self, sq]
      rw [c5] at c4
      have c6 := mul_le_mul_of_nonneg_right c4 (abs_nonneg (z (Fin.last k) - x (Fin.last k)))
      rw [← abs_mul, sub_mul] at c6
      have c7 := (neg_abs_le _).trans' (neg_le_neg c6)
      rw [Fin.sum_univ_castSucc]
      simp only [Fin.snoc_castSucc, Fin.snoc_last, b5]
      have c8 : ∀ q : Fin k, Fin.init z q = z q.castSucc := fun q => rfl
      have c9 : ∀ q : Fin k, Fin.init x q = x q.castSucc := fun q => rfl
      simp only [c8, c9] at c3
      linarith
  · obtain ⟨b1, e, b2, b3, b4, b7⟩ := e4 g1 fj rfl
    refine ⟨⟨o.qmi, Q0⟩, Fin.snoc g1 0, fj, none, by simp only [lsqCallF, hxi, e1], e2, hQ, b1, .inl ⟨rfl, e, b2, b3, b4,
      fun ρ hρ0 hρ => ?_⟩⟩
    obtain ⟨c1, c2⟩ := b7 ρ hρ0 hρ
    refine ⟨c1, fun z => ?_⟩
    have c3 := c2 (Fin.init z)
    rw [Fin.sum_univ_castSucc]
    simp only [Fin.snoc_castSucc, Fin.snoc_last, zero_mul, add_zero]
    exact c3

/-- **C116** (`lsq_oracle` in floating point), on any reused object.  It never raises, and one of three things happens: it cuts for
`Σ x_q F_q`, it cuts for `t·I - F(x)'F(x)`, or both matrices are positive definite up to the rounding errors and the cut is for
the objective.  The last component of the second cut is the only extra source of rounding. -/
theorem C116_lsq {F : Fin k → ℕ → ℕ → α} {F0 : ℕ → ℕ → α} {m : ℕ} (hF : ∀ q, SymOn (F q) m) (x : Fin (k + 1) → α) (t : WithTop α)
    {o : LsqOracle α} (h0 : Ready m o.lmi0) (hQ : Ready m o.qmi.Q) (hfl : RelErr u fl) (hu0 : 0 ≤ u) (hu : u ≤ 1 / 10) (hγ : 0 ≤ γ)
    (hdot : DotErr γ m dot) (hloc : DotLocal dot)
    (hθ : 3 * u + 2 * γ ≤ 1 / 5) (hη : (1 + u) ^ (k + 2) ≤ 1 + η) (hδ : (1 + u) * ((1 + γ) * ((1 + η) * (1 + η))) ≤ 1 + δ)
    (hζ : (1 + u) * ((1 + γ) * ((1 + γ) * ((1 + γ) * (1 + η)))) ≤ 1 + ζ) :
    ∃ o' g b t1, lsqCallF fl dot F F0 m x t o = .ok (o', (g, b), t1) ∧ Ready m o'.lmi0 ∧ Ready m o'.qmi.Q ∧ 0 ≤ b ∧
      -- the linear constraint is cut
      ((t1 = none ∧ ∃ e, 0 < e ∧ e ≤ m ∧ o'.lmi0.v (e - 1) = 1 ∧ ∀ ρ : ℕ → α, (∀ i, 0 ≤ ρ i) →
        (∀ i < m, combo F (Fin.init x) i i + η * absCombo F (Fin.init x) i i ≤ ρ i ^ 2) →
        quadOn (combo F (Fin.init x)) 0 e o'.lmi0.v ≤ 3 * (3 * u + 2 * γ) * (∑ i ∈ range e, ρ i * |o'.lmi0.v i|) ^ 2 +
          η * quadOn (absCombo F (Fin.init x)) 0 e (fun i => |o'.lmi0.v i|) ∧
        ∀ z : Fin (k + 1) → α, PSDon (combo F (Fin.init z)) 0 m → ∑ q, g q * (z q - x q) + b ≤
          5 * (3 * u + 2 * γ) * ((∑ i ∈ range e, ρ i * |o'.lmi0.v i|) ^ 2 + b) +
          η * quadOn (absCombo F (Fin.init x)) 0 e (fun i => |o'.lmi0.v i|) +
          (2 * γ + γ ^ 2) * ∑ q : Fin k, |z q.castSucc - x q.castSucc| * quadOn (absMat (F q)) 0 e (fun i => |o'.lmi0.v i|)) ∨
      -- the quadratic constraint is cut
      (t1 = none ∧ ∃ e, 0 < e ∧ e ≤ m ∧ o'.qmi.Q.v (e - 1) = 1 ∧ ∀ ρ : ℕ → α, (∀ i, 0 ≤ ρ i) →
        (∀ i < m, tiMinusGram m (x (Fin.last k)) (pencil F F0 (Fin.init x)) i i +
          δ * absGram m (x (Fin.last k)) (absPencil F F0 (Fin.init x)) i i ≤ ρ i ^ 2) →
        quadOn (tiMinusGram m (x (Fin.last k)) (pencil F F0 (Fin.init x))) 0 e o'.qmi.Q.v ≤
          3 * (3 * u + 2 * γ) * (∑ i ∈ range e, ρ i * |o'.qmi.Q.v i|) ^ 2 +
          δ * quadOn (absGram m (x (Fin.last k)) (absPencil F F0 (Fin.init x))) 0 e (fun i => |o'.qmi.Q.v i|) ∧
        ∀ z : Fin (k + 1) → α, PSDon (tiMinusGram m (z (Fin.last k)) (pencil F F0 (Fin.init z))) 0 m →
          ∑ q, g q * (z q - x q) + b ≤ 5 * (3 * u + 2 * γ) * ((∑ i ∈ range e, ρ i * |o'.qmi.Q.v i|) ^ 2 + b) +
          δ * quadOn (absGram m (x (Fin.last k)) (absPencil F F0 (Fin.init x))) 0 e (fun i => |o'.qmi.Q.v i|) +
          2 * ζ * (∑ q : Fin k, |z q.castSucc - x q.castSucc| * absBilin m e o'.qmi.Q.v (F q) (absPencil F F0 (Fin.init x))) +
          γ * (∑ i ∈ range e, o'.qmi.Q.v i ^ 2) * |z (Fin.last k) - x (Fin.last k)|) ∨
      -- both constraints are accepted
      ((∀ ρ : ℕ → α, (∀ i, 0 ≤ ρ i) → (∀ i < m, combo F (Fin.init x) i i + η * absCombo F (Fin.init x) i i ≤ ρ i ^ 2) →
        ∀ y : ℕ → α, (∃ i < m, y i ≠ 0) → -(5 / 4 * (3 * u + 2 * γ) * (∑ i ∈ range m, ρ i * |y i|) ^ 2 +
          η * quadOn (absCombo F (Fin.init x)) 0 m (fun i => |y i|)) < quadOn (combo F (Fin.init x)) 0 m y) ∧
       (∀ ρ : ℕ → α, (∀ i, 0 ≤ ρ i) → (∀ i < m, tiMinusGram m (x (Fin.last k)) (pencil F F0 (Fin.init x)) i i +
          δ * absGram m (x (Fin.last k)) (absPencil F F0 (Fin.init x)) i i ≤ ρ i ^ 2) →
        ∀ y : ℕ → α, (∃ i < m, y i ≠ 0) → -(5 / 4 * (3 * u + 2 * γ) * (∑ i ∈ range m, ρ i * |y i|) ^ 2 +
          δ * quadOn (absGram m (x (Fin.last k)) (absPencil F F0 (Fin.init x))) 0 m (fun i => |y i|)) <
            quadOn (tiMinusGram m (x (Fin.last k)) (pencil F F0 (Fin.init x))) 0 m y) ∧
       (∀ z : Fin (k + 1) → α, ∑ q, g q * (z q - x q) = z (Fin.last k) - x (Fin.last k)) ∧
       ((((x (Fin.last k) : α) : WithTop α) ≤ t ∧ t1 = some ((x (Fin.last k) : α) : WithTop α) ∧ b = 0) ∨
        ∃ t0 : α, t = t0 ∧ t0 < x (Fin.last k) ∧ t1 = none ∧ |b - (x (Fin.last k) - t0)| ≤ u * (x (Fin.last k) - t0)))) := by
  obtain ⟨o', g, b, t1, h1, h2, h3, h4, h5⟩ := lsqF_any (F0 := F0) hF x t h0 hQ hfl hu0 hu hγ hdot hloc hθ hη hδ hζ
  refine ⟨o', g, b, t1, h1, h2, h3, h4, ?_⟩
  rcases h5 with ⟨a1, e, a2, a3, a4, a5⟩ | ⟨a1, e, a2, a3, a4, a5⟩ | h5
  · refine .inl ⟨a1, e, a2, a3, a4, fun ρ hρ0 hρ => ⟨(a5 ρ hρ0 hρ).1, fun z hz => ?_⟩⟩
    have c1 := (a5 ρ hρ0 hρ).2 z
    have c2 := (hz.sub le_rfl a3) o'.lmi0.v
    linarith
  · refine .inr (.inl ⟨a1, e, a2, a3, a4, fun ρ hρ0 hρ => ⟨(a5 ρ hρ0 hρ).1, fun z hz => ?_⟩⟩)
    have c1 := (a5 ρ hρ0 hρ).2 z
    have c2 := (hz.sub le_rfl a3) o'.qmi.Q.v
    linarith
  · exact .inr (.inr h5)

omit [IsStrictOrderedRing α] in
/-- Without rounding these are the oracles of `Verif/Model/MatOracle.lean`. -/
theorem C116_exact (F : Fin k → ℕ → ℕ → α) (F0 : ℕ → ℕ → α) (m : ℕ) (x : Fin k → α) (o : QmiOracle α) :
    qmiCallF id exactDot F F0 m m x o = qmiCall F F0 m m x o ∧
    ∀ (x : Fin (k + 1) → α) (t : WithTop α) (o : LsqOracle α), lsqCallF id exactDot F F0 m x t o = lsqCall F F0 m x t o := by
  have hl : ∀ (l : List (Fin k)) (x : Fin k → α) (i j : ℕ) (a : α), l.foldl (fun a q => id (a + id (F q i j * x q))) a =
      a + (l.map fun q => F q i j * x q).sum := by
    intro l x i j
    induction l with
    | nil => intro a; simp
    | cons q l ih => intro a; rw [List.foldl_cons, ih, List.map_cons, List.sum_cons]; simp only [id]; ring
  have h1 : ∀ (x : Fin k → α) l i, affEntryF id F F0 x l i = F0 l i - ∑ q, F q l i * x q := by
    intro x l i
    unfold affEntryF linEntryF
    rw [hl, zero_add, finRange_sum]; rfl
  have h2 : ∀ x : Fin k → α, qmiEvalF id exactDot F F0 m x = qmiEval F F0 m x := by
    intro x
    funext i j s
    unfold qmiEvalF qmiEval
    simp only [h1, exactDot, range_eq_Ico, id]
  have h3 : ∀ (Q : CholExt α) (s : QmiSt α), qmiNegGradF id exactDot F m m Q s = qmiNegGrad F m m Q s := by
    intro Q s
    unfold qmiNegGradF qmiNegGrad
    simp only [exactDot, range_eq_Ico, id]
  have h4 : ∀ (x : Fin k → α) (o : QmiOracle α), qmiCallF id exactDot F F0 m m x o = qmiCall F F0 m m x o := by
    intro x o
    unfold qmiCallF qmiCall
    simp only [h2, h3, factorF_exact, witnessF_exact]
    rfl
  refine ⟨h4 x o, fun x t o => ?_⟩
  unfold lsqCallF lsqCall
  simp only [h4, (C115_exact F F0 m _ o.lmi0).2, witnessF_exact]
  rfl

/-- **C116** (the verdict in floating point with `p` bits): rounding to nearest, sums from left to right.  With
`θ = (4m + 7) / 2^p` and `δ = 2 (2m + 2k + 7) / 2^p`, a point that satisfies the inequality with a margin above `3 θ` and `δ` is
accepted, and a point that violates it by more than `5/4 θ` and `δ` is cut. -/
theorem C116_double {p : ℕ} {fl : ℚ → ℚ} (hfl : Nearest p fl) {F : Fin k → ℕ → ℕ → ℚ} {F0 : ℕ → ℕ → ℚ} {m : ℕ}
    (hF : ∀ q, SymOn (F q) m) (t : ℚ) (x : Fin k → ℚ) {o : QmiOracle ℚ} (hQ : Ready m o.Q)
    (hm : 5 * (4 * (m : ℚ) + 7) ≤ 2 ^ p) (hk : 2 * (2 * (m : ℚ) + 2 * k + 7) ≤ 2 ^ p) {ρ : ℕ → ℚ} (hρ0 : ∀ i, 0 ≤ ρ i)
    (hρ : ∀ i < m, tiMinusGram m t (pencil F F0 x) i i + 2 * (2 * m + 2 * k + 7) / 2 ^ p * absGram m t (absPencil F F0 x) i i ≤ ρ i ^ 2) :
    ∃ o' r, qmiCallF fl (seqDot fl) F F0 m m x (o.setT t) = .ok (o', r) ∧ Ready m o'.Q ∧
      ((∀ y : ℕ → ℚ, (∃ i < m, y i ≠ 0) → 3 * ((4 * m + 7) / 2 ^ p) * (∑ i ∈ range m, ρ i * |y i|) ^ 2 +
          2 * (2 * m + 2 * k + 7) / 2 ^ p * quadOn (absGram m t (absPencil F F0 x)) 0 m (fun i => |y i|) <
            quadOn (tiMinusGram m t (pencil F F0 x)) 0 m y) → r = none) ∧
      ((∃ y : ℕ → ℚ, (∃ i < m, y i ≠ 0) ∧ quadOn (tiMinusGram m t (pencil F F0 x)) 0 m y ≤ -(5 / 4 * ((4 * m + 7) / 2 ^ p) *
          (∑ i ∈ range m, ρ i * |y i|) ^ 2 +
          2 * (2 * m + 2 * k + 7) / 2 ^ p * quadOn (absGram m t (absPencil F F0 x)) 0 m (fun i => |y i|))) → r ≠ none) := by
  set u : ℚ := 1 / 2 ^ p with hu
  have hu0 : 0 ≤ u := by positivity
  have hn0 : (0 : ℚ) ≤ m := Nat.cast_nonneg _
  have hup : 2 ^ p * u = 1 := by rw [hu]; field_simp
  have hbig : 5 * (4 * (m : ℚ) + 7) * u ≤ 1 := by rw [← hup]; exact mul_le_mul_of_nonneg_right hm hu0
  have hnu : 0 ≤ (m : ℚ) * u := mul_nonneg hn0 hu0
  have hN : ((m + 1 : ℕ) : ℚ) * u ≤ 1 / 2 := by push_cast; linarith
  have hK : ((2 * m + 2 * k + 7 : ℕ) : ℚ) * u ≤ 1 / 2 := by
    have : 2 * (2 * (m : ℚ) + 2 * k + 7) * u ≤ 1 := by rw [← hup]; exact mul_le_mul_of_nonneg_right hk hu0
    push_cast; linarith
  have hγ0 : (0 : ℚ) ≤ 2 * (((m + 1 : ℕ) : ℚ) * u) := by positivity
  have hdot : DotErr (2 * (((m + 1 : ℕ) : ℚ) * u)) m (seqDot fl) := fun s e x y he =>
    (seqDot_err hfl.relErr hu0 m s e x y he).trans
      (mul_le_mul_of_nonneg_right (pow_sub_one_le hu0 _ hN) (Finset.sum_nonneg fun _ _ => abs_nonneg _))
  have hθ : 3 * u + 2 * (2 * (((m + 1 : ℕ) : ℚ) * u)) = (4 * m + 7) / 2 ^ p := by
    rw [div_eq_mul_one_div, ← hu]; push_cast; ring
  have hδ : 2 * (((2 * m + 2 * k + 7 : ℕ) : ℚ) * u) = 2 * (2 * m + 2 * k + 7) / 2 ^ p := by
    rw [div_eq_mul_one_div, ← hu]; push_cast; ring
  have hb : 1 + 2 * (((m + 1 : ℕ) : ℚ) * u) ≤ (1 + u) ^ (2 * (m + 1)) := by
    have := one_add_mul_le_pow (show (-2 : ℚ) ≤ u by linarith) (2 * (m + 1))
    push_cast at this ⊢
    linarith
  have key := C116_qmi (F0 := F0) hF t x hQ hfl.relErr hu0 (by linarith) hγ0 hdot (by push_cast; linarith)
    (η := (1 + u) ^ (k + 2) - 1) (by linarith) (δ := 2 * (((2 * m + 2 * k + 7 : ℕ) : ℚ) * u)) (by
      have h1 := pow_sub_one_le hu0 _ hK
      have h2 : (1 + u) * ((1 + 2 * (((m + 1 : ℕ) : ℚ) * u)) * ((1 + u) ^ (k + 2) * (1 + u) ^ (k + 2))) ≤
          (1 + u) * ((1 + u) ^ (2 * (m + 1)) * ((1 + u) ^ (k + 2) * (1 + u) ^ (k + 2))) := by gcongr
      have h3 : (1 + u) * ((1 + u) ^ (2 * (m + 1)) * ((1 + u) ^ (k + 2) * (1 + u) ^ (k + 2))) = (1 + u) ^ (2 * m + 2 * k + 7) := by
        rw [← pow_add, ← pow_add, ← pow_succ']
        congr 1
        omega
      rw [show 1 + ((1 + u) ^ (k + 2) - 1) = (1 + u) ^ (k + 2) by ring]
      linarith) (ζ := _) (le_of_eq (add_sub_cancel _ _).symm)
  rw [hθ, hδ] at key
  obtain ⟨Q', r, h1, h2, h3, h4⟩ := key
  refine ⟨Q', r, h1, h2, fun hpd => ?_, fun ⟨y, hy, hq⟩ hr => absurd (h3 hr ρ hρ0 hρ y hy) (not_lt.2 hq)⟩
  rcases r with _ | ⟨g, ep⟩
  · rfl
  · obtain ⟨-, e, he0, hem, hv, h5⟩ := h4 g ep rfl
    have h6 := (h5 ρ hρ0 hρ).1
    have h7 := hpd (fun i => if i < e then Q'.Q.v i else 0) ⟨e - 1, by omega, by
      simp only [if_pos (show e - 1 < e by omega), hv]; exact one_ne_zero⟩
    have habs : (fun i => |if i < e then Q'.Q.v i else 0|) = fun i => if i < e then |Q'.Q.v i| else 0 := by
      funext i
      split_ifs
      · rfl
      · exact abs_zero
    have hsum : ∑ i ∈ range m, ρ i * |if i < e then Q'.Q.v i else 0| = ∑ i ∈ range e, ρ i * |Q'.Q.v i| := by
      rw [range_eq_Ico, range_eq_Ico, ← Finset.sum_Ico_consecutive _ (Nat.zero_le e) hem, Finset.sum_eq_zero (s := Ico e m), add_zero]
      · exact Finset.sum_congr rfl fun i hi => by rw [Finset.mem_Ico] at hi; rw [if_pos hi.2]
      · intro i hi
        rw [Finset.mem_Ico] at hi
        rw [if_neg (by omega)]; simp
    rw [hsum, habs, quadOn_extend hem, quadOn_extend hem] at h7
    linarith

/-! ### Non-vacuity -/

omit [LinearOrder α] [IsStrictOrderedRing α] in
theorem seqDot_local (fl : α → α) : DotLocal (seqDot fl) := fun s e x x' y y' h => by
  unfold seqDot
  refine List.foldl_ext _ _ _ fun a k hk => ?_
  rw [List.mem_range] at hk
  rw [(h (s + k) (by omega) (by omega)).1, (h (s + k) (by omega) (by omega)).2]

/-- `F(x) = [[2, 1], [1, 2]] - x I` in double precision, at `x = 2`, whatever the earlier state: `t = 4` is accepted, `t = 1/2` is
cut. -/
example (o : QmiOracle ℚ) (hQ : Ready 2 o.Q) :
    (∃ o', qmiCallF (ieee 53) (seqDot (ieee 53)) (fun _ : Fin 1 => two 1 0 1) (two 2 1 2) 2 2 (fun _ => 2) (o.setT 4) =
      .ok (o', none)) ∧
    ∃ o' g ep, qmiCallF (ieee 53) (seqDot (ieee 53)) (fun _ : Fin 1 => two 1 0 1) (two 2 1 2) 2 2 (fun _ => 2) (o.setT (1 / 2)) =
      .ok (o', some (g, ep)) := by
  have hfl := ieee_nearest (α := ℚ) (p := 53) (by norm_num)
  constructor
  · obtain ⟨Q', r, h1, -, h2, -⟩ := C116_double hfl (F := fun _ : Fin 1 => two 1 0 1) (F0 := two 2 1 2) (m := 2) (fun _ => two_sym _ _ _)
      4 (fun _ => 2) hQ (by norm_num) (by norm_num) (ρ := fun _ => 2) (fun _ => by norm_num) (fun i hi => by
        rcases (show i = 0 ∨ i = 1 by omega) with rfl | rfl <;>
          norm_num [two, tiMinusGram, absGram, pencil, absPencil, absCombo, combo, Finset.sum_range_succ])
    suffices hr : r = none from ⟨Q', hr ▸ h1⟩
    refine h2 fun y ⟨i, hi, hy⟩ => ?_
    have e1 : quadOn (tiMinusGram 2 4 (pencil (fun _ : Fin 1 => two 1 0 1) (two 2 1 2) fun _ => 2)) 0 2 y = 3 * y 0 ^ 2 + 3 * y 1 ^ 2 := by
      norm_num [quadOn, Finset.sum_range_succ, tiMinusGram, pencil, two]; ring
    have e2 : quadOn (absGram 2 4 (absPencil (fun _ : Fin 1 => two 1 0 1) (two 2 1 2) fun _ => 2)) 0 2 (fun i => |y i|) =
        21 * |y 0| ^ 2 + 16 * (|y 0| * |y 1|) + 21 * |y 1| ^ 2 := by
      simp only [quadOn, absGram, absPencil, absCombo, two, Nat.Ico_zero_eq_range, Finset.sum_range_succ, Finset.sum_range_zero]
      norm_num
      rw [← sq_abs (y 0), ← sq_abs (y 1)]
      ring
    rw [e1, e2]
    simp only [Finset.sum_range_succ, Finset.sum_range_zero, zero_add]
    have hn : 0 < |y 0| ^ 2 + |y 1| ^ 2 := by
      rcases (show i = 0 ∨ i = 1 by omega) with rfl | rfl
      · have : 0 < |y 0| := abs_pos.2 hy
        positivity
      · have : 0 < |y 1| := abs_pos.2 hy
        positivity
    have h4 := sq_nonneg (|y 0| - |y 1|)
    rw [← sq_abs (y 0), ← sq_abs (y 1)]
    generalize |y 0| = a at *
    generalize |y 1| = b at *
    have h5 : a * b ≤ (a ^ 2 + b ^ 2) / 2 := by linarith
    push_cast
    calc _ = (180 / 2 ^ 53 + 546 / 2 ^ 53) * (a ^ 2 + b ^ 2) + (360 / 2 ^ 53 + 416 / 2 ^ 53) * (a * b) := by ring
      _ < 3 * (a ^ 2 + b ^ 2) := by linarith
      _ = _ := by ring
  · obtain ⟨Q', r, h1, -, -, h2⟩ := C116_double hfl (F := fun _ : Fin 1 => two 1 0 1) (F0 := two 2 1 2) (m := 2) (fun _ => two_sym _ _ _)
      (1 / 2) (fun _ => 2) hQ (by norm_num) (by norm_num) (ρ := fun _ => 1) (fun _ => by norm_num) (fun i hi => by
        rcases (show i = 0 ∨ i = 1 by omega) with rfl | rfl <;>
          norm_num [two, tiMinusGram, absGram, pencil, absPencil, absCombo, combo, Finset.sum_range_succ])
    have h3 := h2 ⟨fun i => if i = 0 then 1 else 0, ⟨0, by norm_num, by norm_num⟩, by
      norm_num [Finset.sum_range_succ, quadOn, tiMinusGram, absGram, pencil, absPencil, absCombo, two]⟩
    rcases r with _ | ⟨g, ep⟩
    · exact absurd rfl h3
    · exact ⟨Q', g, ep, h1⟩

/-- The hypotheses of `C116_lsq` for double precision, two by two matrices and one parameter. -/
example (x : Fin 2 → ℚ) (t : WithTop ℚ) : ∃ o' c t1, lsqCallF (ieee 53) (seqDot (ieee 53)) (fun _ : Fin 1 => two 1 0 1) (two 2 1 2) 2 x t
    ⟨⟨⟨0, 0, fun _ _ => 0⟩, CholExt.init 2⟩, CholExt.init 2⟩ = .ok (o', c, t1) := by
  have hfl := ieee_nearest (α := ℚ) (p := 53) (by norm_num)
  obtain ⟨o', g, b, t1, h, -⟩ := C116_lsq (k := 1) (F0 := two 2 1 2) (F := fun _ : Fin 1 => two 1 0 1) (m := 2) (fun _ => two_sym _ _ _) x t
    (o := ⟨⟨⟨0, 0, fun _ _ => 0⟩, CholExt.init 2⟩, CholExt.init 2⟩) (ready_init 2) (ready_init 2) hfl.relErr (by norm_num) (by norm_num)
    (by norm_num) (seqDot_err hfl.relErr (by norm_num) 2) (seqDot_local _) (by norm_num) (η := 1) (by norm_num) (δ := 7) (by norm_num)
    (ζ := 7) (by norm_num)
  exact ⟨o', _, t1, h⟩

end Verif
