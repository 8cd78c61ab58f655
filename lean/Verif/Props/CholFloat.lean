import Mathlib.Tactic.NormNum
import Mathlib.Tactic.FieldSimp
import Verif.Proofs.BsearchFloat
import Verif.Proofs.CholFloat
import Verif.Props.Chol

/-!
# C114: `chol_ext.factor` and `witness` in floating point

`u` bounds the relative error of one operation, `γ` that of a dot product, and `θ = 3u + 2γ`.  Errors of an entry are measured
against the diagonal: `ρ i` is any number with `A i i ≤ ρ i ^ 2` (the square root of the diagonal entry, if there is one).
-/
namespace Verif
open Finset FloatSpec

section
variable {W α : Type _} [Field α] [LinearOrder α] [IsStrictOrderedRing α] {getA : ℕ → ℕ → W → Except PyErr (W × α)}
  {A : ℕ → ℕ → α} {u γ : α} {fl : α → α} {dot : ℕ → ℕ → (ℕ → α) → (ℕ → α) → α} {Pre In : ℕ → W → Prop}

theorem kappa_le (hu0 : 0 ≤ u) (hu : u ≤ 1 / 10) (hγ : 0 ≤ γ) :
    0 ≤ u / (1 - u) ∧ u / (1 - u) + γ * (1 + u / (1 - u)) ≤ 3 * u + 2 * γ ∧ u / (1 - u) * (2 + u / (1 - u)) ≤ 3 * u + 2 * γ := by
  have h1 : 0 < 1 - u := by linarith
  have h2 : u / (1 - u) ≤ 10 / 9 * u := by rw [div_le_iff₀ h1]; nlinarith
  have h3 : 0 ≤ u / (1 - u) := div_nonneg hu0 h1.le
  refine ⟨h3, ?_, ?_⟩
  · have : γ * (u / (1 - u)) ≤ γ * (1 / 9) := mul_le_mul_of_nonneg_left (by linarith) hγ
    linarith
  · have : u / (1 - u) * (u / (1 - u)) ≤ u / (1 - u) * (1 / 9) := mul_le_mul_of_nonneg_left (by linarith) h3
    linarith

/-- **C114** (no error): whatever is rounded how, `factor` raises nothing that `getA` does not raise, and in particular never
divides by zero. -/
theorem C114_total (c : CholExt α) (hS : Serves getA A c.n Pre In) (hfl : RelErr u fl) (hu0 : 0 ≤ u) (hu : u < 1)
    (hdot : DotErr γ c.n dot) {w : W} (hw : Pre 0 w) :
    ∃ w' c' b, c.factorF fl dot getA w = .ok (w', c', b) ∧ c'.n = c.n ∧ c'.allowSemidefinite = c.allowSemidefinite := by
  obtain ⟨w', T', p, h1, -, -, -⟩ := factorF_spec c hS hfl hu0 hu rfl hdot hw
  exact ⟨w', _, _, h1, rfl, rfl⟩

/-- **C114** (`True`): the matrix is positive definite up to a perturbation of `5/4·θ·ρ_i·ρ_j` in the entries. -/
theorem C114_accept (c : CholExt α) (hc : c.allowSemidefinite = false) (hS : Serves getA A c.n Pre In) (hsym : SymOn A c.n)
    (hfl : RelErr u fl) (hu0 : 0 ≤ u) (hu : u ≤ 1 / 10) (hγ : 0 ≤ γ) (hdot : DotErr γ c.n dot) (hθ : 3 * u + 2 * γ ≤ 1 / 5)
    {w w' : W} (hw : Pre 0 w) {c' : CholExt α} (h : c.factorF fl dot getA w = .ok (w', c', true))
    {ρ : ℕ → α} (hρ0 : ∀ i, 0 ≤ ρ i) (hρ : ∀ i < c.n, A i i ≤ ρ i ^ 2) {x : ℕ → α} (hx : ∃ i < c.n, x i ≠ 0) :
    -(5 / 4 * (3 * u + 2 * γ) * (∑ i ∈ range c.n, ρ i * |x i|) ^ 2) < quadOn A 0 c.n x := by
  obtain ⟨k0, k1, k2⟩ := kappa_le hu0 hu hγ
  obtain ⟨w1, T', p, h1, h2, -, -⟩ := factorF_spec c hS hfl hu0 (by linarith) rfl hdot hw
  rw [h1] at h
  simp only [Except.ok.injEq, Prod.mk.injEq, beq_iff_eq] at h
  obtain ⟨hrow, hpos⟩ := (h2.good h.2.2).2 hc
  rw [range_eq_Ico]
  obtain ⟨i, hi, hxi⟩ := hx
  exact quad_of_pivots hγ k0 k1 k2 hθ hrow hsym hpos hρ0 (fun i _ hi => hρ i hi) ⟨i, Nat.zero_le _, hi, hxi⟩

/-- **C114** (`False`): `witness` succeeds, and the certificate `v` it computes ends in 1 and shows that the block is not
positive definite by any margin: its quadratic form is at most `3·θ·(Σ ρ_i |v_i|)²`, and it is the reported `-ep` up to
`5·θ·((Σ ρ_i |v_i|)² + ep)`. -/
theorem C114_reject (c : CholExt α) (hS : Serves getA A c.n Pre In) (hsym : SymOn A c.n)
    (hfl : RelErr u fl) (hu0 : 0 ≤ u) (hu : u ≤ 1 / 10) (hγ : 0 ≤ γ) (hdot : DotErr γ c.n dot) (hθ : 3 * u + 2 * γ ≤ 1 / 5)
    {w w' : W} (hw : Pre 0 w) {c' : CholExt α} (h : c.factorF fl dot getA w = .ok (w', c', false)) :
    ∃ c'' ep, c'.witnessF dot = .ok (c'', ep) ∧ 0 ≤ ep ∧ (c.allowSemidefinite = true → 0 < ep) ∧
      c''.p.1 < c''.p.2 ∧ c''.p.2 ≤ c.n ∧ (c.allowSemidefinite = false → c''.p.1 = 0) ∧ c''.v (c''.p.2 - 1) = 1 ∧
      (c''.n = c.n ∧ c''.allowSemidefinite = c.allowSemidefinite ∧ In (c''.p.2 - 1) w') ∧
      ∀ ρ : ℕ → α, (∀ i, 0 ≤ ρ i) → (∀ i, c''.p.1 ≤ i → i < c''.p.2 → A i i ≤ ρ i ^ 2) →
        quadOn A c''.p.1 c''.p.2 c''.v ≤ 3 * (3 * u + 2 * γ) * (∑ i ∈ Ico c''.p.1 c''.p.2, ρ i * |c''.v i|) ^ 2 ∧
        |quadOn A c''.p.1 c''.p.2 c''.v + ep| ≤
          5 * (3 * u + 2 * γ) * ((∑ i ∈ Ico c''.p.1 c''.p.2, ρ i * |c''.v i|) ^ 2 + ep) := by
  obtain ⟨k0, k1, k2⟩ := kappa_le hu0 hu hγ
  obtain ⟨w1, T', p, h1, h2, -, hin⟩ := factorF_spec c hS hfl hu0 (by linarith) rfl hdot hw
  rw [h1] at h
  simp only [Except.ok.injEq, Prod.mk.injEq, beq_eq_false_iff_ne] at h
  obtain ⟨rfl, rfl, hp⟩ := h
  obtain ⟨m, h4, -, h5, h6, h7, h8, h9, h10, h11⟩ := h2.fail hp
  obtain ⟨ps, pe⟩ := p
  simp only at h4 h5 h7 h8 h11 hp
  subst h4
  have hidx : m + 1 - 1 = m := by omega
  obtain ⟨e1, e2⟩ := witnessLoopF_spec (s := ps) (e := m + 1) hdot T' (by omega) (m - ps) (Function.update c.v m 1) (by omega)
  have hps : ps + (m - ps) = m := by omega
  rw [hps] at e1 e2
  refine ⟨_, _, by simp only [CholExt.witnessF, CholExt.isSpd, beq_iff_eq, hp, if_false]; rfl, ?_⟩
  simp only [hidx]
  have hv : witnessLoopF dot T' ps (m + 1) (m - ps) (Function.update c.v m 1) m = 1 := by
    rw [e1 m le_rfl, Function.update_self]
  refine ⟨by linarith, fun ha => by linarith [h10 ha], by omega, by omega, h11, hv, ⟨trivial, trivial, hin m rfl⟩, fun ρ hρ0 hρ => ?_⟩
  have key := quad_of_fail h5 hγ k0 k1 k2 hθ h7 (fun i j hi hj => hsym i j (by omega) (by omega)) h8 h9 hρ0
    (fun i h1 h2 => hρ i h1 (by omega)) hv e2
  exact ⟨key.1, by simpa only [sub_eq_add_neg] using key.2⟩

/-- **C114** (the cut): the computed certificate separates the matrix from every positive semidefinite one, up to the rounding
errors: this is the inequality the matrix oracles cut with. -/
theorem C114_cut (c : CholExt α) (hS : Serves getA A c.n Pre In) (hsym : SymOn A c.n)
    (hfl : RelErr u fl) (hu0 : 0 ≤ u) (hu : u ≤ 1 / 10) (hγ : 0 ≤ γ) (hdot : DotErr γ c.n dot) (hθ : 3 * u + 2 * γ ≤ 1 / 5)
    {w w' : W} (hw : Pre 0 w) {c' : CholExt α} (h : c.factorF fl dot getA w = .ok (w', c', false)) :
    ∃ c'' ep, c'.witnessF dot = .ok (c'', ep) ∧
      ∀ B : ℕ → ℕ → α, PSDon B c''.p.1 c''.p.2 → ∀ ρ : ℕ → α, (∀ i, 0 ≤ ρ i) →
        (∀ i, c''.p.1 ≤ i → i < c''.p.2 → A i i ≤ ρ i ^ 2) →
        ep - 5 * (3 * u + 2 * γ) * ((∑ i ∈ Ico c''.p.1 c''.p.2, ρ i * |c''.v i|) ^ 2 + ep) ≤
          quadOn (fun i j => B i j - A i j) c''.p.1 c''.p.2 c''.v := by
  obtain ⟨c'', ep, h1, -, -, -, -, -, -, -, h2⟩ := C114_reject c hS hsym hfl hu0 hu hγ hdot hθ hw h
  refine ⟨c'', ep, h1, fun B hB ρ hρ0 hρ => ?_⟩
  have h3 := (abs_le.1 (h2 ρ hρ0 hρ).2).2
  have h4 := hB c''.v
  have h5 : quadOn (fun i j => B i j - A i j) c''.p.1 c''.p.2 c''.v =
      quadOn B c''.p.1 c''.p.2 c''.v - quadOn A c''.p.1 c''.p.2 c''.v := by
    simp only [quadOn, mul_sub, sub_mul, Finset.sum_sub_distrib]
  rw [h5]
  linarith

omit [LinearOrder α] [IsStrictOrderedRing α] in
/-- Extension by zeros. -/
theorem quadOn_extend {m n : ℕ} (h : m ≤ n) (v : ℕ → α) :
    quadOn A 0 n (fun i => if i < m then v i else 0) = quadOn A 0 m v := by
  unfold quadOn
  have h1 : ∀ f : ℕ → α, ∑ i ∈ Ico 0 n, (if i < m then f i else 0) = ∑ i ∈ Ico 0 m, f i := by
    intro f
    rw [← Finset.sum_Ico_consecutive _ (Nat.zero_le m) h, Finset.sum_eq_zero (s := Ico m n), add_zero]
    · exact Finset.sum_congr rfl fun i hi => by rw [Finset.mem_Ico] at hi; rw [if_pos hi.2]
    · intro i hi
      rw [Finset.mem_Ico] at hi
      rw [if_neg (by omega)]
  have h2 : ∀ i ∈ Ico 0 n, ∑ j ∈ Ico 0 n, (if i < m then v i else 0) * A i j * (if j < m then v j else 0) =
      if i < m then ∑ j ∈ Ico 0 m, v i * A i j * v j else 0 := fun i _ => by
    by_cases hi : i < m
    · rw [if_pos hi, if_pos hi, ← h1]
      refine Finset.sum_congr rfl fun j _ => ?_
      by_cases hj : j < m
      · rw [if_pos hj, if_pos hj]
      · rw [if_neg hj, if_neg hj, mul_zero]
    · rw [if_neg hi, if_neg hi]
      exact Finset.sum_eq_zero fun j _ => by rw [zero_mul, zero_mul]
  rw [Finset.sum_congr rfl h2, h1]

/-- **C114** (the verdict): a matrix that stays positive definite under perturbations of `3·θ·ρ_i·ρ_j` is accepted, one that
violates positive definiteness by `5/4·θ·ρ_i·ρ_j` is rejected. -/
theorem C114_verdict (c : CholExt α) (hc : c.allowSemidefinite = false) (hS : Serves getA A c.n Pre In) (hsym : SymOn A c.n)
    (hfl : RelErr u fl) (hu0 : 0 ≤ u) (hu : u ≤ 1 / 10) (hγ : 0 ≤ γ) (hdot : DotErr γ c.n dot) (hθ : 3 * u + 2 * γ ≤ 1 / 5)
    {w : W} (hw : Pre 0 w) {ρ : ℕ → α} (hρ0 : ∀ i, 0 ≤ ρ i) (hρ : ∀ i < c.n, A i i ≤ ρ i ^ 2) :
    ∃ w' c' b, c.factorF fl dot getA w = .ok (w', c', b) ∧
      ((∀ x : ℕ → α, (∃ i < c.n, x i ≠ 0) → 3 * (3 * u + 2 * γ) * (∑ i ∈ range c.n, ρ i * |x i|) ^ 2 < quadOn A 0 c.n x) →
        b = true) ∧
      ((∃ x : ℕ → α, (∃ i < c.n, x i ≠ 0) ∧ quadOn A 0 c.n x ≤ -(5 / 4 * (3 * u + 2 * γ) * (∑ i ∈ range c.n, ρ i * |x i|) ^ 2)) →
        b = false) := by
  obtain ⟨w', c', b, h, -, -⟩ := C114_total c hS hfl hu0 (by linarith) hdot hw
  refine ⟨w', c', b, h, fun hpd => ?_, fun ⟨x, hx, hq⟩ => ?_⟩
  · by_contra hb
    rw [Bool.not_eq_true] at hb
    subst hb
    obtain ⟨c'', ep, -, -, -, h4, h5, h6, h7, -, h8⟩ := C114_reject c hS hsym hfl hu0 hu hγ hdot hθ hw h
    have h6' := h6 hc
    rw [h6'] at h4 h8
    have h9 := (h8 ρ hρ0 fun i _ hi => hρ i (by omega)).1
    have h10 := hpd (fun i => if i < c''.p.2 then c''.v i else 0) ⟨c''.p.2 - 1, by omega, by
      simp only [if_pos (show c''.p.2 - 1 < c''.p.2 by omega), h7]; exact one_ne_zero⟩
    rw [quadOn_extend h5] at h10
    have h11 : ∑ i ∈ range c.n, ρ i * |if i < c''.p.2 then c''.v i else 0| = ∑ i ∈ Ico 0 c''.p.2, ρ i * |c''.v i| := by
      rw [range_eq_Ico, ← Finset.sum_Ico_consecutive _ (Nat.zero_le c''.p.2) h5, Finset.sum_eq_zero (s := Ico c''.p.2 c.n), add_zero]
      · exact Finset.sum_congr rfl fun i hi => by rw [Finset.mem_Ico] at hi; rw [if_pos hi.2]
      · intro i hi
        rw [Finset.mem_Ico] at hi
        rw [if_neg (by omega)]; simp
    rw [h11] at h10
    linarith
  · by_contra hb
    rw [Bool.not_eq_false] at hb
    subst hb
    exact absurd (C114_accept c hc hS hsym hfl hu0 hu hγ hdot hθ hw h hρ0 hρ hx) (not_lt.2 hq)

/-- A sum of products accumulated from left to right. -/
theorem fold_err {ι : Type _} (hfl : RelErr u fl) (hu : 0 ≤ u) (t : ι → α) (l : List ι) :
    |l.foldl (fun acc k => fl (acc + fl (t k))) 0 - (l.map t).sum| ≤ ((1 + u) ^ (l.length + 1) - 1) * (l.map fun k => |t k|).sum := by
  induction l using List.reverseRecOn with
  | nil => simp
  | append_singleton l k ih =>
    rw [List.foldl_append, List.foldl_cons, List.foldl_nil, List.map_append, List.sum_append, List.map_append, List.sum_append,
      List.length_append]
    simp only [List.map_cons, List.map_nil, List.sum_cons, List.sum_nil, add_zero, List.length_cons, List.length_nil, zero_add]
    set p := l.foldl (fun acc k => fl (acc + fl (t k))) 0
    set S := (l.map t).sum with hS
    set R := (l.map fun k => |t k|).sum with hR
    have hSR : |S| ≤ R := by
      have : ∀ l : List ι, |(l.map t).sum| ≤ (l.map fun k => |t k|).sum := fun l => by
        induction l with
        | nil => simp
        | cons a l ih => simpa using (abs_add_le _ _).trans (by linarith)
      exact this l
    have h1 := hfl (t k)
    have h2 := hfl (p + fl (t k))
    have ht : |fl (t k)| ≤ (1 + u) * |t k| := by
      have := abs_sub_abs_le_abs_sub (fl (t k)) (t k)
      linarith
    have hp : |p| ≤ (1 + u) ^ (l.length + 1) * R := by
      have := abs_sub_abs_le_abs_sub p S
      linarith
    have h3 : |p + fl (t k)| ≤ (1 + u) ^ (l.length + 1) * R + (1 + u) * |t k| := (abs_add_le _ _).trans (by linarith)
    have h4 := mul_le_mul_of_nonneg_left h3 hu
    have h5 : (1 : α) ≤ (1 + u) ^ l.length := one_le_pow₀ (by linarith)
    have h6 : (1 + u) ^ 2 * 1 ≤ (1 + u) ^ 2 * (1 + u) ^ l.length := mul_le_mul_of_nonneg_left h5 (by positivity)
    have h7 : ((1 + u) ^ 2 * 1) * |t k| ≤ ((1 + u) ^ 2 * (1 + u) ^ l.length) * |t k| := mul_le_mul_of_nonneg_right h6 (abs_nonneg _)
    have h8 : ((1 + u) ^ (l.length + 1 + 1) - 1) * (R + |t k|) =
        (u * ((1 + u) ^ (l.length + 1) * R + (1 + u) * |t k|) + ((1 + u) ^ (l.length + 1) - 1) * R + u * |t k|) +
        (((1 + u) ^ 2 * (1 + u) ^ l.length) * |t k| - ((1 + u) ^ 2 * 1) * |t k|) := by ring
    rw [h8]
    rw [abs_le] at *
    constructor <;> linarith [h1.1, h1.2, h2.1, h2.2, ih.1, ih.2]

/-- The dot product accumulated from left to right. -/
theorem seqDot_err (hfl : RelErr u fl) (hu : 0 ≤ u) (n : ℕ) : DotErr ((1 + u) ^ (n + 1) - 1) n (seqDot fl) := by
  intro s e x y he
  have h := fold_err hfl hu (fun k => x (s + k) * y (s + k)) (List.range (e - s))
  have hsum : ∀ f : ℕ → α, ((List.range (e - s)).map fun m => f (s + m)).sum = ∑ m ∈ Ico s e, f m := fun f => by
    rw [Finset.sum_Ico_eq_sum_range]; rfl
  rw [hsum (fun m => x m * y m), hsum (fun m => |x m * y m|), List.length_range] at h
  refine h.trans (mul_le_mul_of_nonneg_right ?_ (Finset.sum_nonneg fun _ _ => abs_nonneg _))
  have : (1 + u) ^ (e - s + 1) ≤ (1 + u) ^ (n + 1) := pow_le_pow_right₀ (by linarith) (by omega)
  linarith

theorem pow_sub_one_le (hu : 0 ≤ u) (N : ℕ) (h : N * u ≤ 1 / 2) : (1 + u) ^ N - 1 ≤ 2 * (N * u) := by
  have key : ∀ k : ℕ, (k : α) * u ≤ 1 → (1 + u) ^ k * (1 - k * u) ≤ 1 := by
    intro k
    induction k with
    | zero => simp
    | succ k ih =>
      intro hk
      push_cast at hk ⊢
      have hk0 : (0 : α) ≤ k := Nat.cast_nonneg k
      have h1 := ih (by nlinarith)
      have h2 : (1 + u) * (1 - (k + 1) * u) ≤ 1 - k * u := by nlinarith [mul_nonneg hu hu, mul_nonneg hk0 (mul_nonneg hu hu)]
      have h3 := mul_le_mul_of_nonneg_left h2 (pow_nonneg (show 0 ≤ 1 + u by linarith) k)
      calc _ = (1 + u) ^ k * ((1 + u) * (1 - (k + 1) * u)) := by ring
        _ ≤ _ := h3
        _ ≤ _ := h1
  have h1 := key N (by linarith)
  have h2 : (0 : α) ≤ N * u := mul_nonneg (Nat.cast_nonneg _) hu
  have h3 : 1 ≤ (1 + u) ^ N := one_le_pow₀ (by linarith)
  nlinarith

end

/-! ## Binary floating point -/

variable {p : ℕ} {fl : ℚ → ℚ}

/-- **C114** (doubles): with rounding to nearest on `p` bits and dot products accumulated from left to right, `factor` decides
positive definiteness of an `n × n` matrix up to perturbations of `(4n + 7)/2^p` relative to the diagonal. -/
theorem C114_double (hfl : Nearest p fl) (c : CholExt ℚ) (hc : c.allowSemidefinite = false)
    (hp : 5 * (4 * (c.n : ℚ) + 7) ≤ 2 ^ p) {W : Type _} {getA : ℕ → ℕ → W → Except PyErr (W × ℚ)} {A : ℕ → ℕ → ℚ}
    {Pre In : ℕ → W → Prop} (hS : Serves getA A c.n Pre In) (hsym : SymOn A c.n) {w : W} (hw : Pre 0 w)
    {ρ : ℕ → ℚ} (hρ0 : ∀ i, 0 ≤ ρ i) (hρ : ∀ i < c.n, A i i ≤ ρ i ^ 2) :
    ∃ w' c' b, c.factorF fl (seqDot fl) getA w = .ok (w', c', b) ∧
      ((∀ x : ℕ → ℚ, (∃ i < c.n, x i ≠ 0) → 3 * ((4 * c.n + 7) / 2 ^ p) * (∑ i ∈ range c.n, ρ i * |x i|) ^ 2 < quadOn A 0 c.n x) →
        b = true) ∧
      ((∃ x : ℕ → ℚ, (∃ i < c.n, x i ≠ 0) ∧
          quadOn A 0 c.n x ≤ -(5 / 4 * ((4 * c.n + 7) / 2 ^ p) * (∑ i ∈ range c.n, ρ i * |x i|) ^ 2)) → b = false) := by
  set u : ℚ := 1 / 2 ^ p with hu
  have hu0 : 0 ≤ u := by positivity
  have hn0 : (0 : ℚ) ≤ c.n := Nat.cast_nonneg _
  have hup : 2 ^ p * u = 1 := by rw [hu]; field_simp
  have hbig : 5 * (4 * (c.n : ℚ) + 7) * u ≤ 1 := by rw [← hup]; exact mul_le_mul_of_nonneg_right hp hu0
  have hnu : 0 ≤ (c.n : ℚ) * u := mul_nonneg hn0 hu0
  have hN : ((c.n + 1 : ℕ) : ℚ) * u ≤ 1 / 2 := by push_cast; linarith
  have hγ0 : (0 : ℚ) ≤ 2 * (((c.n + 1 : ℕ) : ℚ) * u) := by positivity
  have hdot : DotErr (2 * (((c.n + 1 : ℕ) : ℚ) * u)) c.n (seqDot fl) := fun s e x y he =>
    (seqDot_err hfl.relErr hu0 c.n s e x y he).trans
      (mul_le_mul_of_nonneg_right (pow_sub_one_le hu0 _ hN) (Finset.sum_nonneg fun _ _ => abs_nonneg _))
  have hθ : 3 * u + 2 * (2 * (((c.n + 1 : ℕ) : ℚ) * u)) = (4 * c.n + 7) / 2 ^ p := by
    rw [div_eq_mul_one_div, ← hu]; push_cast; ring
  have key := C114_verdict c hc hS hsym hfl.relErr hu0 (by linarith) hγ0 hdot (by push_cast; linarith) hw hρ0 hρ
  rw [hθ] at key
  exact key

theorem abs_lt_of_half {x y : ℚ} : 2 * |x| < y ↔ -y < 2 * x ∧ 2 * x < y := by
  rw [show 2 * |x| = |2 * x| by rw [abs_mul, abs_two], abs_lt]

/-- `[[a, c], [c, b]]` -/
def two (a c b : ℚ) (i j : ℕ) : ℚ := if i = 0 ∧ j = 0 then a else if i = 1 ∧ j = 1 then b else c

theorem two_sym (a c b : ℚ) : SymOn (two a c b) 2 := fun i j _ _ => by
  unfold two
  by_cases h : i = 0 ∧ j = 0 <;> by_cases h' : i = 1 ∧ j = 1 <;> simp [h, h', and_comm]

theorem two_quad (a c b : ℚ) (x : ℕ → ℚ) : quadOn (two a c b) 0 2 x = a * x 0 ^ 2 + 2 * c * x 0 * x 1 + b * x 1 ^ 2 := by
  simp [quadOn, Finset.sum_range_succ, two]; ring

/-- The run on a two by two matrix. -/
theorem factorF_two (hfl : Nearest p fl) {a c b : ℚ} (ha : 0 < a) :
    ((CholExt.init 2 : CholExt ℚ).factorF fl (seqDot fl) (readAt 2 (two a c b)) ()).map (fun r => r.2.2) =
      .ok (decide (0 < fl (b - fl (fl (c / a) * c)))) := by
  have hid : ∀ x, fl (fl x) = fl x := fun x => hfl.rounding.exact _ (hfl.rep x)
  have hl : seqDot fl 0 1 (set2 (set2 (set2 (fun _ _ => 0) 0 0 a) 0 1 c) 1 0 (fl (c / a)) 1)
      (fun m => set2 (set2 (set2 (fun _ _ => 0) 0 0 a) 0 1 c) 1 0 (fl (c / a)) m 1) = fl (fl (c / a) * c) := by
    simp [seqDot, set2, hid]
  have hdd : set2 (set2 (fun _ _ => 0) 0 0 a) 0 1 c 0 0 = a := by simp [set2]
  have ha' : a ≠ 0 := ha.ne'
  have e1 : cholInnerF fl (seqDot fl) (readAt (W := Unit) 2 (two a c b)) 0 1 1 0 (set2 (fun _ _ => 0) 0 0 a) c () =
      .ok ((), set2 (set2 (set2 (fun _ _ => 0) 0 0 a) 0 1 c) 1 0 (fl (c / a)), fl (b - fl (fl (c / a) * c))) := by
    simp only [cholInnerF, hdd, pyDiv, if_neg ha', readAt, two]
    simp [hl]
  have e2 : readAt (W := Unit) 2 (two a c b) 0 0 () = .ok ((), a) := by simp [readAt, two]
  have e3 : readAt (W := Unit) 2 (two a c b) 1 0 () = .ok ((), c) := by simp [readAt, two]
  have e4 : cholInnerF fl (seqDot fl) (readAt (W := Unit) 2 (two a c b)) 0 0 0 0 (fun _ _ => 0) a () = .ok ((), (fun _ _ => 0), a) := rfl
  unfold CholExt.factorF CholExt.init
  simp only [cholRowsF, e2, e3, e4, e1, Nat.sub_self, Nat.zero_add, Nat.sub_zero, if_pos ha]
  by_cases hd : 0 < fl (b - fl (fl (c / a) * c))
  · simp [hd, CholExt.isSpd, Except.map]
  · simp [hd, CholExt.isSpd, Except.map]

theorem run_of_map {r : Except PyErr (Unit × CholExt ℚ × Bool)} {b : Bool} (h : r.map (fun r => r.2.2) = .ok b) :
    ∃ c', r = .ok ((), c', b) := by
  rcases r with e | ⟨⟨⟩, c', b'⟩
  · simp [Except.map] at h
  · simp only [Except.map, Except.ok.injEq] at h
    exact ⟨c', by rw [h]⟩

/-- **C114** (why not exactly): in double precision an indefinite matrix is accepted, however ties are rounded. -/
theorem C114_wrong_accept (hfl : Nearest 53 fl) :
    ∃ A : ℕ → ℕ → ℚ, SymOn A 2 ∧ (∀ i j, Rep 53 (A i j)) ∧ (∃ x, quadOn A 0 2 x < 0) ∧
      ∃ c', (CholExt.init 2 : CholExt ℚ).factorF fl (seqDot fl) (readAt 2 A) () = .ok ((), c', true) := by
  have hR : Rep 53 (4228379650142299 / 2 ^ 50 : ℚ) := ⟨4228379650142299, -50, by norm_num, by norm_num⟩
  refine ⟨two 45 13 (4228379650142299 / 2 ^ 50), two_sym _ _ _, fun i j => ?_, ⟨fun i => if i = 0 then -13 / 45 else 1, ?_⟩, ?_⟩
  · unfold two
    split_ifs
    · exact ⟨45, 0, by norm_num, by norm_num⟩
    · exact hR
    · exact ⟨13, 0, by norm_num, by norm_num⟩
  · rw [two_quad]; norm_num
  · refine run_of_map ?_
    have h1 : fl (13 / 45) = (5204159569405906 : ℤ) * 2 ^ (-54 : ℤ) :=
      hfl.eq (by norm_num) (by norm_num) (by norm_num) (by norm_num) (by rw [abs_lt_of_half]; norm_num)
    have h2 : fl (fl (13 / 45) * 13) = (8456759300284597 : ℤ) * 2 ^ (-51 : ℤ) := by
      rw [h1]
      exact hfl.eq (by norm_num) (by norm_num) (by norm_num) (by norm_num) (by rw [abs_lt_of_half]; norm_num)
    have h3 : fl (4228379650142299 / 2 ^ 50 - (8456759300284597 : ℤ) * 2 ^ (-51 : ℤ)) = 1 / 2 ^ 51 := by
      rw [show (4228379650142299 / 2 ^ 50 - (8456759300284597 : ℤ) * 2 ^ (-51 : ℤ) : ℚ) = 1 / 2 ^ 51 by norm_num]
      exact hfl.rounding.exact _ ⟨1, -51, by norm_num, by norm_num⟩
    rw [factorF_two hfl (by norm_num), h2, h3]
    norm_num

/-- **C114** (why not exactly): in double precision a positive definite matrix is rejected, however ties are rounded. -/
theorem C114_wrong_reject (hfl : Nearest 53 fl) :
    ∃ A : ℕ → ℕ → ℚ, SymOn A 2 ∧ (∀ i j, Rep 53 (A i j)) ∧ PDon A 0 2 ∧
      ∃ c', (CholExt.init 2 : CholExt ℚ).factorF fl (seqDot fl) (readAt 2 A) () = .ok ((), c', false) := by
  have hR : Rep 53 (4691249611844267 / 2 ^ 49 : ℚ) := ⟨4691249611844267, -49, by norm_num, by norm_num⟩
  refine ⟨two 3 5 (4691249611844267 / 2 ^ 49), two_sym _ _ _, fun i j => ?_, fun x ⟨i, _, hi, hxi⟩ => ?_, ?_⟩
  · unfold two
    split_ifs
    · exact ⟨3, 0, by norm_num, by norm_num⟩
    · exact hR
    · exact ⟨5, 0, by norm_num, by norm_num⟩
  · rw [two_quad]
    have h1 : x 0 ≠ 0 ∨ x 1 ≠ 0 := by
      rcases (show i = 0 ∨ i = 1 by omega) with rfl | rfl
      · exact .inl hxi
      · exact .inr hxi
    have h2 : (3 : ℚ) * x 0 ^ 2 + 2 * 5 * x 0 * x 1 + 4691249611844267 / 2 ^ 49 * x 1 ^ 2 =
        3 * (x 0 + 5 / 3 * x 1) ^ 2 + (4691249611844267 / 2 ^ 49 - 25 / 3) * x 1 ^ 2 := by ring
    rw [h2]
    by_cases h3 : x 1 = 0
    · rw [h3] at h1 ⊢
      have : x 0 ≠ 0 := by simpa using h1
      have := sq_pos_of_ne_zero this
      simpa using this
    · have := sq_pos_of_ne_zero h3
      have h4 : (0 : ℚ) < 4691249611844267 / 2 ^ 49 - 25 / 3 := by norm_num
      have := mul_pos h4 this
      have := sq_nonneg (x 0 + 5 / 3 * x 1)
      linarith
  · refine run_of_map ?_
    have h1 : fl (5 / 3) = (7505999378950827 : ℤ) * 2 ^ (-52 : ℤ) :=
      hfl.eq (by norm_num) (by norm_num) (by norm_num) (by norm_num) (by rw [abs_lt_of_half]; norm_num)
    have h2 : fl (fl (5 / 3) * 5) = (4691249611844267 : ℤ) * 2 ^ (-49 : ℤ) := by
      rw [h1]
      exact hfl.eq (by norm_num) (by norm_num) (by norm_num) (by norm_num) (by rw [abs_lt_of_half]; norm_num)
    have h3 : fl (4691249611844267 / 2 ^ 49 - (4691249611844267 : ℤ) * 2 ^ (-49 : ℤ)) = 0 := by
      rw [show (4691249611844267 / 2 ^ 49 - (4691249611844267 : ℤ) * 2 ^ (-49 : ℤ) : ℚ) = 0 by norm_num]
      exact hfl.rounding.exact _ rep_zero
    rw [factorF_two hfl (by norm_num), h2, h3]
    norm_num

/-! ## Non-vacuity -/

/-- `[[2, 1], [1, 2]]` is accepted in double precision … -/
example : ∃ w' c', (CholExt.init 2 : CholExt ℚ).factorF (ieee 53) (seqDot (ieee 53)) (readAt 2 (two 2 1 2)) () = .ok (w', c', true) := by
  obtain ⟨w', c', b, h1, h2, -⟩ := C114_double (ieee_nearest (p := 53) (by norm_num)) (CholExt.init 2) rfl (by norm_num [CholExt.init])
    (serves_readAt (W := Unit) (size := 2) le_rfl (two 2 1 2) _ fun _ _ _ _ => rfl) (two_sym 2 1 2) (w := ()) trivial (ρ := fun _ => 3 / 2)
    (fun _ => by norm_num) (fun i hi => by
      simp only [CholExt.init] at hi
      rcases (show i = 0 ∨ i = 1 by omega) with rfl | rfl <;> norm_num [two])
  suffices hb : b = true from ⟨w', c', hb ▸ h1⟩
  refine h2 fun x hx => ?_
  obtain ⟨i, hi, hxi⟩ := hx
  simp only [CholExt.init] at hi ⊢
  rw [two_quad]
  simp only [Finset.sum_range_succ, Finset.sum_range_zero, zero_add]
  have h0 : 0 < x 0 ^ 2 + x 1 ^ 2 := by
    rcases (show i = 0 ∨ i = 1 by omega) with rfl | rfl
    · have := sq_pos_of_ne_zero hxi
      have := sq_nonneg (x 1)
      linarith
    · have := sq_pos_of_ne_zero hxi
      have := sq_nonneg (x 0)
      linarith
  have h3 : (3 / 2 * |x 0| + 3 / 2 * |x 1|) ^ 2 ≤ 9 / 2 * (x 0 ^ 2 + x 1 ^ 2) := by
    rw [← sq_abs (x 0), ← sq_abs (x 1)]
    nlinarith [sq_nonneg (|x 0| - |x 1|)]
  have h4 := sq_nonneg (x 0 + x 1)
  push_cast
  norm_num
  nlinarith

/-- … and `[[1, 2], [2, 1]]` is rejected. -/
theorem two_rejected : ∃ w' c', (CholExt.init 2 : CholExt ℚ).factorF (ieee 53) (seqDot (ieee 53)) (readAt 2 (two 1 2 1)) () = .ok (w', c', false) := by
  obtain ⟨w', c', b, h1, -, h2⟩ := C114_double (ieee_nearest (p := 53) (by norm_num)) (CholExt.init 2) rfl (by norm_num [CholExt.init])
    (serves_readAt (W := Unit) (size := 2) le_rfl (two 1 2 1) _ fun _ _ _ _ => rfl) (two_sym 1 2 1) (w := ()) trivial (ρ := fun _ => 1)
    (fun _ => by norm_num) (fun i hi => by
      simp only [CholExt.init] at hi
      rcases (show i = 0 ∨ i = 1 by omega) with rfl | rfl <;> norm_num [two])
  suffices hb : b = false from ⟨w', c', hb ▸ h1⟩
  refine h2 ⟨fun i => if i = 0 then 1 else -1, ⟨0, by norm_num [CholExt.init], by norm_num⟩, ?_⟩
  simp only [CholExt.init]
  rw [two_quad]
  simp only [Finset.sum_range_succ, Finset.sum_range_zero, zero_add]
  norm_num

/-- Its certificate: at least `ep` minus the rounding errors separates it from the identity matrix. -/
example : ∃ w' c' c'' ep, (CholExt.init 2 : CholExt ℚ).factorF (ieee 53) (seqDot (ieee 53)) (readAt 2 (two 1 2 1)) () = .ok (w', c', false) ∧
    c'.witnessF (seqDot (ieee 53)) = .ok (c'', ep) ∧ c''.v (c''.p.2 - 1) = 1 ∧
    quadOn (two 1 2 1) 0 c''.p.2 c''.v ≤ 3 * (1 / 2 ^ 48) * (∑ i ∈ Ico 0 c''.p.2, 1 * |c''.v i|) ^ 2 := by
  obtain ⟨w', c', h⟩ := two_rejected
  have hfl := ieee_nearest (α := ℚ) (p := 53) (by norm_num)
  have hdot := seqDot_err hfl.relErr (by norm_num) 2
  obtain ⟨c'', ep, h1, -, -, h2, h3, h4, h5, -, h6⟩ := C114_reject (CholExt.init 2)
    (serves_readAt (W := Unit) (size := 2) le_rfl (two 1 2 1) _ fun _ _ _ _ => rfl) (two_sym 1 2 1) hfl.relErr (by norm_num) (by norm_num)
    (by norm_num) hdot (by norm_num) (w := ()) trivial h
  have h4' := h4 rfl
  rw [h4'] at h6
  refine ⟨w', c', c'', ep, h, h1, h5, (h6 (fun _ => 1) (fun _ => by norm_num) fun i _ hi => ?_).1.trans ?_⟩
  · have : i = 0 ∨ i = 1 := by simp only [CholExt.init] at h3; omega
    rcases this with rfl | rfl <;> norm_num [two]
  · exact mul_le_mul_of_nonneg_right (by norm_num) (sq_nonneg _)

end Verif
