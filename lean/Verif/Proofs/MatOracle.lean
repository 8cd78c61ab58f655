import Verif.Model.MatOracle
import Verif.Props.Chol

/-! # Quadratic forms of matrix pencils; the certificate behind a cut -/
namespace Verif
open Finset
variable {W α : Type _} [Field α] [LinearOrder α] {k : ℕ}

/-- The `chol_ext` of an oracle between calls. -/
structure Ready (m : ℕ) (Q : CholExt α) : Prop where
  n : Q.n = m
  allow : Q.allowSemidefinite = false

omit [LinearOrder α] in
theorem ready_init (m : ℕ) : Ready m (CholExt.init m : CholExt α) := ⟨rfl, rfl⟩

omit [LinearOrder α] in
theorem quadOn_congr {A B : ℕ → ℕ → α} {s e : ℕ} (h : ∀ i j, i < e → j < e → A i j = B i j) (x : ℕ → α) :
    quadOn A s e x = quadOn B s e x := by
  unfold quadOn
  refine Finset.sum_congr rfl fun i hi => Finset.sum_congr rfl fun j hj => ?_
  rw [Finset.mem_Ico] at hi hj
  rw [h i j hi.2 hj.2]

theorem PDon.congr {A B : ℕ → ℕ → α} {s e : ℕ} (h : ∀ i j, i < e → j < e → A i j = B i j) :
    PDon A s e ↔ PDon B s e := by
  constructor <;> intro hp x hx
  · rw [← quadOn_congr h]; exact hp x hx
  · rw [quadOn_congr h]; exact hp x hx

omit [LinearOrder α] in
theorem quadOn_combo (F : Fin k → ℕ → ℕ → α) (z : Fin k → α) (s e : ℕ) (v : ℕ → α) :
    quadOn (combo F z) s e v = ∑ q, z q * quadOn (F q) s e v := by
  unfold quadOn combo
  simp only [Finset.mul_sum, Finset.sum_mul]
  rw [Finset.sum_comm (s := univ)]
  refine Finset.sum_congr rfl fun i _ => ?_
  rw [Finset.sum_comm (s := univ)]
  refine Finset.sum_congr rfl fun j _ => Finset.sum_congr rfl fun q _ => ?_
  ring

omit [LinearOrder α] in
theorem quadOn_sub (A B : ℕ → ℕ → α) (s e : ℕ) (v : ℕ → α) :
    quadOn (fun i j => A i j - B i j) s e v = quadOn A s e v - quadOn B s e v := by
  unfold quadOn
  rw [← Finset.sum_sub_distrib]
  refine Finset.sum_congr rfl fun i _ => ?_
  rw [← Finset.sum_sub_distrib]
  exact Finset.sum_congr rfl fun j _ => by ring

omit [LinearOrder α] in
theorem quadOn_pencil (F : Fin k → ℕ → ℕ → α) (B : ℕ → ℕ → α) (z : Fin k → α) (s e : ℕ) (v : ℕ → α) :
    quadOn (pencil F B z) s e v = quadOn B s e v - ∑ q, z q * quadOn (F q) s e v := by
  rw [← quadOn_combo, ← quadOn_sub]; rfl

omit [LinearOrder α] in
theorem symOn_pencil {F : Fin k → ℕ → ℕ → α} {B : ℕ → ℕ → α} {m : ℕ} (hF : ∀ q, SymOn (F q) m)
    (hB : SymOn B m) (z : Fin k → α) : SymOn (pencil F B z) m := fun i j hi hj => by
  unfold pencil
  rw [hB i j hi hj]
  congr 1
  exact Finset.sum_congr rfl fun q _ => by rw [hF q i j hi hj]

omit [LinearOrder α] in
theorem symOn_combo {F : Fin k → ℕ → ℕ → α} {m : ℕ} (hF : ∀ q, SymOn (F q) m)
    (z : Fin k → α) : SymOn (combo F z) m := fun i j hi hj =>
  Finset.sum_congr rfl fun q _ => by rw [hF q i j hi hj]

omit [LinearOrder α] in
theorem affEntry_eq (F : Fin k → ℕ → ℕ → α) (B : ℕ → ℕ → α) (x : Fin k → α) :
    affEntry F B x = pencil F B x := by
  funext i j
  unfold affEntry pencil
  congr 1
  exact Finset.sum_congr rfl fun q _ => mul_comm _ _

omit [LinearOrder α] in
theorem linEntry_eq (F : Fin k → ℕ → ℕ → α) (x : Fin k → α) : linEntry F x = combo F x := by
  funext i j
  exact Finset.sum_congr rfl fun q _ => mul_comm _ _

/-- Zero-padding outside `[0, e)`. -/
def cutoff (e : ℕ) (v : ℕ → α) (i : ℕ) : α := if i < e then v i else 0

omit [LinearOrder α] in
theorem quadOn_cutoff (A : ℕ → ℕ → α) {e m : ℕ} (h : e ≤ m) (v : ℕ → α) :
    quadOn A 0 m (cutoff e v) = quadOn A 0 e v := by
  rw [← quadOn_pad A (le_refl 0) h]
  congr 1
  funext i; simp [cutoff]

variable [IsStrictOrderedRing α]

omit [IsStrictOrderedRing α] in
/-- A block condition tested at a padded vector with an entry 1. -/
theorem AtLeast.cut {lam : α} {A : ℕ → ℕ → α} {m e : ℕ} [IsStrictOrderedRing α] (h : AtLeast lam A m)
    (hl : 0 ≤ lam) (he : 0 < e) (hem : e ≤ m)
    {v : ℕ → α} (hv : v (e - 1) = 1) : lam ≤ quadOn A 0 e v := by
  rw [← quadOn_cutoff A hem]
  refine le_trans ?_ (h _)
  refine le_mul_of_one_le_right hl ?_
  have h1 : (cutoff e v (e - 1)) ^ 2 = 1 := by
    rw [cutoff, if_pos (by omega), hv]; ring
  rw [← h1]
  exact Finset.single_le_sum (f := fun i => cutoff e v i ^ 2) (fun i _ => sq_nonneg _)
    (Finset.mem_range.2 (by omega))

/-- `factor` then `witness`, flag off: the certificate lives on a leading block `[0, e)`. -/
theorem leading_certificate {getA : ℕ → ℕ → W → Except PyErr (W × α)} {A : ℕ → ℕ → α}
    {Pre In : ℕ → W → Prop} {m : ℕ} {Q : CholExt α} (hQ : Ready m Q) (hS : Serves getA A m Pre In)
    (hsym : SymOn A m) {w w' : W} (hw : Pre 0 w) {Q1 : CholExt α}
    (h : Q.factor getA w = .ok (w', Q1, false)) :
    ∃ Q2 ep e, Q1.witness = .ok (Q2, ep) ∧ Ready m Q2 ∧ 0 ≤ ep ∧ Q2.p = (0, e) ∧ Q1.p = (0, e) ∧ 0 < e ∧
      e ≤ m ∧ Q2.v (e - 1) = 1 ∧ quadOn A 0 e Q2.v = -ep ∧ In (e - 1) w' ∧
      ∀ B : ℕ → ℕ → α, Q2.symQuad B = quadOn B 0 e Q2.v := by
  obtain ⟨rfl, hal⟩ := hQ
  obtain ⟨Q2, ep, h1, h2, -, h3, h4, h5, h6, h7, h8, h9, h10⟩ := C30_witness Q hS hsym hw h
  have hp : Q2.p = (0, Q2.p.2) := Prod.ext (h5 hal) rfl
  have hin : ∀ m, Q1.p.2 = m + 1 → In m w' := by
    obtain ⟨w1, T', p, e1, -, -, e3⟩ := factor_spec Q hS hsym hw
    rw [e1] at h
    simp only [Except.ok.injEq, Prod.mk.injEq] at h
    obtain ⟨rfl, rfl, -⟩ := h
    exact e3
  have h11 : Q1.p = Q2.p := by
    simp only [CholExt.witness] at h1
    split at h1
    · simp at h1
    · simp only [Except.ok.injEq, Prod.mk.injEq] at h1
      rw [← h1.1]
  refine ⟨Q2, ep, Q2.p.2, h1, ⟨h9, h10.trans hal⟩, h2, hp, h11.trans hp, by omega, h4, h6, ?_, ?_, fun B => ?_⟩
  · rw [h5 hal] at h7; exact h7
  · exact hin _ (by rw [h11]; omega)
  · rw [h8 B, h5 hal]

omit [IsStrictOrderedRing α] in
theorem factor_ready {getA : ℕ → ℕ → W → Except PyErr (W × α)} {m : ℕ} {Q : CholExt α} (hQ : Ready m Q)
    {w w' : W} {Q1 : CholExt α} {b : Bool} (h : Q.factor getA w = .ok (w', Q1, b)) : Ready m Q1 := by
  simp only [CholExt.factor] at h
  split at h
  · simp at h
  · simp only [Except.ok.injEq, Prod.mk.injEq] at h
    rw [← h.2.1]; exact ⟨hQ.n, hQ.allow⟩

/-- C29 on a ready object. -/
theorem factor_ready_iff {getA : ℕ → ℕ → W → Except PyErr (W × α)} {A : ℕ → ℕ → α}
    {Pre In : ℕ → W → Prop} {m : ℕ} {Q : CholExt α} (hQ : Ready m Q) (hS : Serves getA A m Pre In)
    (hsym : SymOn A m) {w : W} (hw : Pre 0 w) :
    ∃ w' Q' b, Q.factor getA w = .ok (w', Q', b) ∧ (b = true ↔ PDon A 0 m) := by
  obtain ⟨rfl, hal⟩ := hQ
  exact C29_factor_iff Q hal hS hsym hw

omit [LinearOrder α] [IsStrictOrderedRing α] in
/-- Calling `witness` again changes nothing visible. -/
theorem witness_again {c c' : CholExt α} {ep : α} (h : c.witness = .ok (c', ep)) (hp : c'.p.1 < c'.p.2) :
    ∃ c'', c'.witness = .ok (c'', ep) ∧ c''.p = c'.p ∧ c''.n = c'.n ∧
      c''.allowSemidefinite = c'.allowSemidefinite ∧ ∀ i, c'.p.1 ≤ i → i < c'.p.2 → c''.v i = c'.v i := by
  simp only [CholExt.witness] at h
  split at h
  · simp at h
  rename_i hs
  simp only [Except.ok.injEq, Prod.mk.injEq] at h
  obtain ⟨rfl, rfl⟩ := h
  simp only at hp
  refine ⟨⟨c.n, c.allowSemidefinite, c.p, witnessLoop c.T c.p.1 c.p.2 (c.p.2 - 1 - c.p.1)
    (Function.update (witnessLoop c.T c.p.1 c.p.2 (c.p.2 - 1 - c.p.1) (Function.update c.v (c.p.2 - 1) 1))
      (c.p.2 - 1) 1), c.T⟩,
    by rw [CholExt.witness, if_neg (by simpa [CholExt.isSpd] using hs)], rfl, rfl, rfl, ?_⟩
  intro i h1 h2
  simp only
  refine witnessLoop_congr (fun a b _ _ _ _ => rfl) _ _ _ (by omega) (fun i h1 h2 => ?_) i h1 h2
  have : i = c.p.2 - 1 := by omega
  subst this
  simp

end Verif
