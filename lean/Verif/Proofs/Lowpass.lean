import Verif.Model.Lowpass
import Verif.Spec.LowpassSpec
import Verif.Spec.EllSpec

/-! # The three scans of `lowpass_oracle` -/
namespace Verif
open Matrix
variable {n : ℕ}

theorem FirstBad.cons {ok : ℕ → Prop} {k j : ℕ} {ks : List ℕ} (hk : ok k) (h : FirstBad ok ks j) :
    FirstBad ok (k :: ks) j := by
  obtain ⟨pre, post, rfl, h1, h2⟩ := h
  exact ⟨k :: pre, post, rfl, by simpa [hk] using h1, h2⟩

theorem FirstBad.head {ok : ℕ → Prop} {k : ℕ} {ks : List ℕ} (hk : ¬ ok k) : FirstBad ok (k :: ks) k :=
  ⟨[], ks, rfl, by simp, hk⟩

theorem FirstBad.mem {ok : ℕ → Prop} {k : ℕ} {ks : List ℕ} (h : FirstBad ok ks k) : k ∈ ks ∧ ¬ ok k := by
  obtain ⟨pre, post, rfl, -, h2⟩ := h
  exact ⟨by simp, h2⟩

theorem scanOrder_perm {i N : ℕ} (h : i ≤ N) : (scanOrder i N).Perm (List.range N) := by
  have : List.range N = List.range i ++ List.range' i (N - i) := by
    rw [List.range_eq_range', List.range_eq_range']
    have := List.range'_append (s := 0) (m := i) (n := N - i) (step := 1)
    simp only [Nat.one_mul, Nat.zero_add] at this
    rw [this]; congr 1; omega
  rw [this, scanOrder]
  exact List.perm_append_comm

theorem mem_scanOrder {i N k : ℕ} (h : i ≤ N) : k ∈ scanOrder i N ↔ k < N := by
  rw [(scanOrder_perm h).mem_iff, List.mem_range]

/-- Row `k` of the passband is within bounds. -/
def passOK (A : Band n) (L U : ℝ) (x : Fin n → ℝ) (k : ℕ) : Prop :=
  ∀ h : k < A.N, L ≤ A.row ⟨k, h⟩ ⬝ᵥ x ∧ A.row ⟨k, h⟩ ⬝ᵥ x ≤ U

/-- Row `k` is nonnegative. -/
def nonnegOK (A : Band n) (x : Fin n → ℝ) (k : ℕ) : Prop := ∀ h : k < A.N, 0 ≤ A.row ⟨k, h⟩ ⬝ᵥ x

theorem passScan_spec (A : Band n) (L U : ℝ) (hLU : L ≤ U) (x : Fin n → ℝ) : ∀ ks : List ℕ, (∀ k ∈ ks, k < A.N) →
    ∃ r, passScan A L U x ks = .ok r ∧ (r = none → ∀ k ∈ ks, passOK A L U x k) ∧
      ∀ k cut, r = some (k, cut) → FirstBad (passOK A L U x) ks k ∧
        (∃ b0 b1, cut.2 = .seq [b0, b1] ∧ 0 < b0 ∧ b0 ≤ b1) ∧ ∃ h : k < A.N, (cut.1 = A.row ⟨k, h⟩ ∨ cut.1 = -A.row ⟨k, h⟩) ∧
        (∀ z, z ∈ cutSet x cut ↔ (L ≤ A.row ⟨k, h⟩ ⬝ᵥ z ∧ A.row ⟨k, h⟩ ⬝ᵥ z ≤ U)) ∧
        ∀ z δ, L + δ ≤ A.row ⟨k, h⟩ ⬝ᵥ z → A.row ⟨k, h⟩ ⬝ᵥ z ≤ U - δ → cut.1 ⬝ᵥ (z - x) ≤ -δ := by
  intro ks
  induction ks with
  | nil => intro _; exact ⟨none, rfl, by simp, by simp⟩
  | cons k ks ih =>
    intro hks
    have hk := hks k List.mem_cons_self
    simp only [passScan, Band.get, dif_pos hk]
    by_cases h1 : U < A.row ⟨k, hk⟩ ⬝ᵥ x
    · rw [if_pos h1]
      refine ⟨_, rfl, by simp, ?_⟩
      intro k' cut h
      simp only [Option.some.injEq, Prod.mk.injEq] at h
      obtain ⟨rfl, rfl⟩ := h
      refine ⟨.head fun hok => ?_, ⟨_, _, rfl, by linarith, by linarith⟩, hk, .inl rfl, fun z => ?_, fun z δ d1 d2 => ?_⟩
      · have := (hok hk).2; linarith
      · simp only [cutSet, Set.mem_ofPred_eq, dotProduct_sub]
        constructor <;> rintro ⟨a, b⟩ <;> constructor <;> linarith
      · simp only [dotProduct_sub]; linarith
    rw [if_neg h1]
    by_cases h2 : A.row ⟨k, hk⟩ ⬝ᵥ x < L
    · rw [if_pos h2]
      refine ⟨_, rfl, by simp, ?_⟩
      intro k' cut h
      simp only [Option.some.injEq, Prod.mk.injEq] at h
      obtain ⟨rfl, rfl⟩ := h
      refine ⟨.head fun hok => ?_, ⟨_, _, rfl, by linarith, by linarith⟩, hk, .inr rfl, fun z => ?_, fun z δ d1 d2 => ?_⟩
      · have := (hok hk).1; linarith
      · simp only [cutSet, Set.mem_ofPred_eq, dotProduct_sub, neg_dotProduct]
        constructor <;> rintro ⟨a, b⟩ <;> constructor <;> linarith
      · simp only [dotProduct_sub, neg_dotProduct]; linarith
    rw [if_neg h2]
    have hok : passOK A L U x k := fun _ => ⟨not_lt.1 h2, not_lt.1 h1⟩
    obtain ⟨r, e1, e2, e3⟩ := ih fun k hk => hks k (List.mem_cons_of_mem _ hk)
    refine ⟨r, e1, fun h k' hk' => ?_, fun k' cut h => ?_⟩
    · rcases List.mem_cons.1 hk' with rfl | hk'
      · exact hok
      · exact e2 h k' hk'
    · obtain ⟨f1, f2⟩ := e3 k' cut h
      exact ⟨f1.cons hok, f2⟩

theorem nonnegScan_spec (A : Band n) (x : Fin n → ℝ) : ∀ ks : List ℕ, (∀ k ∈ ks, k < A.N) →
    ∃ r, nonnegScan A x ks = .ok r ∧ (r = none → ∀ k ∈ ks, nonnegOK A x k) ∧
      ∀ k cut, r = some (k, cut) → FirstBad (nonnegOK A x) ks k ∧
        (∃ b0, cut.2 = .scalar b0 ∧ 0 < b0) ∧ ∃ h : k < A.N, cut.1 = -A.row ⟨k, h⟩ ∧
        (∀ z, z ∈ cutSet x cut ↔ 0 ≤ A.row ⟨k, h⟩ ⬝ᵥ z) ∧
        ∀ z δ, δ ≤ A.row ⟨k, h⟩ ⬝ᵥ z → cut.1 ⬝ᵥ (z - x) ≤ -δ := by
  intro ks
  induction ks with
  | nil => intro _; exact ⟨none, rfl, by simp, by simp⟩
  | cons k ks ih =>
    intro hks
    have hk := hks k List.mem_cons_self
    simp only [nonnegScan, Band.get, dif_pos hk]
    by_cases h2 : A.row ⟨k, hk⟩ ⬝ᵥ x < 0
    · rw [if_pos h2]
      refine ⟨_, rfl, by simp, ?_⟩
      intro k' cut h
      simp only [Option.some.injEq, Prod.mk.injEq] at h
      obtain ⟨rfl, rfl⟩ := h
      refine ⟨.head fun hok => ?_, ⟨_, rfl, by linarith⟩, hk, rfl, fun z => ?_, fun z δ d1 => ?_⟩
      · have := hok hk; linarith
      · simp only [cutSet, Set.mem_ofPred_eq, dotProduct_sub, neg_dotProduct]
        constructor <;> intro h <;> linarith
      · simp only [dotProduct_sub, neg_dotProduct]; linarith
    rw [if_neg h2]
    have hok : nonnegOK A x k := fun _ => not_lt.1 h2
    obtain ⟨r, e1, e2, e3⟩ := ih fun k hk => hks k (List.mem_cons_of_mem _ hk)
    refine ⟨r, e1, fun h k' hk' => ?_, fun k' cut h => ?_⟩
    · rcases List.mem_cons.1 hk' with rfl | hk'
      · exact hok
      · exact e2 h k' hk'
    · obtain ⟨f1, f2⟩ := e3 k' cut h
      exact ⟨f1.cons hok, f2⟩

/-- `(fmax, imax)` is a running maximum over the rows seen so far. -/
structure IsRunMax (A : Band n) (x : Fin n → ℝ) (seen : List ℕ) (fmax : WithBot ℝ) (imax : ℕ) : Prop where
  ub : ∀ k ∈ seen, ∀ h : k < A.N, ((A.row ⟨k, h⟩ ⬝ᵥ x : ℝ) : WithBot ℝ) ≤ fmax
  att : fmax = ⊥ ∨ ∃ h : imax < A.N, fmax = ((A.row ⟨imax, h⟩ ⬝ᵥ x : ℝ) : WithBot ℝ)
  bot : fmax = ⊥ → seen = []

theorem stopScan_spec (A : Band n) (S : ℝ) (hS : 0 ≤ S) (x : Fin n → ℝ) : ∀ (ks seen : List ℕ) (fmax : WithBot ℝ) (imax : ℕ),
    (∀ k ∈ ks, k < A.N) → IsRunMax A x seen fmax imax →
    ∃ r, stopScan A S x fmax imax ks = .ok r ∧
      (∀ f i, r = .inr (f, i) → (∀ k ∈ ks, passOK A 0 S x k) ∧ IsRunMax A x (seen ++ ks) f i) ∧
      ∀ k cut, r = .inl (k, cut) → FirstBad (passOK A 0 S x) ks k ∧
        (∃ b0 b1, cut.2 = .seq [b0, b1] ∧ 0 < b0 ∧ b0 ≤ b1) ∧ ∃ h : k < A.N, (cut.1 = A.row ⟨k, h⟩ ∨ cut.1 = -A.row ⟨k, h⟩) ∧
        (∀ z, z ∈ cutSet x cut ↔ (0 ≤ A.row ⟨k, h⟩ ⬝ᵥ z ∧ A.row ⟨k, h⟩ ⬝ᵥ z ≤ S)) ∧
        ∀ z δ, δ ≤ A.row ⟨k, h⟩ ⬝ᵥ z → A.row ⟨k, h⟩ ⬝ᵥ z ≤ S - δ → cut.1 ⬝ᵥ (z - x) ≤ -δ := by
  intro ks
  induction ks with
  | nil =>
    intro seen fmax imax _ hM
    refine ⟨_, rfl, fun f i h => ?_, by simp⟩
    simp only [Sum.inr.injEq, Prod.mk.injEq] at h
    obtain ⟨rfl, rfl⟩ := h
    simpa using hM
  | cons k ks ih =>
    intro seen fmax imax hks hM
    have hk := hks k List.mem_cons_self
    simp only [stopScan, Band.get, dif_pos hk]
    by_cases h1 : S < A.row ⟨k, hk⟩ ⬝ᵥ x
    · rw [if_pos h1]
      refine ⟨_, rfl, by simp, ?_⟩
      intro k' cut h
      simp only [Sum.inl.injEq, Prod.mk.injEq] at h
      obtain ⟨rfl, rfl⟩ := h
      refine ⟨.head fun hok => ?_, ⟨_, _, rfl, by linarith, by linarith⟩, hk, .inl rfl, fun z => ?_, fun z δ d1 d2 => ?_⟩
      · have := (hok hk).2; linarith
      · simp only [cutSet, Set.mem_ofPred_eq, dotProduct_sub]
        constructor <;> rintro ⟨a, b⟩ <;> constructor <;> linarith
      · simp only [dotProduct_sub]; linarith
    rw [if_neg h1]
    by_cases h2 : A.row ⟨k, hk⟩ ⬝ᵥ x < 0
    · rw [if_pos h2]
      refine ⟨_, rfl, by simp, ?_⟩
      intro k' cut h
      simp only [Sum.inl.injEq, Prod.mk.injEq] at h
      obtain ⟨rfl, rfl⟩ := h
      refine ⟨.head fun hok => ?_, ⟨_, _, rfl, by linarith, by linarith⟩, hk, .inr rfl, fun z => ?_, fun z δ d1 d2 => ?_⟩
      · have := (hok hk).1; linarith
      · simp only [cutSet, Set.mem_ofPred_eq, dotProduct_sub, neg_dotProduct]
        constructor <;> rintro ⟨a, b⟩ <;> constructor <;> linarith
      · simp only [dotProduct_sub, neg_dotProduct]; linarith
    rw [if_neg h2]
    have hok : passOK A 0 S x k := fun _ => ⟨not_lt.1 h2, not_lt.1 h1⟩
    -- either way the running maximum is extended
    have step : ∀ f i, IsRunMax A x (seen ++ [k]) f i → ∃ r, stopScan A S x f i ks = .ok r ∧
        (∀ f i, r = .inr (f, i) → (∀ j ∈ k :: ks, passOK A 0 S x j) ∧ IsRunMax A x (seen ++ k :: ks) f i) ∧
        ∀ j cut, r = .inl (j, cut) → FirstBad (passOK A 0 S x) (k :: ks) j ∧
          (∃ b0 b1, cut.2 = .seq [b0, b1] ∧ 0 < b0 ∧ b0 ≤ b1) ∧ ∃ h : j < A.N, (cut.1 = A.row ⟨j, h⟩ ∨ cut.1 = -A.row ⟨j, h⟩) ∧
          (∀ z, z ∈ cutSet x cut ↔ (0 ≤ A.row ⟨j, h⟩ ⬝ᵥ z ∧ A.row ⟨j, h⟩ ⬝ᵥ z ≤ S)) ∧
          ∀ z δ, δ ≤ A.row ⟨j, h⟩ ⬝ᵥ z → A.row ⟨j, h⟩ ⬝ᵥ z ≤ S - δ → cut.1 ⬝ᵥ (z - x) ≤ -δ := by
      intro f i hM
      obtain ⟨r, e1, e2, e3⟩ := ih (seen ++ [k]) f i (fun k hk => hks k (List.mem_cons_of_mem _ hk)) hM
      refine ⟨r, e1, fun f i h => ?_, fun k' cut h => ?_⟩
      · obtain ⟨g1, g2⟩ := e2 f i h
        refine ⟨fun k' hk' => ?_, by simpa using g2⟩
        rcases List.mem_cons.1 hk' with rfl | hk'
        · exact hok
        · exact g1 k' hk'
      · obtain ⟨f1, f2⟩ := e3 k' cut h
        exact ⟨f1.cons hok, f2⟩
    by_cases h3 : fmax < ((A.row ⟨k, hk⟩ ⬝ᵥ x : ℝ) : WithBot ℝ)
    · rw [if_pos h3]
      refine step _ _ ⟨fun j hj h => ?_, .inr ⟨hk, rfl⟩, fun h => by simp at h⟩
      rcases List.mem_append.1 hj with hj | hj
      · exact (hM.ub j hj h).trans h3.le
      · simp only [List.mem_singleton] at hj; subst hj; exact le_rfl
    · rw [if_neg h3]
      refine step _ _ ⟨fun j hj h => ?_, hM.att, fun h => ?_⟩
      · rcases List.mem_append.1 hj with hj | hj
        · exact hM.ub j hj h
        · simp only [List.mem_singleton] at hj; subst hj; exact not_lt.1 h3
      · rw [h] at h3; exact absurd (WithBot.bot_lt_coe _) h3

end Verif
