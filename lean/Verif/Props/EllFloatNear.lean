import Verif.Props.EllFloatAnyCut
import Verif.Proofs.EllFloatShallow

/-!
# C138: runs with rounded ellipsoids and cuts that may miss the centre slightly

An oracle whose cut is central or deep in exact arithmetic may return a slightly shallow one when it rounds; `network_oracle` does (C119, C129).  It may also raise.
-/
namespace Verif
open Matrix MeasureTheory Ell FloatSpec
variable {n : ℕ} {θ C ε u η l q : ℝ} {fl : ℝ → ℝ} {dot : (Fin n → ℝ) → (Fin n → ℝ) → ℝ} {W : Type _}
  {K X : Set (Fin n → ℝ)} {tol : ℝ} {w₀ : W} {E₀ : Ell n} {A L₀ L v : ℝ} {N : ℕ}

/-- What a single cut has to do for the run to go on: it keeps `K`, no point of `K` is within the tolerance of the plane through the centre, and if the cut is shallow,
then by little compared with the distances of the points of `K` from that plane. -/
def NearOK (K : Set (Fin n → ℝ)) (tol ε : ℝ) (x : Fin n → ℝ) (c : (Fin n → ℝ) × ℝ) : Prop :=
  c.1 ≠ 0 ∧ ∀ z ∈ K, c.1 ⬝ᵥ (z - x) + max c.2 0 ≤ 0 ∧ tol ≤ 199 / 200 * (c.1 ⬝ᵥ (z - x)) ^ 2 ∧ -(ε * |c.1 ⬝ᵥ (z - x)|) ≤ n * c.2

/-- `DcKeepsAny` for such cuts, with an invariant that may depend on the number of rounds, and for oracles that may raise an exception of the kind `Raises`. -/
structure DcKeepsNear {T : Type _} (N : ℕ) (K X : Set (Fin n → ℝ)) (Inv : ℕ → W → Prop) (Bad : T → Prop) (Raises : PyErr → Prop) (tol ε : ℝ)
    (Ω : (Fin n → ℝ) → T → W → Except PyErr (W × ((Fin n → ℝ) × Beta) × Option T)) : Prop where
  back : ∀ x t w w' c t1, Ω x t w = .ok (w', c, t1) → Bad (t1.getD t) → Bad t
  cuts : ∀ k < N, ∀ x ∈ X, ∀ t w, Inv k w → Bad t → (∃ e, Raises e ∧ Ω x t w = .error e) ∨
    ∃ w' g β t1, Ω x t w = .ok (w', (g, .scalar β), t1) ∧ (Bad (t1.getD t) → Inv (k + 1) w' ∧ NearOK K tol ε x (g, β))

section
variable (hs : SureAny n N E₀ K X C ε η u θ l q A L₀ L v) (hE : E₀.Proper) (hfl : RelErr u fl) (hu0 : 0 ≤ u) (hu : u ≤ ε) (hdot : VecDotErr ε dot)
include hs hE hu0 hu hfl hdot

/-- **C138** (one round).  The update succeeds, `tsq` is not below the tolerance, and little of `K` is lost. -/
theorem SureAny.near {k : ℕ} {E : Ell n} {g : Fin n → ℝ} {β : ℝ} (hi : Kept E₀ K l q L₀ k E) (hc : NearOK K tol ε E.xc (g, β)) :
    ∃ E' tsq, updateF fl dot (g, .scalar β) E = .ok (E', .success, tsq) ∧ ¬ tsq < tol ∧ Kept E₀ K l q L₀ (k + 1) E' := by
  obtain ⟨hg, hc⟩ := hc
  dsimp only at hg hc
  rcases le_or_gt 0 β with hβ | hβ
  · refine hs.step hE hfl hu0 hu hdot hi ⟨hβ, hg, fun z hz => ⟨?_, (hc z hz).2.1⟩⟩
    have := (hc z hz).1
    rw [max_eq_left hβ] at this
    exact this
  · obtain ⟨⟨z, hz1, hz2⟩, -, hr⟩ := hs.resolved hE hu0 hu hi
    have hε0 : 0 ≤ ε := hu0.trans hu
    have hEk := hi.1.proper
    have hb := hs.bounds
    have hC1 := hb.C1
    obtain ⟨hl, hq0⟩ := hb.facts hε0
    have ht : 0 < E.kappa * (g ⬝ᵥ E.Q *ᵥ g) := mul_pos hEk.kappa ((pd_iff.1 hEk.pd).2 g hg)
    have hdist : |g ⬝ᵥ (z - E.xc)| ≤ √(E.kappa * (g ⬝ᵥ E.Q *ᵥ g)) := Real.abs_le_sqrt (hz2 g)
    have hsh := (neg_le_neg (mul_le_mul_of_nonneg_left hdist hε0)).trans (hc z hz1).2.2
    obtain ⟨E', tsq, k1, k2⟩ := shallow_ok hEk hfl hu0 hu hdot hC1 hr.1 hg hb.t0 hb.t1 hb.eps hβ hsh
    refine ⟨E', tsq, k1, ?_, hi.1.next hs.lt hl hq0 (S := cutSet E.xc (g, .scalar 0)) (fun z hz => ?_) k2.proper (k2.lost hEk hε0 hb hr)
      (k2.vol.trans (mul_le_mul_of_nonneg_right hb.ratio measureReal_nonneg)), fun y => ?_⟩
    · have e1 : C ^ 2 * ε ≤ 1 / 1000 := by
        have e2 : C ^ 2 * ε ≤ C ^ 4 * ε := mul_le_mul_of_nonneg_right (pow_le_pow_right₀ hC1 (by norm_num)) hε0
        have e3 : θ ^ 4 ≤ 1 := pow_le_one₀ hb.t0.le hb.t1
        linarith [hb.eps]
      have e2 := mul_le_mul_of_nonneg_right e1 ht.le
      have e3 := (abs_le.1 k2.tau).1
      have e4 := (hc z hz1).2.1
      have e5 := hz2 g
      rw [not_lt]
      linarith
    · have := (hc z hz).1
      rw [max_eq_right hβ.le] at this
      exact this
    · have e1 := k2.up y
      have e2 := hi.2 y
      rw [pow_succ]
      linarith

variable {T : Type _} {Ω : (Fin n → ℝ) → T → W → Except PyErr (W × ((Fin n → ℝ) × Beta) × Option T)} {Inv : ℕ → W → Prop} {Bad : T → Prop} {Raises : PyErr → Prop} {t0 : T}

theorem dcNear_kept (hΩ : DcKeepsNear N K X Inv Bad Raises tol ε Ω) (hw₀ : Inv 0 w₀) {k : ℕ} {log} {p : W × Ell n}
    (h : DcRounds (fun x t => liftOracle (Ω x t)) ((Ell.spaceF fl dot).beside W) tol t0 (w₀, E₀) k log p) (hbad : Bad (bestT t0 log)) :
    Inv k p.1 ∧ Kept E₀ K l q L₀ k p.2 := by
  induction h with
  | nil => exact ⟨hw₀, hs.init hE⟩
  | @snoc k log w w1 w2 c t1 tsq hp hq1 hu1 ht ih =>
    obtain ⟨h1, h2, h3⟩ := round_split_dc hq1 hu1
    rw [bestT_snoc] at hbad
    have hbad' := hΩ.back _ _ _ _ _ _ h1 hbad
    obtain ⟨hiv, hi⟩ := ih hbad'
    rcases hΩ.cuts k (hs.few hu0 hu hi) _ (hs.resolved hE hu0 hu hi).2.1 _ _ hiv hbad' with ⟨e, -, he⟩ | ⟨w', g, β, t1', k1, k2⟩
    · rw [h1] at he; simp at he
    rw [h1] at k1
    simp only [Except.ok.injEq, Prod.mk.injEq] at k1
    obtain ⟨rfl, rfl, rfl⟩ := k1
    obtain ⟨i1, i2⟩ := k2 hbad
    obtain ⟨E', tsq', k6, -, k7⟩ := hs.near hE hfl hu0 hu hdot hi i2
    rw [h2] at k6
    simp only [Except.ok.injEq, Prod.mk.injEq] at k6
    rw [k6.1]
    exact ⟨h3 ▸ i1, k7⟩

/-- **C138** (the level reached).  While the level is bad the cuts keep `K` and are at most slightly shallow.  Then a run with `max_it ≥ N` that returns does not return a bad level; and within the first
`N` oracle calls a level that is not bad is reported, or the oracle raises one of the exceptions allowed; nothing else raises before. -/
theorem C138_dc [DecidableEq T] (hΩ : DcKeepsNear N K X Inv Bad Raises tol ε Ω) (hw₀ : Inv 0 w₀) :
    (∀ m : Int, (N : Int) ≤ m → ∀ w' xb t info, cuttingPlaneDc (fun x t => liftOracle (Ω x t)) ((Ell.spaceF fl dot).beside W) t0 ⟨m, tol⟩ (w₀, E₀) =
      .ok (w', xb, t, info) → ¬ Bad t) ∧
    (Bad t0 → ∃ (k : ℕ) (log : _) (p : W × Ell n), k < N ∧ p.2.xc ∈ X ∧ Inv k p.1 ∧ Bad (bestT t0 log) ∧
      DcRounds (fun x t => liftOracle (Ω x t)) ((Ell.spaceF fl dot).beside W) tol t0 (w₀, E₀) k log p ∧
      ((∃ w' c t1, Ω p.2.xc (bestT t0 log) p.1 = .ok (w', c, t1) ∧ ¬ Bad (t1.getD (bestT t0 log))) ∨
        ∃ e, Raises e ∧ Ω p.2.xc (bestT t0 log) p.1 = .error e)) := by
  have hinv := fun {k log p} => dcNear_kept (k := k) (log := log) (p := p) (t0 := t0) hs hE hfl hu0 hu hdot hΩ hw₀
  constructor
  · intro m hm w' xb t info h hbad
    obtain ⟨s, i, hf, rfl, rfl, rfl, rfl⟩ := dc_ok h
    rcases forRange_ok hf with ⟨s1, hi, hr, hbr⟩ | ⟨hi, hr⟩
    · obtain ⟨log, hp, ht⟩ := rounds_dc hr
      obtain ⟨w1, c, t1, w2, st, tsq, hq1, hu1, hcase⟩ := dcBody_brk hbr
      obtain ⟨h1, h2, h3⟩ := round_split_dc hq1 hu1
      have hst : s.t = t1.getD s1.t := by
        rcases hcase with ⟨-, rfl⟩ | ⟨-, -, rfl⟩ <;> cases t1 <;> rfl
      rw [hst] at hbad
      have hbad' := hΩ.back _ _ _ _ _ _ h1 hbad
      obtain ⟨hiv, hil⟩ := hinv hp (ht ▸ hbad')
      rcases hΩ.cuts _ (hs.few hu0 hu hil) _ (hs.resolved hE hu0 hu hil).2.1 _ _ hiv hbad' with ⟨e, -, he⟩ | ⟨w', g, β, t1', k1, k2⟩
      · rw [h1] at he; simp at he
      rw [h1] at k1
      simp only [Except.ok.injEq, Prod.mk.injEq] at k1
      obtain ⟨-, rfl, rfl⟩ := k1
      obtain ⟨E', tsq', k6, k7, -⟩ := hs.near hE hfl hu0 hu hdot hil (k2 hbad).2
      rw [h2] at k6
      simp only [Except.ok.injEq, Prod.mk.injEq] at k6
      obtain ⟨-, rfl, rfl⟩ := k6
      rcases hcase with ⟨h, -⟩ | ⟨-, h, -⟩
      · exact h rfl
      · exact k7 h
    · obtain ⟨log, hp, ht⟩ := rounds_dc hr
      have := hs.few hu0 hu (hinv hp (ht ▸ hbad)).2
      dsimp only at hi
      omega
  · intro hbad0
    by_contra hno
    have all : ∀ k : ℕ, ∃ log p, DcRounds (fun x t => liftOracle (Ω x t)) ((Ell.spaceF fl dot).beside W) tol t0 (w₀, E₀) k log p ∧ Bad (bestT t0 log) := by
      intro k
      induction k with
      | zero => exact ⟨[], _, .nil, hbad0⟩
      | succ k ih =>
        obtain ⟨log, p, hp, hbad⟩ := ih
        obtain ⟨hiv, hil⟩ := hinv hp hbad
        have hk := hs.few hu0 hu hil
        have hX := (hs.resolved hE hu0 hu hil).2.1
        rcases hΩ.cuts k hk _ hX _ _ hiv hbad with ⟨e, he, he'⟩ | ⟨w', g, β, t1, k1, k2⟩
        · exact absurd ⟨k, log, p, hk, hX, hiv, hbad, hp, .inr ⟨e, he, he'⟩⟩ hno
        have hbad1 : Bad (t1.getD (bestT t0 log)) := by
          by_contra h4
          exact hno ⟨k, log, p, hk, hX, hiv, hbad, hp, .inl ⟨w', _, t1, k1, h4⟩⟩
        obtain ⟨E', tsq', k6, k7, -⟩ := hs.near hE hfl hu0 hu hdot hil (k2 hbad1).2
        refine ⟨_, (w', E'), .snoc hp (w1 := (w', p.2)) (c := (g, .scalar β)) (t1 := t1) (tsq := tsq') ?_ ?_ k7, ?_⟩
        · simp [Space.beside, Ell.spaceF, liftOracle, k1]
        · simp [Space.beside, Ell.spaceF, k6]
        · rw [bestT_snoc]; exact hbad1
    obtain ⟨log, p, hp, hbad⟩ := all N
    exact absurd (hs.few hu0 hu (hinv hp hbad).2) (lt_irrefl N)

end
end Verif
