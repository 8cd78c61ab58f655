import Verif.Props.EllTotal
import Verif.Props.LowpassSolve
import Verif.Props.EllExamples
import Verif.Proofs.Q

/-! # C106: runs on an ellipsoid with arbitrary cuts: what must happen before an exception -/
namespace Verif
open Matrix Ell
variable {n : ℕ} {W T : Type _}

/-- Right-hand sides that are critical for an ellipsoid with half-width `τ` in the direction of the gradient: the kept part
`-b₁ ≤ g·(z - xc) ≤ -b₀` is flat (one plane tangent, or both planes equal), or the cut hits one of the two divisions by zero of
`ell.py` (`β = -τ/n`, or a thin slab symmetric about the centre). -/
def criticalBeta (n : ℕ) (usePar : Bool) (τ : ℝ) : Beta → Prop
  | .scalar b => b = τ ∨ τ + n * b = 0
  | .seq [] => True
  | .seq [b] => b = τ ∨ τ + n * b = 0
  | .seq (b0 :: b1 :: _) =>
    if τ < |b1| ∨ usePar = false then b0 = τ ∨ τ + n * b0 = 0
    else b0 = b1 ∨ b1 = -τ ∨ (b0 = -b1 ∧ 0 ≤ b1 ∧ n * b1 ^ 2 ≤ τ ^ 2)

/-- The cut `c` is critical for `E`. -/
def Critical (E : Ell n) (c : (Fin n → ℝ) × Beta) : Prop :=
  c.1 = 0 ∨ criticalBeta n E.usePar √(E.kappa * (c.1 ⬝ᵥ E.Q *ᵥ c.1)) c.2

theorem critical_scalar {E : Ell n} (hE : E.Proper) {g : Fin n → ℝ} {b : ℝ} (h : ¬ Critical E (g, .scalar b)) :
    ∃ E' st tsq, update (g, .scalar b) E = .ok (E', st, tsq) ∧ E'.Proper := by
  simp only [Critical, criticalBeta, not_or] at h
  obtain ⟨hg, h1, h2⟩ := h
  cases hu : update (g, .scalar b) E with
  | error e => exact absurd (((C20_ell_deep_fails_iff hE hg).1 hu).1) h2
  | ok r =>
    obtain ⟨E', st, tsq⟩ := r
    refine ⟨E', st, tsq, rfl, ?_⟩
    have ht := (C20_ell_tsq_nonneg hE.wf hu).1
    by_cases hs : st = .success
    · have := (C19_ell_deep_status hE.wf hu).1
      refine C20_ell_proper hE hg (b := .scalar b) (lt_of_le_of_ne ?_ h1) hu
      rw [← ht]
      by_contra hc
      rw [this.2 (not_le.1 hc)] at hs
      simp at hs
    · rw [C19_ell_reject_unchanged hu hs]; exact hE

theorem Ell.update_miss {E : Ell n} (hE : E.Proper) {g : Fin n → ℝ} (hg : g ≠ 0) {b0 b1 : ℝ} {l : List ℝ}
    (h : √(E.kappa * (g ⬝ᵥ E.Q *ᵥ g)) < |b1| ∨ E.usePar = false) :
    update (g, .seq (b0 :: b1 :: l)) E = update (g, .scalar b0) E := by
  have hpos : 0 < g ⬝ᵥ E.Q *ᵥ g := (pd_iff.1 hE.pd).2 g hg
  have ht := mul_pos hE.kappa hpos
  set t := E.kappa * (g ⬝ᵥ E.Q *ᵥ g) with htdef
  have hd : pyDiv b1 t = .ok (b1 / t) := by simp [pyDiv, ht.ne']
  have hc : 1 - b1 * (b1 / t) < 0 ∨ E.usePar = false := by
    refine h.imp_left fun h => ?_
    rw [sub_neg, ← mul_div_assoc, one_lt_div ht, ← sq, ← sq_abs b1]
    rw [← Real.sq_sqrt ht.le]
    have := Real.sqrt_nonneg t
    nlinarith
  have : calcLl n E.usePar t (.seq (b0 :: b1 :: l)) = calcLl n E.usePar t (.scalar b0) := by
    simp only [calcLl, calcLlCore, hd, bind, Except.bind, if_pos hc]
  simp only [update, ← htdef, this]

theorem Ell.calcDc_err {tsq b : ℝ} {e : PyErr} (h : calcDc n tsq b = .error e) : e = .zeroDivision := by
  unfold calcDc at h
  dsimp only at h
  split_ifs at h
  simp only [pyDiv, bind, Except.bind, pure, Except.pure] at h
  split_ifs at h <;> simp_all

/-- **C106** whatever the state of the ellipsoid and whatever the cut, the only exception an update can raise is `ZeroDivisionError`, except that an
empty sequence as right-hand side raises `IndexError`.  In particular the square roots in `_calc_ll_cc` and `_calc_ll_core` are never taken of a negative number. -/
theorem C106_update_errors (E : Ell n) {c : (Fin n → ℝ) × Beta} {e : PyErr} (h : update c E = .error e) :
    e = .zeroDivision ∨ (e = .indexError ∧ c.2 = .seq []) := by
  obtain ⟨g, b⟩ := c
  have hup : ∀ {b}, update (g, b) E = .error e → e = .zeroDivision ∨ calcLl n E.usePar (E.kappa * (g ⬝ᵥ E.Q *ᵥ g)) b = .error e := by
    intro b h
    unfold update at h
    dsimp only at h
    split at h
    · rename_i e' he
      simp only [Except.error.injEq] at h
      subst h
      exact .inr he
    · simp at h
    · left
      simp only [pyDiv] at h
      split_ifs at h <;> simp_all
  rcases hup h with h | h
  · exact .inl h
  set t := E.kappa * (g ⬝ᵥ E.Q *ᵥ g) with ht
  rcases b with b | (_ | ⟨b0, _ | ⟨b1, l⟩⟩)
  · exact .inl (calcDc_err h)
  · simp only [calcLl, Except.error.injEq] at h
    exact .inr ⟨h.symm, rfl⟩
  · exact .inl (calcDc_err (b := b0) h)
  · left
    simp only [calcLl, calcLlCore] at h
    by_cases ht0 : t = 0
    · simp only [pyDiv, ht0, if_true, bind, Except.bind, Except.error.injEq] at h
      exact h.symm
    have hn : 1 ≤ n := by
      by_contra hn
      obtain rfl : n = 0 := by omega
      exact ht0 (by simp [ht])
    have hn' : (1 : ℝ) ≤ n := by exact_mod_cast hn
    have key : ∀ x y : ℝ, 0 ≤ (1 - x) * (1 - y) + (n / 2 * (x - y)) ^ 2 := by
      intro x y
      nlinarith [sq_nonneg (2 - x - y), sq_nonneg (x - y), mul_nonneg (by nlinarith : (0 : ℝ) ≤ n ^ 2 - 1) (sq_nonneg (x - y))]
    have hd : ∀ a, pyDiv a t = .ok (a / t) := fun a => by simp [pyDiv, ht0]
    have k1 : ¬ 1 - b1 * (b1 / t) + (halfN n * (b1 * (b1 / t))) ^ 2 < 0 := by
      have := key (b1 * (b1 / t)) 0
      rw [not_lt, halfN]; linarith
    have k2 : ¬ (1 - b0 * (b0 / t)) * (1 - b1 * (b1 / t)) + halfN n * ((b0 + b1) / t) * (b1 - b0) * (halfN n * ((b0 + b1) / t) * (b1 - b0)) < 0 := by
      have := key (b0 * (b0 / t)) (b1 * (b1 / t))
      rw [not_lt, halfN]
      refine this.trans_eq ?_
      ring
    simp only [hd, bind, Except.bind, calcLlCc, pySqrt, if_neg k1, if_neg k2, pure, Except.pure] at h
    split_ifs at h with h1 h2 h3 h4
    · exact calcDc_err h
    all_goals
      simp only [pyDiv] at h
      split_ifs at h <;> simp_all
/-- Both kinds occur: a zero gradient with a cut through the centre, and an empty sequence. -/
example : update (0, .scalar 0) (⟨true, false, 0, 1, 1⟩ : Ell 2) = .error .zeroDivision ∧
    update (0, .seq []) (⟨true, false, 0, 1, 1⟩ : Ell 2) = .error .indexError := by
  constructor
  · simp [update, calcLl, calcDc, pySqrt, calcCc, pyDiv]
  · simp [update, calcLl]

/-- **C106** a cut that is not critical is answered, and the ellipsoid keeps its full dimension. -/
theorem C106_update (E : Ell n) (hE : E.Proper) {c : (Fin n → ℝ) × Beta} (h : ¬ Critical E c) :
    ∃ E' st tsq, update c E = .ok (E', st, tsq) ∧ E'.Proper := by
  obtain ⟨g, b⟩ := c
  rcases b with b | (_ | ⟨b0, _ | ⟨b1, l⟩⟩)
  · exact critical_scalar hE h
  · exact absurd (.inr trivial) h
  · exact critical_scalar (b := b0) hE h
  · have hg : g ≠ 0 := fun h0 => h (.inl h0)
    by_cases hm : √(E.kappa * (g ⬝ᵥ E.Q *ᵥ g)) < |b1| ∨ E.usePar = false
    · rw [update_miss hE hg hm]
      refine critical_scalar hE fun hc => h ?_
      refine hc.imp_right fun hc => ?_
      simp only [criticalBeta, if_pos hm]
      exact hc
    · have hpos : 0 < g ⬝ᵥ E.Q *ᵥ g := (pd_iff.1 hE.pd).2 g hg
      have ht := mul_pos hE.kappa hpos
      simp only [Critical, criticalBeta, if_neg hm, not_or] at h
      obtain ⟨-, h1, h2, h3⟩ := h
      rw [not_or, not_lt] at hm
      set t := E.kappa * (g ⬝ᵥ E.Q *ᵥ g) with htdef
      have hsq := Real.sq_sqrt ht.le
      have hb1 := abs_le.1 hm.1
      cases hu : update (g, .seq (b0 :: b1 :: l)) E with
      | error e =>
        have key := ((C20_ell_parallel_fails_iff hE hg).1 hu).2
        simp only [← htdef] at key
        rw [if_neg] at key
        · rw [hsq] at h3
          exact absurd key h3
        · rintro (hc | hc)
          · rw [← hsq, ← sq_abs b1] at hc
            have := abs_nonneg b1
            have := hm.1
            nlinarith
          · exact hm.2 hc
      | ok r =>
        obtain ⟨E', st, tsq⟩ := r
        refine ⟨E', st, tsq, rfl, ?_⟩
        by_cases hs : st = .success
        · by_cases hlt : b1 < b0
          · exfalso
            have hd : pyDiv b1 t = .ok (b1 / t) := by simp [pyDiv, ht.ne']
            have hc : ¬ (1 - b1 * (b1 / t) < 0 ∨ E.usePar = false) := by
              rintro (hc | hc)
              · rw [sub_neg, ← mul_div_assoc, one_lt_div ht, ← sq, ← sq_abs b1, ← hsq] at hc
                have := abs_nonneg b1
                have := hm.1
                nlinarith
              · exact hm.2 hc
            have hbd : b1 - b0 < 0 := by linarith
            have : calcLl n E.usePar t (.seq (b0 :: b1 :: l)) = .ok (.reject .nosoln, t) := by
              simp only [calcLl, calcLlCore, hd, bind, Except.bind, if_neg hc, if_pos hbd, pure, Except.pure]
            simp only [update, ← htdef, this, Except.ok.injEq, Prod.mk.injEq] at hu
            rw [← hu.2.1] at hs
            simp at hs
          · have hlt' : b0 < b1 := lt_of_le_of_ne (not_lt.1 hlt) h1
            refine C20_ell_proper hE hg (b := .seq (b0 :: b1 :: l)) ⟨by linarith [hb1.2], hlt', lt_of_le_of_ne hb1.1 (Ne.symm h2)⟩ hu
        · rw [C19_ell_reject_unchanged hu hs]; exact hE

/-- A loop returns if its body does in every state it can reach. -/
theorem forLoop_returns {σ : Type _} {body : Nat → σ → Except PyErr (Step σ)} {s0 : σ} :
    ∀ r i last s, Rounds body 0 s0 i s → (∀ k s, k < i + r → Rounds body 0 s0 k s → ∃ st, body k s = .ok st) →
      ∃ res, forLoop body r i last s = .ok res := by
  intro r
  induction r with
  | zero => intro i last s _ _; exact ⟨_, rfl⟩
  | succ r ih =>
    intro i last s hs hb
    obtain ⟨st, hst⟩ := hb i s (by omega) hs
    cases st with
    | cont s' =>
      simp only [forLoop, hst]
      exact ih (i + 1) (some i) s' (.snoc hs hst) fun k s hk => hb k s (by omega)
    | brk s' => simp only [forLoop, hst]; exact ⟨_, rfl⟩

/-- **C106** `cutting_plane_dc` on an `ell`, `max_it ≥ 1`, any oracle that answers in all states and levels of an invariant, with any cuts:
the run returns unless, in some round reached with an ellipsoid of full dimension, the cut was critical. -/
theorem C106_dc [DecidableEq T] {Inv : W → T → Prop}
    {Ω : (Fin n → ℝ) → T → W → Except PyErr (W × ((Fin n → ℝ) × Beta) × Option T)}
    (hΩ : ∀ x t w, Inv w t → ∃ w' c t1, Ω x t w = .ok (w', c, t1) ∧ Inv w' (t1.getD t)) {E₀ : Ell n}
    (hE : E₀.Proper) {o : Options ℝ} (hmax : 1 ≤ o.maxIt) {w₀ : W} {t0 : T} (hw₀ : Inv w₀ t0) :
    (∃ r, cuttingPlaneDc (fun x t => liftOracle (Ω x t)) (Ell.space W n) t0 o (w₀, E₀) = .ok r) ∨
    ∃ (k : ℕ) (s : DcSt (W × Ell n) (Fin n → ℝ) T) (w1 : W) (c : (Fin n → ℝ) × Beta) (t1 : Option T), (k : ℤ) < o.maxIt ∧
      Rounds (dcBody (fun x t => liftOracle (Ω x t)) (Ell.space W n) o.tol) 0 ⟨(w₀, E₀), none, t0, .success⟩ k s ∧
      Inv s.w.1 s.t ∧ s.w.2.Proper ∧ Ω s.w.2.xc s.t s.w.1 = .ok (w1, c, t1) ∧ Critical s.w.2 c := by
  by_contra hcon
  rw [not_or] at hcon
  obtain ⟨hno, hcr⟩ := hcon
  set body := dcBody (fun x t => liftOracle (Ω x t)) (Ell.space W n) o.tol with hbody
  set s0 : DcSt (W × Ell n) (Fin n → ℝ) T := ⟨(w₀, E₀), none, t0, .success⟩ with hs0
  have step : ∀ (k : ℕ) s, (k : ℤ) < o.maxIt → Rounds body 0 s0 k s → Inv s.w.1 s.t ∧ s.w.2.Proper →
      ∃ st, body k s = .ok st ∧ ∀ s', st = .cont s' → Inv s'.w.1 s'.t ∧ s'.w.2.Proper := by
    rintro k s hk hr ⟨hi, hp⟩
    obtain ⟨w1, c, t1, hq, hi1⟩ := hΩ s.w.2.xc s.t s.w.1 hi
    obtain ⟨E', st, tsq, hu, hp'⟩ := C106_update s.w.2 hp (c := c) fun hc => hcr ⟨k, s, w1, c, t1, hk, hr, hi, hp, hq, hc⟩
    have hlq : liftOracle (Ω s.w.2.xc s.t) s.w = .ok ((w1, s.w.2), c, t1) := by simp only [liftOracle, hq]
    have hsu : (Ell.space W n).update c (w1, s.w.2) = .ok ((w1, E'), st, tsq) := by simp only [Ell.space, hu]
    have hx : (Ell.space W n).xc s.w = s.w.2.xc := rfl
    simp only [hbody, dcBody]
    rw [hx, hlq]
    simp only [hsu]
    split_ifs
    · exact ⟨_, rfl, by simp⟩
    · exact ⟨_, rfl, by simp⟩
    · refine ⟨_, rfl, fun s' hs' => ?_⟩
      simp only [Step.cont.injEq] at hs'
      subst hs'
      cases t1 <;> exact ⟨hi1, hp'⟩
  have key : ∀ {k s}, Rounds body 0 s0 k s → (k : ℤ) ≤ o.maxIt → Inv s.w.1 s.t ∧ s.w.2.Proper := by
    intro k s hr
    induction hr with
    | refl => exact fun _ => ⟨hw₀, hE⟩
    | @snoc j s' s'' h1 h2 ih =>
      intro hj
      obtain ⟨st, e1, e2⟩ := step j s' (by push_cast at hj; omega) h1 (ih (by push_cast at hj; omega))
      rw [h2] at e1
      simp only [Except.ok.injEq] at e1
      exact e2 _ e1.symm
  obtain ⟨⟨s, last⟩, hres⟩ := forLoop_returns (body := body) (s0 := s0) o.maxIt.toNat 0 none s0 .refl fun k s hk hr => by
    obtain ⟨st, e1, -⟩ := step k s (by omega) hr (key hr (by omega))
    exact ⟨st, e1⟩
  have hne : last ≠ none := by
    rintro rfl
    rcases forLoop_ok hres with ⟨_, _, _, _, _, _, hl⟩ | ⟨_, hl⟩
    · simp at hl
    · split at hl
      · omega
      · simp at hl
  obtain ⟨l, rfl⟩ := Option.ne_none_iff_exists'.1 hne
  refine hno ⟨(s.w, s.xBest, s.t, ⟨decide (s.t ≠ t0), l + 1, s.status⟩), ?_⟩
  simp only [cuttingPlaneDc, forRange, ← hbody, ← hs0, hres, readVar]

/-- **C106** the same for `cutting_plane_feas`. -/
theorem C106_feas {Inv : W → Prop} {Ω : (Fin n → ℝ) → W → Except PyErr (W × Option ((Fin n → ℝ) × Beta))}
    (hΩ : ∀ x w, Inv w → ∃ w' r, Ω x w = .ok (w', r) ∧ Inv w') {E₀ : Ell n}
    (hE : E₀.Proper) {o : Options ℝ} (hmax : 1 ≤ o.maxIt) {w₀ : W} (hw₀ : Inv w₀) :
    (∃ r, cuttingPlaneFeas (fun x => liftOracle (Ω x)) (Ell.space W n) o (w₀, E₀) = .ok r) ∨
    ∃ (k : ℕ) (s : FeasSt (W × Ell n)) (w1 : W) (c : (Fin n → ℝ) × Beta), (k : ℤ) < o.maxIt ∧
      Rounds (feasBody (fun x => liftOracle (Ω x)) (Ell.space W n) o.tol) 0 ⟨(w₀, E₀), false, .success⟩ k s ∧
      Inv s.w.1 ∧ s.w.2.Proper ∧ Ω s.w.2.xc s.w.1 = .ok (w1, some c) ∧ Critical s.w.2 c := by
  by_contra hcon
  rw [not_or] at hcon
  obtain ⟨hno, hcr⟩ := hcon
  set body := feasBody (fun x => liftOracle (Ω x)) (Ell.space W n) o.tol with hbody
  set s0 : FeasSt (W × Ell n) := ⟨(w₀, E₀), false, .success⟩ with hs0
  have step : ∀ (k : ℕ) s, (k : ℤ) < o.maxIt → Rounds body 0 s0 k s → Inv s.w.1 ∧ s.w.2.Proper →
      ∃ st, body k s = .ok st ∧ ∀ s', st = .cont s' → Inv s'.w.1 ∧ s'.w.2.Proper := by
    rintro k s hk hr ⟨hi, hp⟩
    obtain ⟨w1, r, hq, hi1⟩ := hΩ s.w.2.xc s.w.1 hi
    have hx : (Ell.space W n).xc s.w = s.w.2.xc := rfl
    have hlq : liftOracle (Ω s.w.2.xc) s.w = .ok ((w1, s.w.2), r) := by simp only [liftOracle, hq]
    simp only [hbody, feasBody]
    rw [hx, hlq]
    cases r with
    | none => exact ⟨_, rfl, by simp⟩
    | some c =>
      obtain ⟨E', st, tsq, hu, hp'⟩ := C106_update s.w.2 hp (c := c) fun hc => hcr ⟨k, s, w1, c, hk, hr, hi, hp, hq, hc⟩
      have hsu : (Ell.space W n).update c (w1, s.w.2) = .ok ((w1, E'), st, tsq) := by simp only [Ell.space, hu]
      simp only [hsu]
      split_ifs
      · exact ⟨_, rfl, by simp⟩
      · exact ⟨_, rfl, by simp⟩
      · refine ⟨_, rfl, fun s' hs' => ?_⟩
        simp only [Step.cont.injEq] at hs'
        subst hs'
        exact ⟨hi1, hp'⟩
  have key : ∀ {k s}, Rounds body 0 s0 k s → (k : ℤ) ≤ o.maxIt → Inv s.w.1 ∧ s.w.2.Proper := by
    intro k s hr
    induction hr with
    | refl => exact fun _ => ⟨hw₀, hE⟩
    | @snoc j s' s'' h1 h2 ih =>
      intro hj
      obtain ⟨st, e1, e2⟩ := step j s' (by push_cast at hj; omega) h1 (ih (by push_cast at hj; omega))
      rw [h2] at e1
      simp only [Except.ok.injEq] at e1
      exact e2 _ e1.symm
  obtain ⟨⟨s, last⟩, hres⟩ := forLoop_returns (body := body) (s0 := s0) o.maxIt.toNat 0 none s0 .refl fun k s hk hr => by
    obtain ⟨st, e1, -⟩ := step k s (by omega) hr (key hr (by omega))
    exact ⟨st, e1⟩
  have hne : last ≠ none := by
    rintro rfl
    rcases forLoop_ok hres with ⟨_, _, _, _, _, _, hl⟩ | ⟨_, hl⟩
    · simp at hl
    · split at hl
      · omega
      · simp at hl
  obtain ⟨l, rfl⟩ := Option.ne_none_iff_exists'.1 hne
  refine hno ⟨(s.w, ⟨s.feasible, l + 1, s.status⟩), ?_⟩
  simp only [cuttingPlaneFeas, forRange, ← hbody, ← hs0, hres, readVar]

/-- **C106** the same for `cutting_plane_q`; the invariant may mention the status of the previous round, `retry = (status = noeffect)`, and
is asked to hold after every answered cut. -/
theorem C106_q [DecidableEq T] {X0 Y : Type _} {Inv : W → T → Bool → Prop} {copy : X0 → W × Ell n → Y}
    {Ω : (Fin n → ℝ) → T → Bool → W → Except PyErr (W × ((Fin n → ℝ) × Beta) × X0 × Option T × Bool)}
    (hΩ : ∀ (E : Ell n) t r w, E.Proper → Inv w t r → ∃ w' c x0 t1 m, Ω E.xc t r w = .ok (w', c, x0, t1, m) ∧
      ∀ E' st tsq, update c E = .ok (E', st, tsq) → Inv w' (t1.getD t) (decide (st = .noeffect))) {E₀ : Ell n}
    (hE : E₀.Proper) {o : Options ℝ} (hmax : 1 ≤ o.maxIt) {w₀ : W} {t0 : T} (hw₀ : Inv w₀ t0 false) :
    (∃ r, cuttingPlaneQ (fun x t r => liftOracle (Ω x t r)) copy (Ell.space W n) t0 o (w₀, E₀) = .ok r) ∨
    ∃ (k : ℕ) (s : QSt (W × Ell n) Y T) (w1 : W) (c : (Fin n → ℝ) × Beta) (x0 : X0) (t1 : Option T) (m : Bool), (k : ℤ) < o.maxIt ∧
      Rounds (qBody (fun x t r => liftOracle (Ω x t r)) copy (Ell.space W n) o.tol) 0 ⟨(w₀, E₀), none, t0, .nosoln⟩ k s ∧
      Inv s.w.1 s.t (decide (s.status = .noeffect)) ∧ s.w.2.Proper ∧
      Ω s.w.2.xc s.t (decide (s.status = .noeffect)) s.w.1 = .ok (w1, c, x0, t1, m) ∧ Critical s.w.2 c := by
  by_contra hcon
  rw [not_or] at hcon
  obtain ⟨hno, hcr⟩ := hcon
  set body := qBody (fun x t r => liftOracle (Ω x t r)) copy (Ell.space W n) o.tol with hbody
  set s0 : QSt (W × Ell n) Y T := ⟨(w₀, E₀), none, t0, .nosoln⟩ with hs0
  have step : ∀ (k : ℕ) s, (k : ℤ) < o.maxIt → Rounds body 0 s0 k s → Inv s.w.1 s.t (decide (s.status = .noeffect)) ∧ s.w.2.Proper →
      ∃ st, body k s = .ok st ∧ ∀ s', st = .cont s' → Inv s'.w.1 s'.t (decide (s'.status = .noeffect)) ∧ s'.w.2.Proper := by
    rintro k s hk hr ⟨hi, hp⟩
    obtain ⟨w1, c, x0, t1, m, hq, hi1⟩ := hΩ s.w.2 s.t _ s.w.1 hp hi
    obtain ⟨E', st, tsq, hu, hp'⟩ := C106_update s.w.2 hp (c := c) fun hc => hcr ⟨k, s, w1, c, x0, t1, m, hk, hr, hi, hp, hq, hc⟩
    have hlq : liftOracle (Ω s.w.2.xc s.t (decide (s.status = .noeffect))) s.w = .ok ((w1, s.w.2), c, x0, t1, m) := by
      simp only [liftOracle, hq]
    have hsu : (Ell.space W n).update c (w1, s.w.2) = .ok ((w1, E'), st, tsq) := by simp only [Ell.space, hu]
    have hx : (Ell.space W n).xc s.w = s.w.2.xc := rfl
    simp only [hbody, qBody]
    rw [hx, hlq]
    simp only [hsu]
    split_ifs
    · exact ⟨_, rfl, by simp⟩
    · exact ⟨_, rfl, by simp⟩
    · exact ⟨_, rfl, by simp⟩
    · refine ⟨_, rfl, fun s' hs' => ?_⟩
      simp only [Step.cont.injEq] at hs'
      subst hs'
      have := hi1 _ _ _ hu
      cases t1 <;> exact ⟨this, hp'⟩
  have key : ∀ {k s}, Rounds body 0 s0 k s → (k : ℤ) ≤ o.maxIt → Inv s.w.1 s.t (decide (s.status = .noeffect)) ∧ s.w.2.Proper := by
    intro k s hr
    induction hr with
    | refl => exact fun _ => ⟨hw₀, hE⟩
    | @snoc j s' s'' h1 h2 ih =>
      intro hj
      obtain ⟨st, e1, e2⟩ := step j s' (by push_cast at hj; omega) h1 (ih (by push_cast at hj; omega))
      rw [h2] at e1
      simp only [Except.ok.injEq] at e1
      exact e2 _ e1.symm
  obtain ⟨⟨s, last⟩, hres⟩ := forLoop_returns (body := body) (s0 := s0) o.maxIt.toNat 0 none s0 .refl fun k s hk hr => by
    obtain ⟨st, e1, -⟩ := step k s (by omega) hr (key hr (by omega))
    exact ⟨st, e1⟩
  have hne : last ≠ none := by
    rintro rfl
    rcases forLoop_ok hres with ⟨_, _, _, _, _, _, hl⟩ | ⟨_, hl⟩
    · simp at hl
    · split at hl
      · omega
      · simp at hl
  obtain ⟨l, rfl⟩ := Option.ne_none_iff_exists'.1 hne
  refine hno ⟨(s.w, s.xBest, s.t, ⟨decide (s.t ≠ t0), l + 1, s.status⟩), ?_⟩
  simp only [cuttingPlaneQ, forRange, ← hbody, ← hs0, hres, readVar]

/-! ### The low-pass oracle -/

theorem passScan_shape {A : Band n} {L U : ℝ} {x : Fin n → ℝ} : ∀ {ks : List ℕ} {k cut}, passScan A L U x ks = .ok (some (k, cut)) →
    (∃ j, cut.1 = A.row j ∨ cut.1 = -A.row j) ∧ ∃ b0 b1, cut.2 = .seq [b0, b1] ∧ 0 < b0 ∧ b1 - b0 = U - L
  | [], k, cut, h => by simp [passScan] at h
  | j :: ks, k, cut, h => by
    by_cases hj : j < A.N
    · simp only [passScan, Band.get, dif_pos hj] at h
      split_ifs at h with h1 h2
      · simp only [Except.ok.injEq, Option.some.injEq, Prod.mk.injEq] at h
        obtain ⟨-, rfl⟩ := h
        exact ⟨⟨_, .inl rfl⟩, _, _, rfl, by linarith, by ring⟩
      · simp only [Except.ok.injEq, Option.some.injEq, Prod.mk.injEq] at h
        obtain ⟨-, rfl⟩ := h
        exact ⟨⟨_, .inr rfl⟩, _, _, rfl, by linarith, by ring⟩
      · exact passScan_shape h
    · simp only [passScan, Band.get, dif_neg hj] at h
      simp at h

theorem stopScan_shape {A : Band n} {S : ℝ} {x : Fin n → ℝ} : ∀ {ks : List ℕ} {fm : WithBot ℝ} {im : ℕ} {k cut},
    stopScan A S x fm im ks = .ok (.inl (k, cut)) →
    (∃ j, cut.1 = A.row j ∨ cut.1 = -A.row j) ∧ ∃ b0 b1, cut.2 = .seq [b0, b1] ∧ 0 < b0 ∧ b1 - b0 = S
  | [], fm, im, k, cut, h => by simp [stopScan] at h
  | j :: ks, fm, im, k, cut, h => by
    by_cases hj : j < A.N
    · simp only [stopScan, Band.get, dif_pos hj] at h
      split_ifs at h with h1 h2
      · simp only [Except.ok.injEq, Sum.inl.injEq, Prod.mk.injEq] at h
        obtain ⟨-, rfl⟩ := h
        exact ⟨⟨_, .inl rfl⟩, _, _, rfl, by linarith, by ring⟩
      · simp only [Except.ok.injEq, Sum.inl.injEq, Prod.mk.injEq] at h
        obtain ⟨-, rfl⟩ := h
        exact ⟨⟨_, .inr rfl⟩, _, _, rfl, by linarith, by ring⟩
      · exact stopScan_shape h
      · exact stopScan_shape h
    · simp only [stopScan, Band.get, dif_neg hj] at h
      simp at h

theorem nonnegScan_shape {A : Band n} {x : Fin n → ℝ} : ∀ {ks : List ℕ} {k cut}, nonnegScan A x ks = .ok (some (k, cut)) →
    (∃ j, cut.1 = A.row j ∨ cut.1 = -A.row j) ∧ ∃ b, cut.2 = .scalar b ∧ 0 < b
  | [], k, cut, h => by simp [nonnegScan] at h
  | j :: ks, k, cut, h => by
    by_cases hj : j < A.N
    · simp only [nonnegScan, Band.get, dif_pos hj] at h
      split_ifs at h with h1
      · simp only [Except.ok.injEq, Option.some.injEq, Prod.mk.injEq] at h
        obtain ⟨-, rfl⟩ := h
        exact ⟨⟨_, .inr rfl⟩, _, rfl, by linarith⟩
      · exact nonnegScan_shape h
    · simp only [nonnegScan, Band.get, dif_neg hj] at h
      simp at h

/-- The shapes of the answers of `lowpass_oracle`. -/
theorem lowpass_shape [NeZero n] {o o' : Lowpass n} {x : Fin n → ℝ} {S : ℝ} {cut : LpCut n} {t1 : Option ℝ}
    (hrow : (∀ k, o.Ap.row k ≠ 0) ∧ (∀ k, o.As.row k ≠ 0) ∧ ∀ k, o.Anr.row k ≠ 0)
    (h : Lowpass.call x S o = .ok (o', cut, t1)) :
    cut.1 ≠ 0 ∧ ((t1 = none ∧ ∃ b, cut.2 = .scalar b ∧ 0 < b) ∨
      (t1 = none ∧ ∃ b0 b1, cut.2 = .seq [b0, b1] ∧ 0 < b0 ∧ (b1 - b0 = o.Upsq - o.Lpsq ∨ b1 - b0 = S)) ∨
      ∃ f, t1 = some f ∧ cut.2 = .seq [0, f]) := by
  obtain ⟨r1, r2, r3⟩ := hrow
  have sgn : ∀ {A : Band n}, (∀ k, A.row k ≠ 0) → (∃ j, cut.1 = A.row j ∨ cut.1 = -A.row j) → cut.1 ≠ 0 := by
    rintro A hA ⟨j, h | h⟩ <;> rw [h]
    · exact hA j
    · exact neg_ne_zero.2 (hA j)
  simp only [Lowpass.call] at h
  split at h
  · simp at h
  · rename_i k c hs
    simp only [Except.ok.injEq, Prod.mk.injEq] at h
    obtain ⟨-, rfl, rfl⟩ := h
    obtain ⟨h1, b0, b1, h2, h3, h4⟩ := passScan_shape hs
    exact ⟨sgn r1 h1, .inr (.inl ⟨rfl, b0, b1, h2, h3, .inl h4⟩)⟩
  simp only [Lowpass.call2] at h
  split at h
  · simp at h
  · rename_i k c hs
    simp only [Except.ok.injEq, Prod.mk.injEq] at h
    obtain ⟨-, rfl, rfl⟩ := h
    obtain ⟨h1, b0, b1, h2, h3, h4⟩ := stopScan_shape hs
    exact ⟨sgn r2 h1, .inr (.inl ⟨rfl, b0, b1, h2, h3, .inr h4⟩)⟩
  simp only [Lowpass.call3] at h
  split at h
  · simp at h
  · rename_i k c hs
    simp only [Except.ok.injEq, Prod.mk.injEq] at h
    obtain ⟨-, rfl, rfl⟩ := h
    obtain ⟨h1, b, h2, h3⟩ := nonnegScan_shape hs
    exact ⟨sgn r3 h1, .inl ⟨rfl, b, h2, h3⟩⟩
  simp only [Lowpass.finish] at h
  split_ifs at h with h0
  · simp only [Except.ok.injEq, Prod.mk.injEq] at h
    obtain ⟨-, rfl, rfl⟩ := h
    refine ⟨fun hc => ?_, .inl ⟨rfl, _, rfl, by linarith⟩⟩
    have := congrFun hc 0
    simp at this
  · split at h
    · simp at h
    · simp at h
    · rename_i a f hg hf
      simp only [Except.ok.injEq, Prod.mk.injEq] at h
      obtain ⟨-, rfl, rfl⟩ := h
      refine ⟨?_, .inr (.inr ⟨_, rfl, rfl⟩)⟩
      simp only [Band.get] at hg
      split_ifs at hg
      simp only [Except.ok.injEq] at hg
      rw [← hg]; exact r2 _

/-- **C106** `cutting_plane_dc(lowpass_oracle(...), ell, t0)` with `Lpsq < Upsq`, nonzero rows, `t0 ≥ 0`, `max_it ≥ 1`: the run returns,
unless in some round the first plane of the cut exactly touched the ellipsoid (`b₀ = τ`), or a design with maximal stopband response `0` was
found. -/
theorem C106_lowpass [NeZero n] {o₀ : Lowpass n} (hI : o₀.Inv) (hLU : o₀.Lpsq < o₀.Upsq) (hN : 0 < o₀.As.N)
    (hrow : (∀ k, o₀.Ap.row k ≠ 0) ∧ (∀ k, o₀.As.row k ≠ 0) ∧ ∀ k, o₀.Anr.row k ≠ 0)
    {E₀ : Ell n} (hE : E₀.Proper) {o : Options ℝ} (hmax : 1 ≤ o.maxIt) {t0 : ℝ} (ht0 : 0 ≤ t0) :
    (∃ r, cuttingPlaneDc (fun x t => liftOracle (lowpassOmega x t)) (Ell.space (Lowpass n) n) t0 o (o₀, E₀) = .ok r) ∨
    ∃ (k : ℕ) (s : DcSt (Lowpass n × Ell n) (Fin n → ℝ) ℝ) (w1 : Lowpass n) (c : (Fin n → ℝ) × Beta) (t1 : Option ℝ), (k : ℤ) < o.maxIt ∧
      Rounds (dcBody (fun x t => liftOracle (lowpassOmega x t)) (Ell.space (Lowpass n) n) o.tol) 0 ⟨(o₀, E₀), none, t0, .success⟩ k s ∧
      lowpassOmega s.w.2.xc s.t s.w.1 = .ok (w1, c, t1) ∧
      (t1.getD s.t = 0 ∨ ∃ b0, (c.2 = .scalar b0 ∨ ∃ b1, c.2 = .seq [b0, b1]) ∧ b0 = √(s.w.2.kappa * (c.1 ⬝ᵥ s.w.2.Q *ᵥ c.1))) := by
  have key := C106_dc (Ω := lowpassOmega (n := n)) (Inv := LpInv o₀) (fun x t w hw => by
    obtain ⟨o', c, t1, h1, h2, -⟩ := lowpassOmega_answer hLU.le hN x hw
    exact ⟨o', c, t1, h1, h2⟩) hE hmax (w₀ := o₀) (t0 := t0) ⟨hI, .refl o₀, ht0⟩
  refine key.imp_right ?_
  rintro ⟨k, ⟨⟨w, E⟩, xb, t, st⟩, w1, c, t1, hk, hr, ⟨hIw, ⟨e1, e2, e3, e4, e5⟩, ht⟩, hp, hq, hc⟩
  refine ⟨k, ⟨⟨w, E⟩, xb, t, st⟩, w1, c, t1, hk, hr, hq, ?_⟩
  clear hr
  simp only at e1 e2 e3 e4 e5 ht hp hq hc hIw ⊢
  obtain ⟨hg, hsh⟩ := lowpass_shape (o := w) (by rw [e1, e2, e3]; exact hrow) hq
  rw [e4, e5] at hsh
  obtain ⟨g, b⟩ := c
  have hpos : 0 < g ⬝ᵥ E.Q *ᵥ g := (pd_iff.1 hp.pd).2 g hg
  have hτ : 0 < √(E.kappa * (g ⬝ᵥ E.Q *ᵥ g)) := Real.sqrt_pos.2 (mul_pos hp.kappa hpos)
  have hc := hc.resolve_left hg
  simp only at hc hsh ⊢
  set τ := √(E.kappa * (g ⬝ᵥ E.Q *ᵥ g)) with hτdef
  have hn0 : (0 : ℝ) ≤ n := Nat.cast_nonneg n
  rcases hsh with ⟨-, b, rfl, hb⟩ | ⟨rfl, b0, b1, rfl, hb, hd⟩ | ⟨f, rfl, rfl⟩
  · refine .inr ⟨b, .inl rfl, ?_⟩
    rcases hc with hc | hc
    · exact hc
    · exfalso; nlinarith
  · by_cases h0 : t = 0
    · exact .inl h0
    have hlt : b0 < b1 := by
      have : 0 < t := lt_of_le_of_ne ht (Ne.symm h0)
      rcases hd with hd | hd <;> linarith
    refine .inr ⟨b0, .inr ⟨b1, rfl⟩, ?_⟩
    simp only [criticalBeta] at hc
    split_ifs at hc with hm
    · rcases hc with hc | hc
      · exact hc
      · exfalso; nlinarith
    · exfalso
      rcases hc with hc | hc | ⟨hc, -⟩ <;> linarith
  · left
    change f = 0
    simp only [criticalBeta] at hc
    split_ifs at hc with hm
    · exfalso
      rcases hc with hc | hc
      · linarith
      · rw [mul_zero, add_zero] at hc; linarith
    · rcases hc with hc | hc | ⟨hc, -⟩
      · exact hc.symm
      · exfalso
        -- `f = -τ < 0`, but the level is nonnegative
        obtain ⟨o', c', t1', h1, ⟨-, -, h2⟩, -⟩ := lowpassOmega_answer (o₀ := o₀) (o := w) hLU.le hN E.xc (t := t)
          ⟨hIw, ⟨e1, e2, e3, e4, e5⟩, ht⟩
        rw [hq] at h1
        simp only [Except.ok.injEq, Prod.mk.injEq] at h1
        rw [← h1.2.2] at h2
        change 0 ≤ f at h2
        linarith
      · linarith


/-- One passband frequency `w = 0`, one stopband frequency `w = π`, two coefficients. -/
noncomputable def exPerfect : Lowpass 2 :=
  { Ap := ⟨1, fun _ => ![1, 2]⟩, As := ⟨1, fun _ => ![1, -2]⟩, Anr := ⟨0, fun i => i.elim0⟩, Lpsq := 1 / 2, Upsq := 2 }

/-- **C106** (finding).  The exception for level `0` is real: the response of the taps `(1/2, 1/2)`, `r = (1/2, 1/4)`, is `1` at `w = 0` and
`0` at `w = π`.  Started there, the run finds it and then divides by zero, whatever the options and the radius. -/
theorem C106_lowpass_perfect_raises {o : Options ℝ} (hmax : 1 ≤ o.maxIt) {R : ℝ} (hR : 0 < R) {E₀ : Ell 2}
    (hinit : Ell.init (.scalar R) ![1 / 2, 1 / 4] = .ok E₀) :
    exPerfect.Meets 0 ![1 / 2, 1 / 4] ∧
    cuttingPlaneDc (fun x t => liftOracle (lowpassOmega x t)) (Ell.space (Lowpass 2) 2) 1 o (exPerfect, E₀) = .error .zeroDivision := by
  have d1 : (![1, 2] : Fin 2 → ℝ) ⬝ᵥ ![1 / 2, 1 / 4] = 1 := by simp [dotProduct, Fin.sum_univ_two]; norm_num
  have d2 : (![1, -2] : Fin 2 → ℝ) ⬝ᵥ ![1 / 2, 1 / 4] = 0 := by simp [dotProduct, Fin.sum_univ_two]; norm_num
  constructor
  · refine ⟨fun k => ?_, fun k => ?_, fun k => k.elim0, by norm_num⟩
    · change (1 / 2 : ℝ) ≤ ![1, 2] ⬝ᵥ ![1 / 2, 1 / 4] ∧ (![1, 2] : Fin 2 → ℝ) ⬝ᵥ ![1 / 2, 1 / 4] ≤ 2
      rw [d1]; norm_num
    · change (0 : ℝ) ≤ ![1, -2] ⬝ᵥ ![1 / 2, 1 / 4] ∧ (![1, -2] : Fin 2 → ℝ) ⬝ᵥ ![1 / 2, 1 / 4] ≤ 0
      rw [d2]; norm_num
  have hE : E₀ = ⟨true, false, ![1 / 2, 1 / 4], 1, R⟩ := by
    unfold Ell.init at hinit
    split at hinit
    · simp at hinit
    simp only [Except.ok.injEq] at hinit
    exact hinit.symm
  have hcall : Lowpass.call ![1 / 2, 1 / 4] 1 exPerfect =
      .ok ({ exPerfect with moreAlt := false }, (![1, -2], .seq [0, 0]), some 0) := by
    have a1 : ¬ (2 : ℝ) < 1 := by norm_num
    have a2 : ¬ (1 : ℝ) < 1 / 2 := by norm_num
    have a3 : ¬ (1 : ℝ) < 0 := by norm_num
    have a4 : ¬ ((![1 / 2, 1 / 4] : Fin 2 → ℝ) 0 < 0) := by rw [cons_val_zero]; norm_num
    simp only [Lowpass.call, exPerfect, scanOrder, List.range', List.range_zero, List.append_nil, Nat.sub_zero, passScan,
      Lowpass.call2, stopScan, Band.get, zero_lt_one, dite_true, d1, d2, a1, a2, a3, lt_irrefl, if_false,
      Lowpass.call3, nonnegScan, Lowpass.finish, WithBot.bot_lt_coe, if_true, a4]
    rfl
  have hu : Ell.update (![1, -2], .seq [0, 0]) E₀ = .error .zeroDivision := by
    have hP : E₀.Proper := by rw [hE]; exact ⟨le_rfl, Matrix.PosDef.one, hR⟩
    refine (C20_ell_parallel_fails_iff hP fun h => by simpa using congrFun h 0).2 ⟨rfl, ?_⟩
    have ht : 0 ≤ E₀.kappa * ((![1, -2] : Fin 2 → ℝ) ⬝ᵥ E₀.Q *ᵥ ![1, -2]) := tsq_nonneg hP.wf _
    dsimp only
    rw [if_neg]
    · exact ⟨by simp, le_rfl, by simpa using ht⟩
    · rintro (h | h)
      · linarith
      · rw [hE] at h; simp at h
  obtain ⟨m, hm⟩ : ∃ m, o.maxIt.toNat = m + 1 := ⟨o.maxIt.toNat - 1, by omega⟩
  have hq : liftOracle (lowpassOmega E₀.xc 1) (exPerfect, E₀) =
      .ok (({ exPerfect with moreAlt := false }, E₀), (![1, -2], .seq [0, 0]), some 0) := by
    have hx : E₀.xc = ![1 / 2, 1 / 4] := by rw [hE]
    simp only [liftOracle, lowpassOmega, hx, hcall]
  have hsx : (Ell.space (Lowpass 2) 2).xc (exPerfect, E₀) = E₀.xc := rfl
  simp only [cuttingPlaneDc, forRange, hm, forLoop, dcBody]
  rw [hsx, hq]
  simp [Ell.space, hu]

/-- C106 applies to it, with any radius. -/
example {o : Options ℝ} (hmax : 1 ≤ o.maxIt) := C106_lowpass (o₀ := exPerfect) ⟨Nat.zero_le _, Nat.zero_le _, Nat.zero_le _⟩
  (by norm_num [exPerfect]) (by norm_num [exPerfect])
  ⟨fun k h => by simpa [exPerfect] using congrFun h 0, fun k h => by simpa [exPerfect] using congrFun h 0, fun k => k.elim0⟩
  (exDisc_proper (κ := 4) (by norm_num)) hmax (t0 := 1) (by norm_num)

end Verif
