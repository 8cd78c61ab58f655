import Verif.Model.CsdLowpassCase
import Verif.Props.CsdLowpass
import Verif.Props.EllRaise
import Verif.Props.LowpassGrid

/-! # C107: low-pass designs with signed-digit coefficients, whole runs -/
namespace Verif
open Matrix Ell CsdSpec
variable {n : ℕ} [NeZero n]

/-- A design quantised to `nnz` signed digits per tap: the autocorrelation of such taps, each close to the tap `sf r` of a point `r`
that meets the specification at level `S`. -/
def CsdDesign (sf : (Fin n → ℝ) → Fin n → ℝ) (nnz : ℕ) (P : Lowpass n) (S : ℝ) (q : Fin n → ℝ) : Prop :=
  ∃ taps r, P.Meets S r ∧ (∀ i, CsdApprox nnz (sf r i) (taps i)) ∧ q = inverseSpectralFact taps

/-- What stays true of the oracle object during a run from level `t0`. -/
def CsdInv (sf : (Fin n → ℝ) → Fin n → ℝ) (nnz : ℕ) (P : Lowpass n) (t0 : ℝ) (o : CsdLowpass n) (t : ℝ) : Prop :=
  o.nnz = nnz ∧ o.lowpass.Inv ∧ P.SameData o.lowpass ∧ 0 ≤ t ∧ t ≤ t0 ∧ ∀ q, o.rcsd = some q → CsdDesign sf nnz P t0 q

theorem Lowpass.Meets.mono {P : Lowpass n} {S S' : ℝ} {z : Fin n → ℝ} (h : P.Meets S z) (hS : S ≤ S') : P.Meets S' z :=
  ⟨h.pass, fun k => ⟨(h.stop k).1, (h.stop k).2.trans hS⟩, h.nonneg, h.first⟩

omit [NeZero n] in
theorem Lowpass.SameData.trans {a b c : Lowpass n} (h1 : a.SameData b) (h2 : b.SameData c) : a.SameData c := by
  obtain ⟨a1, a2, a3, a4, a5⟩ := h1
  obtain ⟨b1, b2, b3, b4, b5⟩ := h2
  exact ⟨b1.trans a1, b2.trans a2, b3.trans a3, b4.trans a4, b5.trans a5⟩

/-- One call during a run. -/
theorem csd_call {sf : (Fin n → ℝ) → Fin n → ℝ} {nnz : ℕ} (hnz : 1 ≤ nnz) {P : Lowpass n} (hLU : P.Lpsq ≤ P.Upsq) (hN : 0 < P.As.N)
    {t0 t : ℝ} {o : CsdLowpass n} (hi : CsdInv sf nnz P t0 o t) (x : Fin n → ℝ) (retry : Bool) (hr : retry = true → o.rcsd.isSome) :
    ∃ o' cut q t1 more, CsdLowpass.call sf x t retry o = .ok (o', cut, q, t1, more) ∧ CsdInv sf nnz P t0 o' (t1.getD t) ∧
      (o'.rcsd.isSome ∨ deepBeta cut.2) ∧
      ∀ s, t1 = some s → CsdDesign sf nnz P t0 q ∧ P.Meets s q ∧ (∃ k, P.As.row k ⬝ᵥ q = s) ∧ s ≤ t := by
  obtain ⟨h1, h2, h3, h4, h5, h6⟩ := hi
  obtain ⟨d1, d2, d3, d4, d5⟩ := id h3
  have hb : ∀ S z, o.lowpass.Meets S z ↔ P.Meets S z := by
    intro S z; unfold Lowpass.Meets; rw [d1, d2, d3, d4, d5]
  obtain ⟨o', cut, q, t1, more, e1, e2, e3, e4, e5, e6, e7, e8⟩ := C51_csdlowpass_point sf x h4 retry o nnz hnz h1 h2 (by rw [d4, d5]; exact hLU)
    (by rw [d2]; exact hN) hr
  have hdes : (∀ q', o'.rcsd = some q' → CsdDesign sf nnz P t0 q') ∧ (t1 ≠ none → CsdDesign sf nnz P t0 q) := by
    cases retry with
    | true =>
      obtain ⟨a1, a2, -⟩ := e5 rfl
      exact ⟨fun q' hq' => by rw [a2] at hq'; exact Option.some.inj hq' ▸ h6 _ a1, fun _ => h6 _ a1⟩
    | false =>
      by_cases hm : o.lowpass.Meets t x
      · obtain ⟨a1, taps, a2, a3⟩ := e7 rfl hm
        have hd : CsdDesign sf nnz P t0 q := ⟨taps, x, ((hb _ _).1 hm).mono h5, a2, a3⟩
        exact ⟨fun q' hq' => by rw [a1] at hq'; exact Option.some.inj hq' ▸ hd, fun _ => hd⟩
      · obtain ⟨-, a2, -, a4, -⟩ := e6 rfl hm
        exact ⟨fun q' hq' => h6 _ (a4 ▸ hq'), fun h => absurd a2 h⟩
  have hval : ∀ s, t1 = some s → CsdDesign sf nnz P t0 q ∧ P.Meets s q ∧ (∃ k, P.As.row k ⬝ᵥ q = s) ∧ s ≤ t ∧ 0 ≤ s := by
    intro s hs
    have hv := (e8 s).1 hs
    rw [hb, d2] at hv
    obtain ⟨m, hle, k, hk⟩ := hv
    refine ⟨hdes.2 (by rw [hs]; simp), ⟨m.pass, fun j => ⟨(m.stop j).1, hle j⟩, m.nonneg, m.first⟩, ⟨k, hk⟩, ?_, ?_⟩
    · rw [← hk]; exact (m.stop k).2
    · rw [← hk]; exact (m.stop k).1
  refine ⟨o', cut, q, t1, more, e1, ⟨e2.trans h1, e3, h3.trans e4, ?_, ?_, hdes.1⟩, ?_, fun s hs => ?_⟩
  · cases t1 with
    | none => exact h4
    | some s => exact (hval s rfl).2.2.2.2
  · cases t1 with
    | none => exact h5
    | some s => exact (hval s rfl).2.2.2.1.trans h5
  · cases retry with
    | true => exact .inl (by rw [(e5 rfl).2.1]; rfl)
    | false =>
      by_cases hm : o.lowpass.Meets t x
      · exact .inl (by rw [(e7 rfl hm).1]; rfl)
      · right
        obtain ⟨lp, c, t2, f1, -, -, -, -, -, -, -, -, f2, -⟩ := lowpass_call h2 (by rw [d4, d5]; exact hLU) (by rw [d2]; exact hN) x h4
        obtain ⟨lp', c', t2', g1, -, -, g2⟩ := C48_lowpass_value h2 (by rw [d4, d5]; exact hLU) (by rw [d2]; exact hN) x h4
        rw [f1] at g1
        simp only [Except.ok.injEq, Prod.mk.injEq] at g1
        obtain ⟨rfl, rfl, rfl⟩ := g1
        have : t2 = none := by
          cases t2 with
          | none => rfl
          | some s => exact absurd (g2.1 rfl) hm
        subst this
        simp only [CsdLowpass.call, CsdLowpass.prepare, f1, Bool.false_eq_true, if_false, Except.ok.injEq, Prod.mk.injEq] at e1
        rw [← e1.2.1]; exact f2
  · obtain ⟨a, b, c, d, -⟩ := hval s hs
    exact ⟨a, b, c, d⟩

/-- **C107** (verdict).  Every run of `cutting_plane_q(csdlowpass_oracle(nnz, P), E, t0)` that returns, `t0 ≥ 0`, `nnz ≥ 1`, any spectral
factorisation, any ellipsoid and options: nothing was found and `t = t0`, or the returned point is a design quantised to `nnz` signed
digits per tap that meets the whole specification at level `t ≤ t0` and attains `t` on a stopband row.  `feasible` is `t ≠ t0`. -/
theorem C107_csd_verdict (sf : (Fin n → ℝ) → Fin n → ℝ) {nnz : ℕ} (hnz : 1 ≤ nnz) {P : Lowpass n} (hI : P.Inv) (hLU : P.Lpsq ≤ P.Upsq)
    (hN : 0 < P.As.N) {E₀ E : Ell n} {opt : Options ℝ} {t0 t : ℝ} (ht0 : 0 ≤ t0) {xb : Option (Fin n → ℝ)} {info : CInfo} {w : CsdLowpass n}
    (hrun : cuttingPlaneQ (fun x t r => liftOracle (CsdLowpass.call sf x t r)) (fun x _ => x) (Ell.space (CsdLowpass n) n) t0 opt
      (⟨nnz, P, none⟩, E₀) = .ok ((w, E), xb, t, info)) :
    (xb = none ∧ t = t0 ∧ info.feasible = false) ∨
      ∃ q, xb = some q ∧ CsdDesign sf nnz P t0 q ∧ P.Meets t q ∧ (∃ k, P.As.row k ⬝ᵥ q = t) ∧ t ≤ t0 ∧ (info.feasible = true ↔ t < t0) := by
  obtain ⟨s, i, hf, -, rfl, rfl, rfl⟩ := q_ok hrun
  let Good (s : QSt (CsdLowpass n × Ell n) (Fin n → ℝ) ℝ) : Prop :=
    (s.xBest = none ∧ s.t = t0) ∨
      ∃ q, s.xBest = some q ∧ CsdDesign sf nnz P t0 q ∧ P.Meets s.t q ∧ (∃ k, P.As.row k ⬝ᵥ q = s.t) ∧ s.t ≤ t0
  have step : ∀ (s : QSt (CsdLowpass n × Ell n) (Fin n → ℝ) ℝ), Good s → CsdInv sf nnz P t0 s.w.1 s.t → ∀ w1 c x0 t1 alt,
      liftOracle (CsdLowpass.call sf ((Ell.space (CsdLowpass n) n).xc s.w) s.t (decide (s.status = .noeffect))) s.w =
      .ok (w1, c, x0, t1, alt) → Good (qAfter (fun x _ => x) s w1 x0 t1) ∧ CsdInv sf nnz P t0 w1.1 (qAfter (fun x _ => x) s w1 x0 t1).t := by
    intro s hg hi w1 c x0 t1 alt hq
    have hr : decide (s.status = .noeffect) = true → s.w.1.rcsd.isSome := by
      intro h
      cases hc : s.w.1.rcsd with
      | some q => rfl
      | none =>
        rw [h] at hq
        simp [liftOracle, CsdLowpass.call, CsdLowpass.answer, hc] at hq
    obtain ⟨o', cut, q, t1', more, e1, e2, -, e4⟩ := csd_call hnz hLU hN hi ((Ell.space (CsdLowpass n) n).xc s.w) _ hr
    simp only [liftOracle, e1, Except.ok.injEq, Prod.mk.injEq] at hq
    obtain ⟨rfl, -, rfl, rfl, -⟩ := hq
    cases t1' with
    | none => exact ⟨hg, e2⟩
    | some s' =>
      obtain ⟨a1, a2, a3, a4⟩ := e4 s' rfl
      exact ⟨.inr ⟨q, rfl, a1, a2, a3, a4.trans hi.2.2.2.2.1⟩, e2⟩
  have key : ∀ {j s1}, Rounds (qBody (fun x t r => liftOracle (CsdLowpass.call sf x t r)) (fun x _ => x) (Ell.space (CsdLowpass n) n) opt.tol) 0
      ⟨(⟨nnz, P, none⟩, E₀), none, t0, .nosoln⟩ j s1 → Good s1 ∧ CsdInv sf nnz P t0 s1.w.1 s1.t := by
    intro j s1 hr
    refine Rounds.inv (fun _ s => Good s ∧ CsdInv sf nnz P t0 s.w.1 s.t) ⟨.inl ⟨rfl, rfl⟩, rfl, hI, .refl P, ht0, le_rfl, by simp⟩ ?_ hr
    rintro j s s' ⟨hg, hi⟩ hb
    obtain ⟨w1, c, x0, t1, alt, w2, st, tsq, hq, hu, ⟨he, -⟩ | ⟨_, he, _⟩⟩ := qBody_ok hb
    · simp only [Step.cont.injEq] at he
      subst he
      obtain ⟨s1, s2⟩ := step _ hg hi _ _ _ _ _ hq
      obtain ⟨E', -, rfl⟩ : ∃ E' : Ell n, True ∧ w2 = (w1.1, E') := by
        simp only [Ell.space] at hu
        split at hu
        · simp at hu
        · simp only [Except.ok.injEq, Prod.mk.injEq] at hu
          exact ⟨_, trivial, hu.1.symm⟩
      exact ⟨s1, s2⟩
    · simp at he
  have fin : Good s := by
    rcases forRange_ok hf with ⟨s1, hi, hr, hb⟩ | ⟨hi, hr⟩
    · obtain ⟨w1, c, x0, t1, alt, w2, st, tsq, hq, hu, ⟨he, _⟩ | ⟨st', he, hcase⟩⟩ := qBody_ok hb
      · simp at he
      · simp only [Step.brk.injEq] at he
        subst he
        obtain ⟨h1, h2⟩ := key hr
        exact (step _ h1 h2 _ _ _ _ _ hq).1
    · exact (key hr).1
  rcases fin with ⟨h1, h2⟩ | ⟨q, h1, h2, h3, h4, h5⟩
  · exact .inl ⟨h1, h2, by simp [h2]⟩
  · refine .inr ⟨q, h1, h2, h3, h4, h5, ?_⟩
    simp only [ne_eq, decide_not, Bool.not_eq_true', decide_eq_false_iff_not]
    exact ⟨fun h => lt_of_le_of_ne h5 h, fun h => h.ne⟩

/-- **C107** (no stale query).  The same runs from an ellipsoid of full dimension, `max_it ≥ 1`: the run returns unless some cut is critical for
the ellipsoid (C106).  In particular the oracle itself never raises: `retry` is only asked after an evaluation point has been stored. -/
theorem C107_csd_returns (sf : (Fin n → ℝ) → Fin n → ℝ) {nnz : ℕ} (hnz : 1 ≤ nnz) {P : Lowpass n} (hI : P.Inv) (hLU : P.Lpsq ≤ P.Upsq)
    (hN : 0 < P.As.N) {E₀ : Ell n} (hE : E₀.Proper) {opt : Options ℝ} (hmax : 1 ≤ opt.maxIt) {t0 : ℝ} (ht0 : 0 ≤ t0) :
    (∃ r, cuttingPlaneQ (fun x t r => liftOracle (CsdLowpass.call sf x t r)) (fun x _ => x) (Ell.space (CsdLowpass n) n) t0 opt
      (⟨nnz, P, none⟩, E₀) = .ok r) ∨
    ∃ (k : ℕ) (s : QSt (CsdLowpass n × Ell n) (Fin n → ℝ) ℝ) (w1 : CsdLowpass n) (c : (Fin n → ℝ) × Beta) (x0 : Fin n → ℝ) (t1 : Option ℝ)
      (m : Bool), (k : ℤ) < opt.maxIt ∧
      Rounds (qBody (fun x t r => liftOracle (CsdLowpass.call sf x t r)) (fun x _ => x) (Ell.space (CsdLowpass n) n) opt.tol) 0
        ⟨(⟨nnz, P, none⟩, E₀), none, t0, .nosoln⟩ k s ∧ s.w.2.Proper ∧
      CsdLowpass.call sf s.w.2.xc s.t (decide (s.status = .noeffect)) s.w.1 = .ok (w1, c, x0, t1, m) ∧ Critical s.w.2 c := by
  have key := C106_q (Ω := CsdLowpass.call sf) (copy := fun x _ => x)
    (Inv := fun o t r => CsdInv sf nnz P t0 o t ∧ (r = true → o.rcsd.isSome)) (fun E t r w hp ⟨hi, hr⟩ => by
      obtain ⟨o', cut, q, t1, more, e1, e2, e3, -⟩ := csd_call hnz hLU hN hi E.xc r hr
      refine ⟨o', cut, q, t1, more, e1, fun E' st tsq hu => ⟨e2, fun hst => ?_⟩⟩
      rcases e3 with e3 | e3
      · exact e3
      · obtain rfl : st = .noeffect := by simpa using hst
        exact absurd hu (deep_not_noeffect hp.wf e3)) hE hmax (w₀ := ⟨nnz, P, none⟩) (t0 := t0)
    ⟨⟨rfl, hI, .refl P, ht0, le_rfl, by simp⟩, by simp⟩
  refine key.imp_right ?_
  rintro ⟨k, s, w1, c, x0, t1, m, h1, h2, -, h3, h4, h5⟩
  exact ⟨k, s, w1, c, x0, t1, m, h1, h2, h3, h4, h5⟩

/-- Squared magnitude of the frequency response of the taps `h`. -/
noncomputable def magSq (h : Fin n → ℝ) (w : ℝ) : ℝ :=
  (∑ k : Fin n, h k * Real.cos (k * w)) ^ 2 + (∑ k : Fin n, h k * Real.sin (k * w)) ^ 2

/-- **C107** (the test program).  `create_csdlowpass_case(N, nnz)` with `N ≥ 1`, `nnz ≥ 1` succeeds, and every run of `cutting_plane_q` on it
from `Spsq` that returns a point returns the autocorrelation of taps `h` with at most `nnz` nonzero signed digits each, such that on
all `15 N` sampled frequencies `1.025⁻² ≤ |H|² ≤ 1.025²` up to `0.12π` and `|H|² ≤ t` from `0.2π` on, with `t ≤ 1/64`; and between the
samples, with `G` bounding the samples of the transition band, at most `G/181` worse. -/
theorem C107_test_csdlowpass (sf : (Fin n → ℝ) → Fin n → ℝ) {nnz : ℕ} (hnz : 1 ≤ nnz) :
    ∃ P, createCsdlowpassCase n nnz = .ok (⟨nnz, P, none⟩, 1 / 64) ∧
    ∀ {E₀ E : Ell n} {opt : Options ℝ} {t : ℝ} {q : Fin n → ℝ} {info : CInfo} {w : CsdLowpass n},
      cuttingPlaneQ (fun x t r => liftOracle (CsdLowpass.call sf x t r)) (fun x _ => x) (Ell.space (CsdLowpass n) n) (1 / 64) opt
        (⟨nnz, P, none⟩, E₀) = .ok ((w, E), some q, t, info) →
      t ≤ 1 / 64 ∧ ∃ h : Fin n → ℝ, q = inverseSpectralFact h ∧
        (∀ i, ∃ s : List Char, Denotes s (h i) ∧ weight s ≤ nnz) ∧
        (∀ i < 15 * n, freq (15 * n) i ≤ 0.12 * Real.pi →
          (1.025 ^ 2)⁻¹ ≤ magSq h (freq (15 * n) i) ∧ magSq h (freq (15 * n) i) ≤ 1.025 ^ 2) ∧
        (∀ i < 15 * n, 0.20 * Real.pi ≤ freq (15 * n) i → magSq h (freq (15 * n) i) ≤ t) ∧
        ∀ G, 1.025 ^ 2 ≤ G → (∀ i < 15 * n, magSq h (freq (15 * n) i) ≤ G) →
          (∀ j < 15 * n, freq (15 * n) j ≤ 0.12 * Real.pi → ∀ v, 0 ≤ v → v ≤ freq (15 * n) j →
            (1.025 ^ 2)⁻¹ - G / 181 ≤ magSq h v ∧ magSq h v ≤ 1.025 ^ 2 + G / 181) ∧
          (∀ j < 15 * n, 0.20 * Real.pi ≤ freq (15 * n) j → ∀ v, freq (15 * n) j ≤ v → v ≤ Real.pi → magSq h v ≤ t + G / 181) := by
  obtain ⟨P, h1, hI, hAs, hL, hU, hM⟩ := C91_create_lowpass_case n
  refine ⟨P, by simp only [createCsdlowpassCase, h1], ?_⟩
  intro E₀ E opt t q info w hrun
  rcases C107_csd_verdict sf hnz hI (by rw [hL, hU]; norm_num) hAs (by norm_num) hrun with ⟨h, -⟩ | ⟨q', hq, ⟨taps, r, -, ht, rfl⟩, hm, -, hle, -⟩
  · simp at h
  simp only [Option.some.injEq] at hq
  subst hq
  have hz := (hM t _).1 hm
  have hps : ∀ v, powerSpectrum (inverseSpectralFact taps) v = magSq taps v := fun v => C52_power_spectrum taps v
  refine ⟨hle, taps, rfl, fun i => ?_, ?_, ?_, fun G hG hs => ?_⟩
  · obtain ⟨s, a, b, -⟩ := ht i
    exact ⟨s, a, b⟩
  · intro i hi hf
    rw [← hps]; exact hz.pass i hi hf
  · intro i hi hf
    rw [← hps]; exact (hz.stop i hi hf).2
  · have h64 : (1 / 64 : ℝ) ≤ 1.025 ^ 2 := by norm_num
    obtain ⟨-, k2, k3, -⟩ := C91_all_frequencies hz (by positivity) hG (hle.trans (h64.trans hG))
      (fun i hi _ _ => by rw [hps]; exact hs i hi)
    simp only [hps] at k2 k3
    exact ⟨k2, k3⟩

/-- The rows of `create_lowpass_case(N)` start with `1`. -/
theorem lowpassCase_rows {o : Lowpass n} {S0 : ℝ} (h : createLowpassCase n = .ok (o, S0)) :
    (∀ k, o.Ap.row k ≠ 0) ∧ (∀ k, o.As.row k ≠ 0) ∧ ∀ k, o.Anr.row k ≠ 0 := by
  have hrow : ∀ w, gridRow n w ≠ 0 := fun w h => by simpa [gridRow] using congrFun h 0
  unfold createLowpassCase at h
  simp only at h
  split at h
  · simp only [Except.ok.injEq, Prod.mk.injEq] at h
    obtain ⟨rfl, -⟩ := h
    exact ⟨fun k => hrow _, fun k => hrow _, fun k => hrow _⟩
  · simp at h

/-- **C107** (`run_lowpass`).  The program of `test_lowpass.py:137-151` with `N ≥ 2` coefficients, `ell(R, 0)`, `R > 0` (the test: `N = 32`,
`R = 4`), with or without parallel cuts: it returns, unless in some round the first plane of the cut exactly touches the ellipsoid or the level `0` has been reached. -/
theorem C107_run_lowpass_returns (hn : 2 ≤ n) {R : ℝ} (hR : 0 < R) (par : Bool) {o : Options ℝ} (hmax : 1 ≤ o.maxIt) :
    ∃ P E₀, createLowpassCase n = .ok (P, 1 / 64) ∧ Ell.init (.scalar R) (0 : Fin n → ℝ) = .ok E₀ ∧
    ((∃ r, cuttingPlaneDc (fun x t => liftOracle (lowpassOmega x t)) (Ell.space (Lowpass n) n) (1 / 64) o (P, { E₀ with usePar := par }) = .ok r) ∨
    ∃ (k : ℕ) (s : DcSt (Lowpass n × Ell n) (Fin n → ℝ) ℝ) (w1 : Lowpass n) (c : (Fin n → ℝ) × Beta) (t1 : Option ℝ), (k : ℤ) < o.maxIt ∧
      Rounds (dcBody (fun x t => liftOracle (lowpassOmega x t)) (Ell.space (Lowpass n) n) o.tol) 0 ⟨(P, { E₀ with usePar := par }), none, 1 / 64, .success⟩ k s ∧
      lowpassOmega s.w.2.xc s.t s.w.1 = .ok (w1, c, t1) ∧
      (t1.getD s.t = 0 ∨ ∃ b0, (c.2 = .scalar b0 ∨ ∃ b1, c.2 = .seq [b0, b1]) ∧ b0 = √(s.w.2.kappa * (c.1 ⬝ᵥ s.w.2.Q *ᵥ c.1)))) := by
  obtain ⟨P, h1, hI, hAs, hL, hU, -⟩ := C91_create_lowpass_case n
  obtain ⟨E₀, h2, hp⟩ : ∃ E₀, Ell.init (.scalar R) (0 : Fin n → ℝ) = .ok E₀ ∧ E₀.Proper := by
    have hc : c1? n = .ok ((n : ℝ) * n / ((n : ℝ) * n - 1)) := by
      have : (n : ℝ) * n - 1 ≠ 0 := by
        have : (2 : ℝ) ≤ n := by exact_mod_cast hn
        nlinarith
      simp [c1?, pyDiv, this]
    refine ⟨⟨true, false, 0, 1, R⟩, ?_, ⟨hn, Matrix.PosDef.one, hR⟩⟩
    simp [Ell.init, hc]
  exact ⟨P, E₀, h1, h2, C106_lowpass hI (by rw [hL, hU]; norm_num) hAs (lowpassCase_rows h1)
    (E₀ := { E₀ with usePar := par }) ⟨hp.dim, hp.pd, hp.kappa⟩ hmax (by norm_num)⟩

/-! ### Concrete case: two taps, one digit each -/

noncomputable def exCsd2 : Lowpass 2 :=
  { Ap := ⟨1, fun _ => ![1, 0]⟩, As := ⟨1, fun _ => ![1, -1]⟩, Anr := ⟨0, fun i => i.elim0⟩, Lpsq := 1 / 8, Upsq := 1 }

/-- One round from the autocorrelation `r = (25/32, 25/64)` of the taps `(5/8, 5/8)` (which are what the factorisation returns): the taps are
quantised to `(1/2, 1/2)` and the level improves from `1/2` to `1/4`. -/
theorem C107_example : ∃ w E info,
    inverseSpectralFact (fun _ : Fin 2 => (5 / 8 : ℝ)) = ![25 / 32, 25 / 64] ∧
    cuttingPlaneQ (fun x t r => liftOracle (CsdLowpass.call (fun _ _ => 5 / 8) x t r)) (fun x _ => x) (Ell.space (CsdLowpass 2) 2) (1 / 2)
      ⟨1, 1e-8⟩ (⟨1, exCsd2, none⟩, ⟨true, false, ![25 / 32, 25 / 64], 1, 4⟩) = .ok ((w, E), some ![1 / 2, 1 / 4], 1 / 4, info) := by
  have hseq : seqFin (fun _ : Fin 2 => csdTap 1 (5 / 8)) = .ok (fun _ => 1 / 2) := seqFin_ok _ _ fun _ => exCsdLp_tap
  have hinv : ∀ a : ℝ, inverseSpectralFact (fun _ : Fin 2 => a) = ![2 * a ^ 2, a ^ 2] := by
    intro a
    funext i
    fin_cases i <;> simp [inverseSpectralFact, lagDot, List.ofFn_succ] <;> ring
  have hinv2 : inverseSpectralFact (fun _ : Fin 2 => (1 / 2 : ℝ)) = ![1 / 2, 1 / 4] := by rw [hinv]; norm_num
  have hcall : ∀ (m : Bool) (a b : ℝ), 1 / 8 ≤ a → a ≤ 1 → 0 ≤ a - b → a - b ≤ 1 / 2 →
      Lowpass.call ![a, b] (1 / 2) { exCsd2 with moreAlt := m } =
      .ok ({ exCsd2 with moreAlt := false }, (![1, -1], .seq [0, a - b]), some (a - b)) := by
    intro m a b h1 h2 h3 h4
    have d1 : (![1, 0] : Fin 2 → ℝ) ⬝ᵥ ![a, b] = a := by simp [dotProduct, Fin.sum_univ_two]
    have d2 : (![1, -1] : Fin 2 → ℝ) ⬝ᵥ ![a, b] = a - b := by simp [dotProduct, Fin.sum_univ_two]; ring
    have h0 : ¬ a < 0 := by linarith
    simp only [Lowpass.call, exCsd2, scanOrder, List.range', List.range_zero, List.append_nil, Nat.sub_zero, passScan,
      Lowpass.call2, stopScan, Band.get, zero_lt_one, dite_true, d1, d2, not_lt.2 h1, not_lt.2 h2, not_lt.2 h3, not_lt.2 h4, if_false,
      Lowpass.call3, nonnegScan, Lowpass.finish, WithBot.bot_lt_coe, if_true, cons_val_zero, h0]
    rfl
  have hC : CsdLowpass.call (fun _ _ => 5 / 8) ![25 / 32, 25 / 64] (1 / 2) false ⟨1, exCsd2, none⟩ =
      .ok (⟨1, { exCsd2 with moreAlt := false }, some ![1 / 2, 1 / 4]⟩, (![1, -1], .seq [-9 / 64, 7 / 64]), ![1 / 2, 1 / 4], some (1 / 4),
        false) := by
    have c1 := hcall true (25 / 32) (25 / 64) (by norm_num) (by norm_num) (by norm_num) (by norm_num)
    have c2 := hcall false (1 / 2) (1 / 4) (by norm_num) (by norm_num) (by norm_num) (by norm_num)
    have c1' : Lowpass.call ![25 / 32, 25 / 64] (1 / 2) exCsd2 = _ := c1
    simp only [CsdLowpass.call, CsdLowpass.prepare, c1', Bool.false_eq_true, if_false, hseq, hinv2, CsdLowpass.answer, c2, Bool.false_and]
    have e : (![1, -1] : Fin 2 → ℝ) ⬝ᵥ (![1 / 2, 1 / 4] - ![25 / 32, 25 / 64]) = -9 / 64 := by
      simp [dotProduct, Fin.sum_univ_two]; norm_num
    rw [e]
    norm_num [Beta.shift]
  have hp : (⟨true, false, ![25 / 32, 25 / 64], 1, 4⟩ : Ell 2).Proper := ⟨le_rfl, Matrix.PosDef.one, by norm_num⟩
  obtain ⟨E', st, tsq, hu, -⟩ := C106_update _ hp (c := (![1, -1], .seq [-9 / 64, 7 / 64])) (by
    have hτ : 1 ≤ √(4 * ((![1, -1] : Fin 2 → ℝ) ⬝ᵥ (1 : Matrix (Fin 2) (Fin 2) ℝ) *ᵥ ![1, -1])) := by
      rw [Real.one_le_sqrt]
      simp [dotProduct, Fin.sum_univ_two]; norm_num
    rintro (h | h)
    · simpa using congrFun h 0
    · simp only [criticalBeta] at h
      rw [if_neg] at h
      · rcases h with h | h | h
        · norm_num at h
        · linarith
        · norm_num at h
      · rintro (hm | hm)
        · rw [abs_of_pos (by norm_num)] at hm
          linarith
        · simp at hm)
  refine ⟨⟨1, { exCsd2 with moreAlt := false }, some ![1 / 2, 1 / 4]⟩, E', ⟨true, 1, if st = .noeffect then st else if st = .nosoln then st else
    if tsq < 1e-8 then .smallenough else st⟩, ?_, ?_⟩
  · rw [hinv]; norm_num
  · have hd : decide (CUTStatus.nosoln = CUTStatus.noeffect) = false := rfl
    simp only [cuttingPlaneQ, forRange, Int.toNat_one, forLoop, qBody, hd, liftOracle, hC, Ell.space, hu, and_true]
    split_ifs <;> simp [readVar]

/-- C107 applies to it. -/
example {opt : Options ℝ} (hmax : 1 ≤ opt.maxIt) := C107_csd_returns (nnz := 1) (fun _ _ => 5 / 8) le_rfl (P := exCsd2)
  ⟨Nat.zero_le _, Nat.zero_le _, Nat.zero_le _⟩ (by norm_num [exCsd2]) (by norm_num [exCsd2])
  (E₀ := ⟨true, false, ![25 / 32, 25 / 64], 1, 4⟩) ⟨le_rfl, Matrix.PosDef.one, by norm_num⟩ hmax (t0 := 1 / 2) (by norm_num)

end Verif
