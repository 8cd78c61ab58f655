import Verif.Proofs.Float
import Verif.Props.RoomFloat

/-!
# C143: rounded runs of an oracle that is only right for some levels and some centres

The centre and the level of a rounded run are representable, and an oracle may rely on it.
-/
namespace Verif
open Matrix MeasureTheory Ell FloatSpec
variable {n p : ℕ} {W T : Type _} {E₀ : Ell n} {fl : ℝ → ℝ} {dot : (Fin n → ℝ) → (Fin n → ℝ) → ℝ}

/-- All entries are representable. -/
def VecRep (p : ℕ) (x : Fin n → ℝ) : Prop := ∀ i, Rep p (x i)

/-- The centre stays representable. -/
theorem updateF_rep (hfl : Nearest p fl) {c : (Fin n → ℝ) × Beta} {E E' : Ell n} {st : CUTStatus} {tsq : ℝ} (h : updateF fl dot c E = .ok (E', st, tsq))
    (hE : VecRep p E.xc) : VecRep p E'.xc := by
  simp only [updateF] at h
  split at h
  · simp at h
  · simp only [Except.ok.injEq, Prod.mk.injEq] at h
    rwa [← h.1]
  · split at h
    · split at h <;> simp only [Except.ok.injEq, Prod.mk.injEq] at h <;> rw [← h.1] <;> exact fun i => (hfl _).1
    · simp at h

/-- The oracle restricted to representable centres and the levels `Lev`. -/
noncomputable def guarded (p : ℕ) (Lev : T → Prop) (Ω : (Fin n → ℝ) → T → W → Except PyErr (W × ((Fin n → ℝ) × Beta) × Option T))
    (x : Fin n → ℝ) (t : T) (w : W) : Except PyErr (W × ((Fin n → ℝ) × Beta) × Option T) :=
  open Classical in if VecRep p x ∧ Lev t then Ω x t w else .error .oracle

theorem guarded_eq {Lev : T → Prop} (Ω : (Fin n → ℝ) → T → W → Except PyErr (W × ((Fin n → ℝ) × Beta) × Option T)) {x : Fin n → ℝ} {t : T}
    (hx : VecRep p x) (ht : Lev t) : guarded p Lev Ω x t = Ω x t := by
  funext w
  simp only [guarded, if_pos (And.intro hx ht)]

section
variable {Lev : T → Prop} {Ω : (Fin n → ℝ) → T → W → Except PyErr (W × ((Fin n → ℝ) × Beta) × Option T)} {t0 : T} {w₀ : W}
  (hfl : Nearest p fl) (hlev : ∀ x t w w' c s, VecRep p x → Lev t → Ω x t w = .ok (w', c, some s) → Lev s) (hx₀ : VecRep p E₀.xc) (ht0 : Lev t0)
include hfl hlev hx₀ ht0

/-- A run from a representable centre and an admissible level does not notice the guard; what is returned was reported at a representable centre for an
admissible level. -/
theorem dc_guarded [DecidableEq T] (o : Options ℝ) :
    cuttingPlaneDc (fun x t => liftOracle (guarded p Lev Ω x t)) ((Ell.spaceF fl dot).beside W) t0 o (w₀, E₀) =
      cuttingPlaneDc (fun x t => liftOracle (Ω x t)) ((Ell.spaceF fl dot).beside W) t0 o (w₀, E₀) ∧
    ∀ w' xb t info, cuttingPlaneDc (fun x t => liftOracle (Ω x t)) ((Ell.spaceF fl dot).beside W) t0 o (w₀, E₀) = .ok (w', xb, t, info) →
      Lev t ∧ ((xb = none ∧ t = t0) ∨ ∃ x s w w1 c, xb = some x ∧ VecRep p x ∧ Lev s ∧ Ω x s w = .ok (w1, c, some t)) := by
  let S := (Ell.spaceF fl dot).beside W
  let R : DcSt (W × Ell n) (Fin n → ℝ) T → DcSt (W × Ell n) (Fin n → ℝ) T → Prop := fun s1 s2 => s1 = s2 ∧ VecRep p s1.w.2.xc ∧ Lev s1.t ∧
    ((s1.xBest = none ∧ s1.t = t0) ∨ ∃ x s w w1 c, s1.xBest = some x ∧ VecRep p x ∧ Lev s ∧ Ω x s w = .ok (w1, c, some s1.t))
  have hb : ∀ i s1 s2, R s1 s2 → RelE (RelStep R) (dcBody (fun x t => liftOracle (guarded p Lev Ω x t)) S o.tol i s1) (dcBody (fun x t => liftOracle (Ω x t)) S o.tol i s2) := by
    rintro i ⟨⟨w, E⟩, xb, t, st⟩ _ ⟨rfl, hx, ht, hb⟩
    dsimp only at hx ht hb
    have e : S.xc (w, E) = E.xc := rfl
    simp only [dcBody, e, guarded_eq Ω hx ht]
    simp only [liftOracle]
    cases hq : Ω E.xc t w with
    | error e => exact rfl
    | ok r =>
      obtain ⟨w1, c, t1⟩ := r
      dsimp only
      cases hu : updateF fl dot c E with
      | error e =>
        have : S.update c (w1, E) = .error e := by simp only [S, Space.beside, Ell.spaceF, hu]
        simp only [this]
        exact rfl
      | ok r =>
        obtain ⟨E', st', tsq⟩ := r
        have : S.update c (w1, E) = .ok ((w1, E'), st', tsq) := by simp only [S, Space.beside, Ell.spaceF, hu]
        simp only [this]
        have hx' := updateF_rep hfl hu hx
        have e2 : S.xc (w1, E) = E.xc := rfl
        cases t1 with
        | none =>
          dsimp only
          split_ifs <;> exact ⟨rfl, hx', ht, hb⟩
        | some s =>
          have hs := hlev _ _ _ _ _ _ hx ht hq
          dsimp only
          split_ifs <;> exact ⟨rfl, hx', hs, .inr ⟨_, _, _, _, _, rfl, hx, ht, hq⟩⟩
  have key := forLoop_sim R hb o.maxIt.toNat 0 none ⟨(w₀, E₀), none, t0, .success⟩ ⟨(w₀, E₀), none, t0, .success⟩ ⟨rfl, hx₀, ht0, .inl ⟨rfl, rfl⟩⟩
  simp only [cuttingPlaneDc, forRange]
  revert key
  cases h1 : forLoop (dcBody (fun x t => liftOracle (guarded p Lev Ω x t)) S o.tol) o.maxIt.toNat 0 none ⟨(w₀, E₀), none, t0, .success⟩ with
  | error e =>
    cases h2 : forLoop (dcBody (fun x t => liftOracle (Ω x t)) S o.tol) o.maxIt.toNat 0 none ⟨(w₀, E₀), none, t0, .success⟩ with
    | error e' => rintro rfl; exact ⟨rfl, by simp⟩
    | ok b => exact fun h => h.elim
  | ok a =>
    cases h2 : forLoop (dcBody (fun x t => liftOracle (Ω x t)) S o.tol) o.maxIt.toNat 0 none ⟨(w₀, E₀), none, t0, .success⟩ with
    | error e' => exact fun h => h.elim
    | ok b =>
      obtain ⟨a1, a2⟩ := a
      obtain ⟨b1, b2⟩ := b
      rintro ⟨⟨k1, -, k3, k4⟩, k5⟩
      dsimp only at k1 k3 k4 k5
      subst k1 k5
      refine ⟨rfl, fun w' xb t info h => ?_⟩
      dsimp only at h
      cases h3 : readVar a2 with
      | error e => simp [h3] at h
      | ok j =>
        simp only [h3, Except.ok.injEq, Prod.mk.injEq] at h
        obtain ⟨-, rfl, rfl, -⟩ := h
        exact ⟨k3, k4⟩

/-- Likewise its rounds. -/
theorem rounds_guarded {tol : ℝ} {k : ℕ} {log : _} {v : W × Ell n}
    (h : DcRounds (fun x t => liftOracle (guarded p Lev Ω x t)) ((Ell.spaceF fl dot).beside W) tol t0 (w₀, E₀) k log v) :
    DcRounds (fun x t => liftOracle (Ω x t)) ((Ell.spaceF fl dot).beside W) tol t0 (w₀, E₀) k log v ∧ VecRep p v.2.xc ∧ Lev (bestT t0 log) := by
  induction h with
  | nil => exact ⟨.nil, hx₀, ht0⟩
  | @snoc k l w w1 w2 c t1 tsq hr hq hu htol ih =>
    obtain ⟨i1, i2, i3⟩ := ih
    have hq' : liftOracle (Ω w.2.xc (bestT t0 l)) w = .ok (w1, c, t1) := by rw [← guarded_eq Ω i2 i3]; exact hq
    obtain ⟨r1, r2, r3⟩ := round_split_dc hq' hu
    refine ⟨.snoc i1 hq' hu htol, updateF_rep hfl r2 i2, ?_⟩
    rw [bestT_snoc]
    cases t1 with
    | none => exact i3
    | some s => exact hlev _ _ _ _ _ _ i2 i3 r1
end

/-- What an oracle has to do at representable points of a box while the level is bad: raise nothing, and cut with room `κ` for all points of `K` if the new level is bad as well.
Good levels are not given up. -/
structure LevelCuts (p : ℕ) (K : Set (Fin n → ℝ)) (Lev Bad : T → Prop) (R κ : ℝ) (Inv : W → Prop)
    (Ω : (Fin n → ℝ) → T → W → Except PyErr (W × ((Fin n → ℝ) × Beta) × Option T)) : Prop where
  lev : ∀ x t w w' c s, VecRep p x → Lev t → Ω x t w = .ok (w', c, some s) → Lev s ∧ (Bad s → Bad t)
  cuts : ∀ x, VecRep p x → (∀ i, |x i| ≤ R) → ∀ t w, Inv w → Lev t → Bad t → ∃ w' g β t1, Ω x t w = .ok (w', (g, .scalar β), t1) ∧ Inv w' ∧ 0 ≤ β ∧
    (Bad (t1.getD t) → ∀ z ∈ K, g ⬝ᵥ (z - x) + β ≤ -κ)

/-- **C143** (levels).  A ball `K` of radius `r > 0` inside the first ellipsoid and `κ > 0`.  There are an `N`, a box of size `R`, a precision and a tolerance, none of them zero, such that for
every oracle with `LevelCuts`, rounding to nearest with `p` bits, started at a representable centre: a run with `max_it ≥ N` that returns has a level that is not bad; and if the start
level is bad, a level that is not is reported within `N` oracle calls, before which nothing is raised, at a representable point of the box. -/
theorem C143_levels [DecidableEq T] (hE : E₀.Proper) {c : Fin n → ℝ} {r κ : ℝ} (hr : 0 < r) (hκ : 0 < κ) (hin : euclBall c r ⊆ E₀.pts) :
    ∃ (N : ℕ) (R ε₀ tol₀ : ℝ), 0 ≤ R ∧ (∀ z ∈ euclBall c r, ∀ i, |z i| ≤ R) ∧ 0 < ε₀ ∧ 0 < tol₀ ∧ ∀ u, 0 ≤ u → u ≤ ε₀ → ∀ p fl dot, Nearest p fl → RelErr u fl → VecDotErr u dot →
      ∀ tol, tol ≤ tol₀ → ∀ (Lev Bad : T → Prop) (Inv : W → Prop) (Ω : (Fin n → ℝ) → T → W → Except PyErr (W × ((Fin n → ℝ) × Beta) × Option T)),
      LevelCuts p (euclBall c r) Lev Bad R κ Inv Ω → VecRep p E₀.xc → ∀ w₀, Inv w₀ → ∀ t0, Lev t0 →
    (∀ m : Int, (N : Int) ≤ m → ∀ w' xb t info, cuttingPlaneDc (fun x t => liftOracle (Ω x t)) ((Ell.spaceF fl dot).beside W) t0 ⟨m, tol⟩ (w₀, E₀) =
      .ok (w', xb, t, info) → ¬ Bad t) ∧
    (Bad t0 → ∃ (k : ℕ) (log : _) (v : W × Ell n) (w' : W) (cut : _) (s : T), k < N ∧
      DcRounds (fun x t => liftOracle (Ω x t)) ((Ell.spaceF fl dot).beside W) tol t0 (w₀, E₀) k log v ∧ Inv v.1 ∧ (∀ i, |v.2.xc i| ≤ R) ∧ VecRep p v.2.xc ∧
      Lev (bestT t0 log) ∧ Bad (bestT t0 log) ∧ Ω v.2.xc (bestT t0 log) v.1 = .ok (w', cut, some s) ∧ ¬ Bad s) := by
  have hKA : ∀ z ∈ euclBall c r, ∀ i, |z i| ≤ ∑ i, |c i| + r := fun z hz i => (ball_coord hr.le hz i).trans
    (by have := Finset.single_le_sum (f := fun i => |c i|) (fun i _ => abs_nonneg _) (Finset.mem_univ i); linarith)
  have hpos : 0 < volume.real (euclBall c r ∩ E₀.pts) := by
    rw [Set.inter_eq_left.2 hin, vol_ball hE.dim hr]
    have := euclBall_real_pos (n := n)
    positivity
  have hcm : c ∈ euclBall c r := by
    change ∑ i, (c i - c i) ^ 2 ≤ r ^ 2; simp; positivity
  obtain ⟨N, L, ε₀, hε₀, C, η', θ', l, q, L₀, v', hS⟩ := C134_precise hE hKA hpos
  set R := ∑ i, |c i| + r + √L with hR
  have hA0 : 0 ≤ ∑ i, |c i| := Finset.sum_nonneg fun i _ => abs_nonneg _
  refine ⟨N, R, ε₀, 199 / 200 * κ ^ 2, by positivity, fun z hz i => (hKA z hz i).trans (by rw [hR]; linarith [Real.sqrt_nonneg L]), hε₀, by positivity, ?_⟩
  intro u hu0 hu p fl dot hn hfl hdot tol htol Lev Bad Inv Ω hΩ hx₀ w₀ hw₀ t0 ht0
  have hdot' : VecDotErr ε₀ dot := fun x y => (hdot x y).trans (mul_le_mul_of_nonneg_right hu (Finset.sum_nonneg fun i _ => abs_nonneg _))
  have hlev := fun x t w w' c s h1 h2 h3 => (hΩ.lev x t w w' c s h1 h2 h3).1
  have hkeep : DcKeepsNear N (euclBall c r) {x | ∀ i, |x i| ≤ R} (fun _ => Inv) Bad (fun e => e = .oracle) tol ε₀ (guarded p Lev Ω) := by
    constructor
    · intro x t w w' cut t1 hq h
      by_cases hg : VecRep p x ∧ Lev t
      · simp only [guarded, if_pos hg] at hq
        cases t1 with
        | none => exact h
        | some s => exact (hΩ.lev _ _ _ _ _ _ hg.1 hg.2 hq).2 h
      · simp [guarded, if_neg hg] at hq
    · intro k _ x hx t w hw hbad
      by_cases hg : VecRep p x ∧ Lev t
      · obtain ⟨w', g, β, t1, e1, e0, e2, e3⟩ := hΩ.cuts x hg.1 hx t w hw hg.2 hbad
        refine .inr ⟨w', g, β, t1, by simp only [guarded, if_pos hg, e1], fun hbad => ⟨e0, ?_⟩⟩
        have key := e3 hbad
        refine ⟨fun h0 => ?_, fun z hz => ?_⟩
        · dsimp only at h0
          have := key c hcm
          rw [h0, zero_dotProduct] at this
          linarith
        · dsimp only
          have h5 := key z hz
          rw [max_eq_left e2]
          refine ⟨by linarith, htol.trans ?_, ?_⟩
          · have : κ ^ 2 ≤ (g ⬝ᵥ (z - x)) ^ 2 := by
              rw [← neg_sq (g ⬝ᵥ (z - x))]
              exact pow_le_pow_left₀ (by linarith) (by linarith) 2
            linarith
          · have h8 := mul_nonneg hε₀.le (abs_nonneg (g ⬝ᵥ (z - x)))
            have h9 := mul_nonneg (Nat.cast_nonneg (α := ℝ) n) e2
            linarith
      · exact .inl ⟨_, rfl, by simp only [guarded, if_neg hg]⟩
  obtain ⟨r1, r2⟩ := C138_dc (t0 := t0) (w₀ := w₀) (hS ε₀ u hu0 hu le_rfl {x | ∀ i, |x i| ≤ R} fun x hx i => hx i) hE hfl hu0 hu hdot' hkeep hw₀
  refine ⟨fun m hm w' xb t info h => r1 m hm w' xb t info ?_, fun hbad => ?_⟩
  · rw [(dc_guarded hn hlev hx₀ ht0 _).1]
    exact h
  obtain ⟨k, log, v, q1, q2, q3, q4, q5, q6⟩ := r2 hbad
  obtain ⟨s1, s2, s3⟩ := rounds_guarded hn hlev hx₀ ht0 q5
  rw [guarded_eq Ω s2 s3] at q6
  rcases q6 with ⟨w', cut, t1, q6, q7⟩ | ⟨e, -, q6⟩
  · cases t1 with
    | none => exact absurd q4 q7
    | some s => exact ⟨k, log, v, w', cut, s, q1, s1, q3, q2, s2, s3, q4, q6, q7⟩
  · obtain ⟨w', g, β, t1, e1, -⟩ := hΩ.cuts _ s2 q2 _ _ q3 s3 q4
    rw [e1] at q6
    simp at q6

end Verif
