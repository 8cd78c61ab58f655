import Verif.Model.SdpFloat
import Verif.Proofs.LsqFloat
import Verif.Props.LmiFloatRun
import Verif.Props.RoomFloat
import Verif.Props.Sdp
import Verif.Props.AdaptorFloat

/-!
# C141: semidefinite programs with every operation rounded

`cutting_plane_dc` with the oracle of `tests/test_lmi.py` and `ell`: two linear matrix inequalities and a linear objective, every operation of the oracle, of the factorizations and of the
ellipsoid rounded.
-/
namespace Verif
open Matrix MeasureTheory Ell FloatSpec
variable {k m m1 m2 : ℕ} {u η R : ℝ} {fl : ℝ → ℝ} {dot : ℕ → ℕ → (ℕ → ℝ) → (ℕ → ℝ) → ℝ} {vdot : (Fin k → ℝ) → (Fin k → ℝ) → ℝ}
  {F1 F2 : Fin k → ℕ → ℕ → ℝ} {B1 B2 : ℕ → ℕ → ℝ} {c : Fin k → ℝ}

/-- The rounding error of one matrix inequality in a box of size `R`. -/
noncomputable def lmiUnit (F : Fin k → ℕ → ℕ → ℝ) (B : ℕ → ℕ → ℝ) (m : ℕ) (R u : ℝ) : ℝ :=
  (145 * u + ((1 + u) ^ (k + 2) - 1)) * m * (entrySum F B m * (1 + R))

theorem lmiUnit_nonneg (F : Fin k → ℕ → ℕ → ℝ) (B : ℕ → ℕ → ℝ) (m : ℕ) (hR : 0 ≤ R) (hu : 0 ≤ u) : 0 ≤ lmiUnit F B m R u := by
  have h1 := one_le_pow₀ (show 1 ≤ 1 + u by linarith) (n := k + 2)
  have h2 := entrySum_nonneg F B m
  have h3 : 0 ≤ 145 * u + ((1 + u) ^ (k + 2) - 1) := by linarith
  unfold lmiUnit
  positivity

/-- **C141** (one inequality).  A rounded `lmi_oracle` at a point of a box of size `R` raises nothing.  If it accepts the point, the inequality holds there up to `lmiUnit`.  A cut it returns is
central or deep and keeps the points of the box where the inequality holds with a margin `δ ≥ lmiUnit`, with room `δ - lmiUnit`. -/
theorem C141_lmi {F : Fin k → ℕ → ℕ → ℝ} {B : ℕ → ℕ → ℝ} (hF : ∀ q, SymOn (F q) m) (hB : SymOn B m) (hfl : RelErr u fl) (hu0 : 0 ≤ u) (hu : u ≤ 1 / 50) (hη : (1 + u) ^ (k + 2) ≤ 11 / 10)
    (hdot : DotErr u m dot) (hR : 0 ≤ R) {x : Fin k → ℝ} (hx : ∀ q, |x q| ≤ R) {Q : CholExt ℝ} (hQ : Ready m Q) :
    ∃ Q' r, lmiCallF fl dot F B m x Q = .ok (Q', r) ∧ Ready m Q' ∧ (r = none → AtLeast (-lmiUnit F B m R u) (pencil F B x) m) ∧
      ∀ g ep, r = some (g, ep) → 0 ≤ ep ∧ ∀ z, (∀ q, |z q| ≤ R) → ∀ δ, lmiUnit F B m R u ≤ δ → AtLeast δ (pencil F B z) m → g ⬝ᵥ (z - x) + ep ≤ lmiUnit F B m R u - δ := by
  set M := entrySum F B m * (1 + R) with hM
  have hM0 : 0 ≤ M := mul_nonneg (entrySum_nonneg F B m) (by linarith)
  have hbox : ∀ z : Fin k → ℝ, (∀ q, |z q| ≤ R) → ∀ i < m, ∀ j < m, absPencil F B z i j ≤ M := fun z hz i hi j hj => pencil_abs_le F B hi hj hz hR
  have hη1 := one_le_pow₀ (show 1 ≤ 1 + u by linarith) (n := k + 2)
  obtain ⟨Q', r, h1, h2, h3⟩ := C132_cut (η := (1 + u) ^ (k + 2) - 1) hF hB x hQ hfl hu0 hu0 hdot (by linarith) (by linarith) (by linarith) hM0 (hbox x hx)
  obtain ⟨Q1, r1, g1, -, g3, -⟩ := C115_lmi (F := F) (B := B) (η := (1 + u) ^ (k + 2) - 1) hF hB x (Q := Q) hQ hfl hu0 (by linarith) hu0 hdot (by linarith) (by linarith)
  rw [h1] at g1
  obtain ⟨rfl, rfl⟩ : Q' = Q1 ∧ r = r1 := by simpa using g1
  have he : (29 * (3 * u + 2 * u) + ((1 + u) ^ (k + 2) - 1)) * m * M = lmiUnit F B m R u := by rw [lmiUnit, hM]; ring
  rw [he] at h3
  refine ⟨Q', r, h1, h2, fun hr => ?_, fun g ep hr => ?_⟩
  · have := near_atLeast (P := absPencil F B x) (fun i hi => (le_abs_self _).trans (abs_pencil_le F B x i i)) (hbox x hx) (show 0 ≤ 3 * u + 2 * u by linarith)
      (show 0 ≤ (1 + u) ^ (k + 2) - 1 by linarith) hM0 (g3 hr)
    refine this.mono (neg_le_neg ?_)
    rw [← he]
    refine mul_le_mul_of_nonneg_right (mul_le_mul_of_nonneg_right ?_ (Nat.cast_nonneg m)) hM0
    have := mul_le_mul_of_nonneg_left hη (show 0 ≤ 5 / 4 * (3 * u + 2 * u) by linarith)
    rw [show 1 + ((1 + u) ^ (k + 2) - 1) = (1 + u) ^ (k + 2) by ring]
    linarith
  · obtain ⟨a1, a2⟩ := h3 g ep hr
    exact ⟨a1, fun z hz δ hδ hzd => (a2 z (hbox z hz) δ hδ hzd).trans (by linarith)⟩

/-- The rounding error of the program in a box of size `R`. -/
noncomputable def sdpUnit (F1 : Fin k → ℕ → ℕ → ℝ) (B1 : ℕ → ℕ → ℝ) (m1 : ℕ) (F2 : Fin k → ℕ → ℕ → ℝ) (B2 : ℕ → ℕ → ℝ) (m2 : ℕ) (c : Fin k → ℝ) (R u : ℝ) : ℝ :=
  lmiUnit F1 B1 m1 R u + lmiUnit F2 B2 m2 R u + 4 * u * ((∑ i, |c i|) * R)

theorem dot_box {x : Fin k → ℝ} (hx : ∀ i, |x i| ≤ R) : ∑ i, |c i * x i| ≤ (∑ i, |c i|) * R := by
  rw [Finset.sum_mul]
  exact Finset.sum_le_sum fun i _ => by rw [abs_mul]; exact mul_le_mul_of_nonneg_left (hx i) (abs_nonneg _)

theorem dot_box_abs {x : Fin k → ℝ} (hx : ∀ i, |x i| ≤ R) : |c ⬝ᵥ x| ≤ (∑ i, |c i|) * R :=
  (Finset.abs_sum_le_sum_abs _ _).trans (dot_box hx)

/-- **C141** (one call).  A rounded call of the oracle at a point of a box of size `R` raises nothing.  Its cut is central or deep and keeps the points of the box with room `δ ≥ sdpUnit` and an
objective `δ` below the level, with room `δ - sdpUnit`.  A level it reports is the rounded objective of the point, is no worse than the one given, and both inequalities hold at the point up to
`sdpUnit`. -/
theorem C141_oracle (hF1 : ∀ q, SymOn (F1 q) m1) (hB1 : SymOn B1 m1) (hF2 : ∀ q, SymOn (F2 q) m2) (hB2 : SymOn B2 m2) (hfl : RelErr u fl) (hu0 : 0 ≤ u) (hu : u ≤ 1 / 50)
    (hη : (1 + u) ^ (k + 2) ≤ 11 / 10) (hd1 : DotErr u m1 dot) (hd2 : DotErr u m2 dot) (hv : VecDotErr u vdot) (hR : 0 ≤ R) {x : Fin k → ℝ} (hx : ∀ q, |x q| ≤ R) (t : WithTop ℝ)
    {Q : CholExt ℝ × CholExt ℝ} (h1 : Ready m1 Q.1) (h2 : Ready m2 Q.2) :
    ∃ Q' g β t1, sdpLazyF fl dot vdot F1 B1 m1 F2 B2 m2 c x t Q = .ok (Q', (g, .scalar β), t1) ∧ (Ready m1 Q'.1 ∧ Ready m2 Q'.2) ∧ 0 ≤ β ∧
      (∀ z, (∀ i, |z i| ≤ R) → ∀ δ, sdpUnit F1 B1 m1 F2 B2 m2 c R u ≤ δ → SdpRoom F1 B1 m1 F2 B2 m2 z δ → ((c ⬝ᵥ z + δ : ℝ) : WithTop ℝ) ≤ t1.getD t →
        g ⬝ᵥ (z - x) + β ≤ sdpUnit F1 B1 m1 F2 B2 m2 c R u - δ) ∧
      ∀ s, t1 = some s → s = ((vdot c x : ℝ) : WithTop ℝ) ∧ s ≤ t ∧ SdpRoom F1 B1 m1 F2 B2 m2 x (-sdpUnit F1 B1 m1 F2 B2 m2 c R u) := by
  have u1 := lmiUnit_nonneg F1 B1 m1 hR hu0
  have u2 := lmiUnit_nonneg F2 B2 m2 hR hu0
  have hC : 0 ≤ (∑ i, |c i|) * R := mul_nonneg (Finset.sum_nonneg fun i _ => abs_nonneg _) hR
  have u3 : 0 ≤ u * ((∑ i, |c i|) * R) := mul_nonneg hu0 hC
  set U := sdpUnit F1 B1 m1 F2 B2 m2 c R u with hU
  have hU' : U = lmiUnit F1 B1 m1 R u + lmiUnit F2 B2 m2 R u + 4 * (u * ((∑ i, |c i|) * R)) := by rw [hU, sdpUnit]; ring
  obtain ⟨Q1', r1, a1, a2, a3, a4⟩ := C141_lmi hF1 hB1 hfl hu0 hu hη hd1 hR hx h1
  unfold sdpLazyF sdpCallF
  simp only [a1]
  cases r1 with
  | some cut =>
    obtain ⟨b1, b2⟩ := a4 cut.1 cut.2 rfl
    exact ⟨_, _, _, _, rfl, ⟨a2, h2⟩, b1, fun z hz δ hδ hr _ => (b2 z hz δ (by linarith) hr.1).trans (by linarith), by simp⟩
  | none =>
    obtain ⟨Q2', r2, b1, b2, b3, b4⟩ := C141_lmi hF2 hB2 hfl hu0 hu hη hd2 hR hx h2
    simp only [b1]
    cases r2 with
    | some cut =>
      obtain ⟨d1, d2⟩ := b4 cut.1 cut.2 rfl
      exact ⟨_, _, _, _, rfl, ⟨a2, b2⟩, d1, fun z hz δ hδ hr _ => (d2 z hz δ (by linarith) hr.2).trans (by linarith), by simp⟩
    | none =>
      have hroom : SdpRoom F1 B1 m1 F2 B2 m2 x (-U) := ⟨(a3 rfl).mono (by linarith), (b3 rfl).mono (by linarith)⟩
      have hdv := (hv c x).trans (mul_le_mul_of_nonneg_left (dot_box hx) hu0)
      rw [abs_le] at hdv
      have hlow : ∀ z : Fin k → ℝ, (∀ i, |z i| ≤ R) → ∀ δ, U ≤ δ → c ⬝ᵥ z + δ ≤ vdot c x → c ⬝ᵥ (z - x) + 0 ≤ U - δ := fun z _ δ _ h => by
        rw [dotProduct_sub]; linarith
      induction t using WithTop.recTopCoe with
      | top =>
        refine ⟨_, _, _, _, rfl, ⟨a2, b2⟩, le_rfl, fun z hz δ hδ _ h => hlow z hz δ hδ (WithTop.coe_le_coe.1 h), ?_⟩
        rintro s hs
        obtain rfl := Option.some.inj hs
        exact ⟨rfl, le_top, hroom⟩
      | coe t =>
        have he := abs_le.1 (hfl (vdot c x - t))
        simp only
        split_ifs with h
        · refine ⟨_, _, _, _, rfl, ⟨a2, b2⟩, h.le, fun z hz δ hδ _ h' => ?_, by simp⟩
          have h' : c ⬝ᵥ z + δ ≤ t := WithTop.coe_le_coe.1 h'
          have hz' := abs_le.1 (dot_box_abs (c := c) hz)
          have hx' := abs_le.1 (dot_box_abs (c := c) hx)
          rw [dotProduct_sub]
          have hup : u * |vdot c x - t| ≤ u * (3 * ((∑ i, |c i|) * R)) := by
            refine mul_le_mul_of_nonneg_left ?_ hu0
            have hpos : 0 ≤ vdot c x - t := by
              by_contra hn
              rw [abs_of_neg (not_le.1 hn)] at he
              have := mul_nonneg (show 0 ≤ 1 - u by linarith) (show 0 ≤ -(vdot c x - t) by linarith)
              linarith
            rw [abs_of_nonneg hpos]
            have : u * ((∑ i, |c i|) * R) ≤ 1 * ((∑ i, |c i|) * R) := mul_le_mul_of_nonneg_right (by linarith) hC
            linarith
          linarith
        · have hle : vdot c x ≤ t := by
            by_contra hn
            have hn : 0 < vdot c x - t := by linarith [not_le.1 hn]
            rw [abs_of_pos hn] at he
            have := mul_pos (show 0 < 1 - u by linarith) hn
            linarith
          refine ⟨_, _, _, _, rfl, ⟨a2, b2⟩, le_rfl, fun z hz δ hδ _ h => hlow z hz δ hδ (WithTop.coe_le_coe.1 h), ?_⟩
          rintro s hs
          obtain rfl := Option.some.inj hs
          exact ⟨rfl, WithTop.coe_le_coe.2 hle, hroom⟩

/-- Levels never rise, whatever the state. -/
theorem sdpF_back (hfl : RelErr u fl) (hu : u < 1) {l1 l2 : LmiCall k} {x : Fin k → ℝ} {t : WithTop ℝ} {Q Q' : CholExt ℝ × CholExt ℝ} {cut : (Fin k → ℝ) × Beta} {t1 : Option (WithTop ℝ)}
    (h : sdpCallF fl vdot l1 l2 c x t Q = .ok (Q', cut, t1)) : t1.getD t ≤ t := by
  unfold sdpCallF at h
  split at h
  · simp at h
  · simp only [Except.ok.injEq, Prod.mk.injEq] at h
    rw [← h.2.2]; exact le_rfl
  · split at h
    · simp at h
    · simp only [Except.ok.injEq, Prod.mk.injEq] at h
      rw [← h.2.2]; exact le_rfl
    · induction t using WithTop.recTopCoe with
      | top => exact le_top
      | coe t =>
        simp only at h
        split_ifs at h with h0
        · simp only [Except.ok.injEq, Prod.mk.injEq] at h
          rw [← h.2.2]; exact le_rfl
        · simp only [Except.ok.injEq, Prod.mk.injEq] at h
          rw [← h.2.2, Option.getD_some, WithTop.coe_le_coe]
          by_contra hn
          have hn : 0 < vdot c x - t := by linarith [not_le.1 hn]
          have he := abs_le.1 (hfl (vdot c x - t))
          rw [abs_of_pos hn] at he
          have := mul_pos (show 0 < 1 - u by linarith) hn
          linarith

/-- A point at which a rounded run found the level `s`: `s` is the rounded objective, which is the objective up to `ν`, and both inequalities hold up to `ν`. -/
structure SdpFound (vdot : (Fin k → ℝ) → (Fin k → ℝ) → ℝ) (F1 : Fin k → ℕ → ℕ → ℝ) (B1 : ℕ → ℕ → ℝ) (m1 : ℕ) (F2 : Fin k → ℕ → ℕ → ℝ) (B2 : ℕ → ℕ → ℝ) (m2 : ℕ) (c : Fin k → ℝ) (ν : ℝ)
    (x : Fin k → ℝ) : Prop where
  obj : |vdot c x - c ⬝ᵥ x| ≤ ν
  fst : AtLeast (-ν) (pencil F1 B1 x) m1
  snd : AtLeast (-ν) (pencil F2 B2 x) m2

/-- The unit is as small as required. -/
theorem sdpUnit_small (F1 : Fin k → ℕ → ℕ → ℝ) (B1 : ℕ → ℕ → ℝ) (m1 : ℕ) (F2 : Fin k → ℕ → ℕ → ℝ) (B2 : ℕ → ℕ → ℝ) (m2 : ℕ) (c : Fin k → ℝ) (R : ℝ) {ν : ℝ} (hν : 0 < ν) :
    ∃ ζ₀ : ℝ, 0 < ζ₀ ∧ ∀ u, 0 ≤ u → u ≤ ζ₀ → u ≤ 1 / 50 ∧ (1 + u) ^ (k + 2) ≤ 11 / 10 ∧ sdpUnit F1 B1 m1 F2 B2 m2 c R u ≤ ν := by
  obtain ⟨s1, hs1, hs1'⟩ := small_of_cont (g := fun u => (1 + u) ^ (k + 2)) (c := 11 / 10) (by fun_prop) (by norm_num)
  obtain ⟨s2, hs2, hs2'⟩ := small_of_cont (g := fun u => sdpUnit F1 B1 m1 F2 B2 m2 c R u) (c := ν) (by simp only [sdpUnit, lmiUnit]; fun_prop) (by simpa [sdpUnit, lmiUnit] using hν)
  refine ⟨min (1 / 50) (min s1 s2), by positivity, fun u hu0 hu => ⟨hu.trans (min_le_left _ _), hs1' u hu0 (hu.trans ((min_le_right _ _).trans (min_le_left _ _))),
    hs2' u hu0 (hu.trans ((min_le_right _ _).trans (min_le_right _ _)))⟩⟩

theorem SdpFound.of_unit (hv : VecDotErr u vdot) (hu0 : 0 ≤ u) (hR : 0 ≤ R) {x : Fin k → ℝ} (hx : ∀ q, |x q| ≤ R) {ν : ℝ} (hν : sdpUnit F1 B1 m1 F2 B2 m2 c R u ≤ ν)
    (h : SdpRoom F1 B1 m1 F2 B2 m2 x (-sdpUnit F1 B1 m1 F2 B2 m2 c R u)) : SdpFound vdot F1 B1 m1 F2 B2 m2 c ν x := by
  refine ⟨?_, h.1.mono (neg_le_neg hν), h.2.mono (neg_le_neg hν)⟩
  have u1 := lmiUnit_nonneg F1 B1 m1 hR hu0
  have u2 := lmiUnit_nonneg F2 B2 m2 hR hu0
  have hC : 0 ≤ (∑ i, |c i|) * R := mul_nonneg (Finset.sum_nonneg fun i _ => abs_nonneg _) hR
  have u3 : 0 ≤ u * ((∑ i, |c i|) * R) := mul_nonneg hu0 hC
  refine ((hv c x).trans (mul_le_mul_of_nonneg_left (dot_box hx) hu0)).trans (le_trans ?_ hν)
  rw [sdpUnit]; linarith

/-- **C141** (semidefinite programs).  Minimise `c'x` subject to two linear matrix inequalities with symmetric data of any size.  Let both hold with a margin `η₀ > 0` on a ball inside the first
ellipsoid, let `p` be a feasible point of the first ellipsoid, which may be optimal, and `acc, ν > 0`.  There are a number `N` of iterations, a precision and a tolerance with the following, for
every state of the oracle that can be reused and every start level (also `inf`).  A run with `max_it ≥ N` that returns has a level below `c'p + acc`.  If the start level is not, such a level is
found within `N` oracle calls, before which nothing is raised, at a point that satisfies both inequalities up to `ν` and whose objective is the level up to `ν`. -/
theorem C141_sdp (hF1 : ∀ q, SymOn (F1 q) m1) (hB1 : SymOn B1 m1) (hF2 : ∀ q, SymOn (F2 q) m2) (hB2 : SymOn B2 m2) {E₀ : Ell k} (hE : E₀.Proper) {a p : Fin k → ℝ} {ρ η₀ acc ν : ℝ} (hρ : 0 < ρ)
    (hη₀ : 0 < η₀) (hball : euclBall a ρ ⊆ E₀.pts) (hslater : ∀ z ∈ euclBall a ρ, AtLeast η₀ (pencil F1 B1 z) m1 ∧ AtLeast η₀ (pencil F2 B2 z) m2) (hpE : p ∈ E₀.pts)
    (hp1 : PSDon (pencil F1 B1 p) 0 m1) (hp2 : PSDon (pencil F2 B2 p) 0 m2) (hacc : 0 < acc) (hν : 0 < ν) :
    ∃ (N : ℕ) (ζ₀ tol₀ : ℝ), 0 < ζ₀ ∧ 0 < tol₀ ∧ ∀ u, 0 ≤ u → u ≤ ζ₀ → ∀ fl dot vdot, RelErr u fl → DotErr u m1 dot → DotErr u m2 dot → VecDotErr u vdot → ∀ tol, tol ≤ tol₀ →
      ∀ (t0 : WithTop ℝ) (Q : CholExt ℝ × CholExt ℝ), Ready m1 Q.1 → Ready m2 Q.2 →
      let Ω := fun x t => liftOracle (sdpLazyF fl dot vdot F1 B1 m1 F2 B2 m2 c x t)
      let S := (Ell.spaceF fl vdot).beside (CholExt ℝ × CholExt ℝ)
      (∀ im : Int, (N : Int) ≤ im → ∀ w' xb t info, cuttingPlaneDc Ω S t0 ⟨im, tol⟩ (Q, E₀) = .ok (w', xb, t, info) → t < ((c ⬝ᵥ p + acc : ℝ) : WithTop ℝ)) ∧
      (((c ⬝ᵥ p + acc : ℝ) : WithTop ℝ) ≤ t0 → ∃ (j : ℕ) (log : _) (P : (CholExt ℝ × CholExt ℝ) × Ell k), j < N ∧ DcRounds Ω S tol t0 (Q, E₀) j log P ∧
        ∃ Q' cut, sdpLazyF fl dot vdot F1 B1 m1 F2 B2 m2 c P.2.xc (bestT t0 log) P.1 = .ok (Q', cut, some ((vdot c P.2.xc : ℝ) : WithTop ℝ)) ∧ vdot c P.2.xc < c ⬝ᵥ p + acc ∧
          SdpFound vdot F1 B1 m1 F2 B2 m2 c ν P.2.xc) := by
  obtain ⟨N, R, ε₀, tol₀, ν₀, hR, hε₀, htol₀, hν₀, H⟩ := C141_room (W := CholExt ℝ × CholExt ℝ) (T := WithTop ℝ) (ι := fun t => t) (M := (∑ i, |c i|) * (∑ i, |a i| + ρ)) hE
    (sdp_convex (F1 := F1) (B1 := B1) (m1 := m1) (F2 := F2) (B2 := B2) (m2 := m2) (c := c)) (fun _ _ _ hd hz => ⟨atLeast_mono hd hz.1, atLeast_mono hd hz.2⟩) hρ hη₀ hball
    (fun z hz => ⟨hslater z hz, (le_abs_self _).trans (dot_box_abs fun i => (ball_coord hρ.le hz i).trans
      (by have := Finset.single_le_sum (f := fun i => |a i|) (fun i _ => abs_nonneg _) (Finset.mem_univ i); linarith))⟩) hpE ⟨atLeast_zero hp1, atLeast_zero hp2⟩ hacc
  obtain ⟨ζ, hζ, hsm⟩ := sdpUnit_small F1 B1 m1 F2 B2 m2 c R (lt_min hν₀ hν)
  refine ⟨N, min ε₀ ζ, tol₀, lt_min hε₀ hζ, htol₀, fun u hu0 hu fl dot vdot hfl hd1 hd2 hv tol htol t0 Q hQ1 hQ2 => ?_⟩
  obtain ⟨k1, k2, k3⟩ := hsm u hu0 (hu.trans (min_le_right _ _))
  have hcall := fun {x} (hx : ∀ q, |x q| ≤ R) t {Q} h1 h2 => C141_oracle (c := c) (x := x) (Q := Q) hF1 hB1 hF2 hB2 hfl hu0 k1 k2 hd1 hd2 hv hR hx t h1 h2
  have hU0 : 0 ≤ sdpUnit F1 B1 m1 F2 B2 m2 c R u := by
    have u1 := lmiUnit_nonneg F1 B1 m1 hR hu0
    have u2 := lmiUnit_nonneg F2 B2 m2 hR hu0
    have hC : 0 ≤ (∑ i, |c i|) * R := mul_nonneg (Finset.sum_nonneg fun i _ => abs_nonneg _) hR
    have u3 : 0 ≤ u * ((∑ i, |c i|) * R) := mul_nonneg hu0 hC
    rw [sdpUnit]; linarith
  have hbox : BoxRoomOracle (fun t : WithTop ℝ => t) (SdpRoom F1 B1 m1 F2 B2 m2) (fun x => c ⬝ᵥ x) R (sdpUnit F1 B1 m1 F2 B2 m2 c R u)
      (fun Q : CholExt ℝ × CholExt ℝ => Ready m1 Q.1 ∧ Ready m2 Q.2) (sdpLazyF fl dot vdot F1 B1 m1 F2 B2 m2 c) := by
    refine ⟨fun x t w w' cut t1 h => sdpF_back hfl (by linarith) h, fun x hx t w hw => ?_⟩
    obtain ⟨Q', g, β, t1, e1, e2, e3, e4, -⟩ := hcall hx t hw.1 hw.2
    exact ⟨Q', g, β, t1, e1, e2, e3, e4⟩
  obtain ⟨r1, r2⟩ := H u hu0 (hu.trans (min_le_left _ _)) fl vdot hfl hv tol htol _ hU0 (k3.trans (min_le_left _ _)) _ _ hbox Q ⟨hQ1, hQ2⟩ t0
  refine ⟨r1, fun hbad => ?_⟩
  obtain ⟨j, log, P, Q', cut, s, q1, q2, q3, q4, q5, q6⟩ := r2 hbad
  obtain ⟨Q1, g, β, t1, e1, -, -, -, e5⟩ := hcall q4 (bestT t0 log) q3.1 q3.2
  rw [q5] at e1
  simp only [Except.ok.injEq, Prod.mk.injEq] at e1
  obtain ⟨f1, -, f3⟩ := e5 s e1.2.2.symm
  subst f1
  exact ⟨j, log, P, q1, q2, Q', cut, q5, WithTop.coe_lt_coe.1 q6, .of_unit hv hu0 hR q4 (k3.trans (min_le_right _ _)) f3⟩

/-- **C141** (the returned point).  For any box `|x_q| ≤ B` and `ν > 0` there is a precision with the following, for any search space.  A run that returns gives the start level back with no point,
or a point `x` with the level `vdot c x`, no worse than the start level; if `x` is in the box, both inequalities hold at `x` up to `ν` and the level is the objective up to `ν`. -/
theorem C141_returned (hF1 : ∀ q, SymOn (F1 q) m1) (hB1 : SymOn B1 m1) (hF2 : ∀ q, SymOn (F2 q) m2) (hB2 : SymOn B2 m2) {B ν : ℝ} (hB : 0 ≤ B) (hν : 0 < ν) :
    ∃ ζ₀ : ℝ, 0 < ζ₀ ∧ ∀ u, 0 ≤ u → u ≤ ζ₀ → ∀ fl dot vdot, RelErr u fl → DotErr u m1 dot → DotErr u m2 dot → VecDotErr u vdot →
      ∀ {V : Type} (S : Space V (Fin k → ℝ) ((Fin k → ℝ) × Beta) ℝ) (op : Options ℝ) (t0 : WithTop ℝ) (Q Q' : CholExt ℝ × CholExt ℝ) (v v' : V) xb t info, Ready m1 Q.1 → Ready m2 Q.2 →
      cuttingPlaneDc (fun x t => liftOracle (sdpLazyF fl dot vdot F1 B1 m1 F2 B2 m2 c x t)) (S.beside _) t0 op (Q, v) = .ok ((Q', v'), xb, t, info) →
      (xb = none ∧ t = t0) ∨ ∃ x, xb = some x ∧ t = ((vdot c x : ℝ) : WithTop ℝ) ∧ t ≤ t0 ∧ ((∀ q, |x q| ≤ B) → SdpFound vdot F1 B1 m1 F2 B2 m2 c ν x) := by
  obtain ⟨ζ, hζ, hsm⟩ := sdpUnit_small F1 B1 m1 F2 B2 m2 c B hν
  refine ⟨ζ, hζ, fun u hu0 hu fl dot vdot hfl hd1 hd2 hv V S op t0 Q Q' v v' xb t info h1 h2 h => ?_⟩
  obtain ⟨k1, k2, k3⟩ := hsm u hu0 hu
  have hI : ∀ x t (w w' : CholExt ℝ × CholExt ℝ) a, (Ready m1 w.1 ∧ Ready m2 w.2) → sdpLazyF fl dot vdot F1 B1 m1 F2 B2 m2 c x t w = .ok (w', a) → Ready m1 w'.1 ∧ Ready m2 w'.2 := by
    intro x t w w' a hw ha
    have hR : 0 ≤ ∑ q, |x q| := Finset.sum_nonneg fun i _ => abs_nonneg _
    obtain ⟨Q1, g, β, t1, e1, e2, -⟩ := C141_oracle (c := c) (R := ∑ q, |x q|) hF1 hB1 hF2 hB2 hfl hu0 k1 k2 hd1 hd2 hv hR
      (fun q => Finset.single_le_sum (f := fun q => |x q|) (fun i _ => abs_nonneg _) (Finset.mem_univ q)) t hw.1 hw.2
    rw [ha] at e1
    simp only [Except.ok.injEq, Prod.mk.injEq] at e1
    rw [e1.1]; exact e2
  obtain ⟨-, hle, h | ⟨x, s, w, w', cut, a1, a2, a3, a4⟩⟩ := dc_any (P := fun t => t ≤ t0) (I := fun w : CholExt ℝ × CholExt ℝ => Ready m1 w.1 ∧ Ready m2 w.2) (fun x t w w' a hw _ h => hI x t w w' a hw h)
    (fun x t w w' cut t' _ ht hq => (sdpF_back hfl (by linarith) hq).trans ht) ⟨h1, h2⟩ le_rfl h
  · exact .inl h
  · refine .inr ⟨x, a1, ?_, hle, fun hx => ?_⟩
    · have hR : 0 ≤ ∑ q, |x q| := Finset.sum_nonneg fun i _ => abs_nonneg _
      obtain ⟨Q1, g, β, t1, e1, -, -, -, e5⟩ := C141_oracle (c := c) (R := ∑ q, |x q|) hF1 hB1 hF2 hB2 hfl hu0 k1 k2 hd1 hd2 hv hR
        (fun q => Finset.single_le_sum (f := fun q => |x q|) (fun i _ => abs_nonneg _) (Finset.mem_univ q)) s a2.1 a2.2
      rw [a4] at e1
      simp only [Except.ok.injEq, Prod.mk.injEq] at e1
      exact (e5 t e1.2.2.symm).1
    · obtain ⟨Q1, g, β, t1, e1, -, -, -, e5⟩ := C141_oracle (c := c) hF1 hB1 hF2 hB2 hfl hu0 k1 k2 hd1 hd2 hv hB hx s a2.1 a2.2
      rw [a4] at e1
      simp only [Except.ok.injEq, Prod.mk.injEq] at e1
      exact .of_unit hv hu0 hB hx k3 (e5 t e1.2.2.symm).2.2

/-- **C141** (old and new).  With the same rounding and the same order of summation, the two LMI oracles make the same run. -/
theorem C141_same (t0 : WithTop ℝ) {V : Type} (S : Space V (Fin k → ℝ) ((Fin k → ℝ) × Beta) ℝ) (op : Options ℝ) (w : (CholExt ℝ × CholExt ℝ) × V) :
    cuttingPlaneDc (fun x t => liftOracle (sdpOldF fl dot vdot F1 B1 m1 F2 B2 m2 c x t)) (S.beside _) t0 op w =
    cuttingPlaneDc (fun x t => liftOracle (sdpLazyF fl dot vdot F1 B1 m1 F2 B2 m2 c x t)) (S.beside _) t0 op w := by
  have h : ∀ (F : Fin k → ℕ → ℕ → ℝ) (B : ℕ → ℕ → ℝ) (m : ℕ), lmiOldCallF fl dot F B m = lmiCallF fl dot F B m := fun F B m => by
    funext x Q; exact C115_lmi_old_agrees F B m x Q
  simp only [sdpOldF, sdpLazyF, h]

/-- **C141** (the test).  `run_lmi` of `tests/test_lmi.py` with `ell(10, [0, 0, 0])` and either oracle class, rounded to nearest with `p` bits and all sums taken from left to right.  For any
`acc, ν > 0` and any box there are a number of iterations, a number of bits and a tolerance for which: the run finds, within `N` oracle calls before which nothing is raised, a point that satisfies
both inequalities up to `ν` and whose objective is below `-3.1531 + acc + ν`; and if it returns with `max_it ≥ N`, the returned level is below `-3.1531 + acc` and is the rounded objective of the
returned point, which satisfies both inequalities up to `ν` if it is in the box. -/
theorem C141_test {acc ν B : ℝ} (hacc : 0 < acc) (hν : 0 < ν) (hB : 0 ≤ B) :
    ∃ (N p₀ : ℕ) (tol₀ : ℝ), 0 < tol₀ ∧ ∀ p fl, p₀ ≤ p → Nearest p fl → ∀ tol, tol ≤ tol₀ →
      let call := sdpLazyF fl (seqDot fl) (vecDot fl) sdpF1 sdpB1 2 sdpF2 sdpB2 3 sdpC
      let S := (Ell.spaceF fl (vecDot fl)).beside (CholExt ℝ × CholExt ℝ)
      let w₀ : (CholExt ℝ × CholExt ℝ) × Ell 3 := ((lmiInit 2, lmiInit 3), ⟨true, false, ![0, 0, 0], 1, 10⟩)
      (∀ im : Int, (N : Int) ≤ im → ∀ w' xb t info, cuttingPlaneDc (fun x t => liftOracle (call x t)) S ⊤ ⟨im, tol⟩ w₀ = .ok (w', xb, t, info) ∨
          cuttingPlaneDc (fun x t => liftOracle (sdpOldF fl (seqDot fl) (vecDot fl) sdpF1 sdpB1 2 sdpF2 sdpB2 3 sdpC x t)) S ⊤ ⟨im, tol⟩ w₀ = .ok (w', xb, t, info) →
        ∃ x, xb = some x ∧ t = ((vecDot fl sdpC x : ℝ) : WithTop ℝ) ∧ vecDot fl sdpC x < -3.1531 + acc ∧ ((∀ q, |x q| ≤ B) → SdpFound (vecDot fl) sdpF1 sdpB1 2 sdpF2 sdpB2 3 sdpC ν x)) ∧
      ∃ (j : ℕ) (log : _) (P : (CholExt ℝ × CholExt ℝ) × Ell 3), j < N ∧ DcRounds (fun x t => liftOracle (call x t)) S tol ⊤ w₀ j log P ∧
        ∃ Q' cut, call P.2.xc (bestT ⊤ log) P.1 = .ok (Q', cut, some ((vecDot fl sdpC P.2.xc : ℝ) : WithTop ℝ)) ∧ sdpC ⬝ᵥ P.2.xc < -3.1531 + acc + ν ∧
          SdpFound (vecDot fl) sdpF1 sdpB1 2 sdpF2 sdpB2 3 sdpC ν P.2.xc := by
  have hp : sdpC ⬝ᵥ sdpP = -3.1531 := by simp [sdpC, sdpP, dotProduct, Fin.sum_univ_three]; norm_num
  have hpts : ∀ z : Fin 3 → ℝ, z 0 ^ 2 + z 1 ^ 2 + z 2 ^ 2 ≤ 10 → z ∈ (⟨true, false, ![0, 0, 0], 1, 10⟩ : Ell 3).pts := fun z hz => by
    have e10 : (10 : ℝ) = √10 ^ 2 := (Real.sq_sqrt (by norm_num)).symm
    have : z ∈ euclBall (![0, 0, 0] : Fin 3 → ℝ) √10 := by
      change ∑ i, (z i - (![0, 0, 0] : Fin 3 → ℝ) i) ^ 2 ≤ √10 ^ 2
      rw [← e10, Fin.sum_univ_three]
      simpa using hz
    rw [e10]
    rwa [euclBall_eq_pts (by norm_num)]
  obtain ⟨N, ζ₀, tol₀, h1, h2, h3⟩ := C141_sdp (c := sdpC) (E₀ := ⟨true, false, ![0, 0, 0], 1, 10⟩) (a := ![1.4, 0, -1.9]) (p := sdpP) (ρ := 0.1) (η₀ := 5) sdp_sym1.1 sdp_sym1.2 sdp_sym2.1
    sdp_sym2.2 ⟨by norm_num, Matrix.PosDef.one, by norm_num⟩ (by norm_num) (by norm_num) (fun z hz => by
      obtain ⟨e0, e1, e2⟩ := ball3 (by norm_num) hz
      simp only [cons_val_zero, cons_val_one, cons_val, abs_le] at e0 e1 e2
      exact hpts z (by nlinarith)) (fun z hz => (sdp_slater hz).1) (hpts _ (by simp [sdpP]; norm_num)) sdpP_feasible.1 sdpP_feasible.2 hacc hν
  obtain ⟨ζ₁, h4, h5⟩ := C141_returned (c := sdpC) sdp_sym1.1 sdp_sym1.2 sdp_sym2.1 sdp_sym2.2 hB hν
  obtain ⟨p₀, hp₀⟩ := bits_precise 3 3 (lt_min h1 h4)
  refine ⟨N, p₀, tol₀, h2, fun p fl hpp hfl tol htol => ?_⟩
  obtain ⟨u, hu0, hu, e1, e2, e3⟩ := hp₀ p fl hpp hfl
  have e2' : DotErr u 2 (seqDot fl) := fun s e x y he => e2 s e x y (by omega)
  obtain ⟨q1, q2⟩ := h3 u hu0 (hu.trans (min_le_left _ _)) fl (seqDot fl) (vecDot fl) e1 e2' e2 e3 tol htol ⊤ (lmiInit 2, lmiInit 3) (ready_init 2) (ready_init 3)
  dsimp only at q1 q2 ⊢
  refine ⟨fun im him w' xb t info h => ?_, ?_⟩
  · rw [C141_same, or_self] at h
    have hlt := q1 im him w' xb t info h
    rw [hp] at hlt
    rcases h5 u hu0 (hu.trans (min_le_right _ _)) fl (seqDot fl) (vecDot fl) e1 e2' e2 e3 _ _ ⊤ _ w'.1 _ w'.2 xb t info (ready_init 2) (ready_init 3) h with ⟨-, h⟩ | ⟨x, a1, a2, -, a4⟩
    · rw [h] at hlt; simp at hlt
    · rw [a2] at hlt
      exact ⟨x, a1, a2, WithTop.coe_lt_coe.1 hlt, a4⟩
  · obtain ⟨j, log, P, r1, r2, Q', cut, r3, r4, r5⟩ := q2 le_top
    refine ⟨j, log, P, r1, r2, Q', cut, r3, ?_, r5⟩
    have := abs_le.1 r5.obj
    rw [hp] at r4
    linarith

end Verif
