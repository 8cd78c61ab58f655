import Verif.Model.Sdp
import Verif.Props.Solve
import Verif.Props.Convex
import Verif.Props.EllTotal

/-! # C101: semidefinite programs with two LMI constraints, and the one of `tests/test_lmi.py` -/
namespace Verif
open Matrix Ell
variable {n m1 m2 : ℕ} {F1 F2 : Fin n → ℕ → ℕ → ℝ} {B1 B2 : ℕ → ℕ → ℝ} {c : Fin n → ℝ}

/-- The oracle of `test_lmi.py` with `lmi_oracle`. -/
noncomputable def sdpLazy (F1 : Fin n → ℕ → ℕ → ℝ) (B1 : ℕ → ℕ → ℝ) (m1 : ℕ) (F2 : Fin n → ℕ → ℕ → ℝ) (B2 : ℕ → ℕ → ℝ) (m2 : ℕ)
    (c : Fin n → ℝ) := sdpCall (lmiCall F1 B1 m1) (lmiCall F2 B2 m2) c

/-- The oracle of `test_lmi.py` with `lmi_old_oracle`. -/
noncomputable def sdpOld (F1 : Fin n → ℕ → ℕ → ℝ) (B1 : ℕ → ℕ → ℝ) (m1 : ℕ) (F2 : Fin n → ℕ → ℕ → ℝ) (B2 : ℕ → ℕ → ℝ) (m2 : ℕ)
    (c : Fin n → ℝ) := sdpCall (lmiOldCall F1 B1 m1) (lmiOldCall F2 B2 m2) c

/-- A point whose two matrices are at least `δ` times the identity. -/
def SdpRoom (F1 : Fin n → ℕ → ℕ → ℝ) (B1 : ℕ → ℕ → ℝ) (m1 : ℕ) (F2 : Fin n → ℕ → ℕ → ℝ) (B2 : ℕ → ℕ → ℝ) (m2 : ℕ)
    (z : Fin n → ℝ) (δ : ℝ) : Prop :=
  AtLeast δ (pencil F1 B1 z) m1 ∧ AtLeast δ (pencil F2 B2 z) m2

theorem lmiOld_eq (F : Fin n → ℕ → ℕ → ℝ) (B : ℕ → ℕ → ℝ) (m : ℕ) : lmiOldCall F B m = lmiCall F B m := by
  funext x Q
  have hA : (fun i j => B i j - (List.finRange n).foldl (fun a q => a + F q i j * x q) 0) = affEntry F B x := by
    funext i j
    unfold affEntry
    congr 1
    have : ∀ (l : List (Fin n)) (a : ℝ), l.foldl (fun a q => a + F q i j * x q) a =
        a + (l.map fun q => F q i j * x q).sum := by
      intro l
      induction l with
      | nil => simp
      | cons b l ih => intro a; rw [List.foldl_cons, ih, List.map_cons, List.sum_cons, add_assoc]
    rw [this, zero_add, Fin.sum_univ_def]
  simp only [lmiCall, lmiOldCall, hA, CholExt.factorize]
  rcases Q.factor (W := Unit) (readAt m (affEntry F B x)) () with e | ⟨w, Q1, b⟩
  · rfl
  · cases b <;> simp

theorem atLeast_zero {A : ℕ → ℕ → ℝ} {m : ℕ} (h : PSDon A 0 m) : AtLeast 0 A m := fun y => by simpa using h y

theorem psd_of_atLeast {A : ℕ → ℕ → ℝ} {m : ℕ} (h : AtLeast 0 A m) : PSDon A 0 m := fun y => by simpa using h y

theorem atLeast_mono {A : ℕ → ℕ → ℝ} {m : ℕ} {δ δ' : ℝ} (hd : δ ≤ δ') (h : AtLeast δ' A m) : AtLeast δ A m := fun y =>
  (mul_le_mul_of_nonneg_right hd (Finset.sum_nonneg fun i _ => sq_nonneg (y i))).trans (h y)

theorem atLeast_chord {F : Fin n → ℕ → ℕ → ℝ} {B : ℕ → ℕ → ℝ} {m : ℕ} {u v : Fin n → ℝ} {δ θ : ℝ} (h0 : 0 ≤ θ) (h1 : θ ≤ 1)
    (hu : AtLeast 0 (pencil F B u) m) (hv : AtLeast δ (pencil F B v) m) :
    AtLeast (θ * δ) (pencil F B ((1 - θ) • u + θ • v)) m := by
  intro y
  have e : quadOn (pencil F B ((1 - θ) • u + θ • v)) 0 m y =
      (1 - θ) * quadOn (pencil F B u) 0 m y + θ * quadOn (pencil F B v) 0 m y := by
    simp only [quadOn_pencil, Pi.add_apply, Pi.smul_apply, smul_eq_mul, mul_sub, Finset.mul_sum, add_mul, Finset.sum_add_distrib]
    simp only [mul_assoc]
    ring
  have a := mul_le_mul_of_nonneg_left (hu y) (sub_nonneg.2 h1)
  have b := mul_le_mul_of_nonneg_left (hv y) h0
  rw [e, mul_assoc]
  simp only [zero_mul, mul_zero] at a
  linarith

theorem sdp_convex : RoomConvex (SdpRoom F1 B1 m1 F2 B2 m2) (fun x => c ⬝ᵥ x) := by
  intro u v δ θ _ h0 h1 hu hv
  refine ⟨⟨atLeast_chord h0 h1 hu.1 hv.1, atLeast_chord h0 h1 hu.2 hv.2⟩, ?_⟩
  simp only [dotProduct_add, dotProduct_smul, smul_eq_mul]
  exact le_rfl

/-- **C101** the runs with the lazy and with the old LMI oracle are the same: same results, same number of iterations, same final
ellipsoid, same exceptions. -/
theorem C101_same_run (t0 : WithTop ℝ) (o : Options ℝ) (w : (CholExt ℝ × CholExt ℝ) × Ell n) :
    cuttingPlaneDc (fun x t => liftOracle (sdpOld F1 B1 m1 F2 B2 m2 c x t)) (Ell.space (CholExt ℝ × CholExt ℝ) n) t0 o w =
    cuttingPlaneDc (fun x t => liftOracle (sdpLazy F1 B1 m1 F2 B2 m2 c x t)) (Ell.space (CholExt ℝ × CholExt ℝ) n) t0 o w := by
  simp only [sdpOld, sdpLazy, lmiOld_eq]

/-- The contract. -/
theorem sdp_room (hF1 : ∀ q, SymOn (F1 q) m1) (hB1 : SymOn B1 m1) (hF2 : ∀ q, SymOn (F2 q) m2) (hB2 : SymOn B2 m2) :
    RoomOracle (fun t : WithTop ℝ => t) (SdpRoom F1 B1 m1 F2 B2 m2) (fun x => c ⬝ᵥ x)
      (fun Q : CholExt ℝ × CholExt ℝ => Ready m1 Q.1 ∧ Ready m2 Q.2) (sdpLazy F1 B1 m1 F2 B2 m2 c) := by
  rintro x t ⟨Q1, Q2⟩ ⟨hQ1, hQ2⟩
  obtain ⟨Q1', r1, a1, a2, a3, a4⟩ := C35_lmi hF1 hB1 x hQ1
  unfold sdpLazy sdpCall
  simp only [a1]
  cases r1 with
  | some cut =>
    obtain ⟨h1, -, -, h2⟩ := a4 cut.1 cut.2 rfl
    exact ⟨_, _, _, _, rfl, ⟨a2, hQ2⟩, h1, by simp, fun z δ hδ hz _ => h2 z δ hδ hz.1⟩
  | none =>
    obtain ⟨Q2', r2, b1, b2, b3, b4⟩ := C35_lmi hF2 hB2 x hQ2
    simp only [b1]
    cases r2 with
    | some cut =>
      obtain ⟨h1, -, -, h2⟩ := b4 cut.1 cut.2 rfl
      exact ⟨_, _, _, _, rfl, ⟨a2, b2⟩, h1, by simp, fun z δ hδ hz _ => h2 z δ hδ hz.2⟩
    | none =>
      have hroom : SdpRoom F1 B1 m1 F2 B2 m2 x 0 := by
        exact ⟨atLeast_zero (a3.1 rfl).psd, atLeast_zero (b3.1 rfl).psd⟩
      have hx : ∑ q, c q * x q = c ⬝ᵥ x := rfl
      simp only [hx]
      induction t using WithTop.recTopCoe with
      | top =>
        refine ⟨_, _, _, _, rfl, ⟨a2, b2⟩, le_rfl, ?_, ?_⟩
        · rintro s hs
          obtain rfl := Option.some.inj hs
          exact ⟨hroom, rfl, le_top⟩
        · intro z δ _ _ h
          have h' : c ⬝ᵥ z + δ ≤ c ⬝ᵥ x := WithTop.coe_le_coe.1 h
          rw [dotProduct_sub]; linarith
      | coe t =>
        simp only
        split_ifs with h1
        · refine ⟨_, _, _, _, rfl, ⟨a2, b2⟩, h1.le, by simp, ?_⟩
          intro z δ _ _ h
          have h' : c ⬝ᵥ z + δ ≤ t := WithTop.coe_le_coe.1 h
          rw [dotProduct_sub]; linarith
        · refine ⟨_, _, _, _, rfl, ⟨a2, b2⟩, le_rfl, ?_, ?_⟩
          · rintro s hs
            obtain rfl := Option.some.inj hs
            exact ⟨hroom, rfl, WithTop.coe_le_coe.2 (by linarith)⟩
          · intro z δ _ _ h
            have h' : c ⬝ᵥ z + δ ≤ c ⬝ᵥ x := WithTop.coe_le_coe.1 h
            rw [dotProduct_sub]; linarith

variable {E₀ E : Ell n} {o : Options ℝ} {t0 t : WithTop ℝ} {xb : Option (Fin n → ℝ)} {info : CInfo} {Q₀ Q : CholExt ℝ × CholExt ℝ}

/-- **C101** (verdict).  Minimise `c'x` subject to `B1 - Σ x_q F1_q ⪰ 0`, `B2 - Σ x_q F2_q ⪰ 0` with symmetric data of any size: the
returned level is the initial one, or the objective at the returned point, which satisfies both constraints; if the run stopped by
itself, no point of the initial ellipsoid with room `δ`, `tol ≤ δ²`, has an objective below `t - δ`. -/
theorem C101_verdict (hF1 : ∀ q, SymOn (F1 q) m1) (hB1 : SymOn B1 m1) (hF2 : ∀ q, SymOn (F2 q) m2) (hB2 : SymOn B2 m2) (hE : E₀.WF)
    (h1 : Ready m1 Q₀.1) (h2 : Ready m2 Q₀.2)
    (hr : cuttingPlaneDc (fun x t => liftOracle (sdpLazy F1 B1 m1 F2 B2 m2 c x t)) (Ell.space (CholExt ℝ × CholExt ℝ) n) t0 o (Q₀, E₀) =
      .ok ((Q, E), xb, t, info)) :
    ((xb = none ∧ t = t0) ∨ ∃ x, xb = some x ∧ PSDon (pencil F1 B1 x) 0 m1 ∧ PSDon (pencil F2 B2 x) 0 m2 ∧
      t = ((c ⬝ᵥ x : ℝ) : WithTop ℝ) ∧ t ≤ t0) ∧
    (info.status ≠ .success → ∀ z ∈ E₀.pts, ∀ δ, 0 ≤ δ → o.tol ≤ δ ^ 2 → AtLeast δ (pencil F1 B1 z) m1 →
      AtLeast δ (pencil F2 B2 z) m2 → t < ((c ⬝ᵥ z + δ : ℝ) : WithTop ℝ)) := by
  obtain ⟨k1, k2⟩ := C92_room_verdict (sdp_room (c := c) hF1 hB1 hF2 hB2) hE ⟨h1, h2⟩ hr
  refine ⟨k1.imp_right ?_, fun hs z hz δ h0 hd ha hb => k2 hs z hz δ h0 hd ⟨ha, hb⟩⟩
  rintro ⟨x, a1, a2, a3, a4⟩
  exact ⟨x, a1, psd_of_atLeast a2.1, psd_of_atLeast a2.2, a3, a4⟩

/-- **C101** (accuracy).  A ball of radius `ρ` around `a` inside the initial ball on which both matrices are at least `η·I` and the
objective is at most `M`; `p` any feasible point of the initial ball.  For `ε > 0`, `θ ∈ (0,1]` with `θ·(M - c'p) ≤ ε/2`,
`tol ≤ (ε/2)²`, `tol ≤ (θη)²`, `max_it > 2n(n+1)·ln(R/(θρ))`: every run that returns has a level below `c'p + ε`, and the level is
reached within that many iterations. -/
theorem C101_accuracy (hn : 2 ≤ n) (hF1 : ∀ q, SymOn (F1 q) m1) (hB1 : SymOn B1 m1) (hF2 : ∀ q, SymOn (F2 q) m2) (hB2 : SymOn B2 m2)
    {x₀ a p : Fin n → ℝ} {R ρ η M ε θ : ℝ} (hρ : 0 < ρ) (hη : 0 < η) (hinit : Ell.init (.scalar (R ^ 2)) x₀ = .ok E₀)
    (hball : euclBall a ρ ⊆ euclBall x₀ R)
    (hslater : ∀ z ∈ euclBall a ρ, (AtLeast η (pencil F1 B1 z) m1 ∧ AtLeast η (pencil F2 B2 z) m2) ∧ c ⬝ᵥ z ≤ M)
    (hpR : p ∈ euclBall x₀ R) (hp1 : PSDon (pencil F1 B1 p) 0 m1) (hp2 : PSDon (pencil F2 B2 p) 0 m2) (hε : 0 < ε) (hθ : 0 < θ)
    (hθ1 : θ ≤ 1) (hθM : θ * (M - c ⬝ᵥ p) ≤ ε / 2) (htol : o.tol ≤ (ε / 2) ^ 2) (htol' : o.tol ≤ (θ * η) ^ 2)
    (hmax : 2 * (n : ℝ) * ((n : ℝ) + 1) * Real.log (R / (θ * ρ)) < o.maxIt) (h1 : Ready m1 Q₀.1) (h2 : Ready m2 Q₀.2) :
    (∀ Q E xb t info, cuttingPlaneDc (fun x t => liftOracle (sdpLazy F1 B1 m1 F2 B2 m2 c x t)) (Ell.space (CholExt ℝ × CholExt ℝ) n)
      t0 o (Q₀, E₀) = .ok ((Q, E), xb, t, info) → t < ((c ⬝ᵥ p + ε : ℝ) : WithTop ℝ)) ∧
    ∃ (j : ℕ) (l : _) (u : _) (u' : _) (cut : _) (t1 : _), (j : ℝ) ≤ 2 * (n : ℝ) * ((n : ℝ) + 1) * Real.log (R / (θ * ρ)) ∧
      DcRounds (fun x t => liftOracle (sdpLazy F1 B1 m1 F2 B2 m2 c x t)) (Ell.space (CholExt ℝ × CholExt ℝ) n) o.tol t0 (Q₀, E₀) j l u ∧
      sdpLazy F1 B1 m1 F2 B2 m2 c u.2.xc (bestT t0 l) u.1 = .ok (u', cut, t1) ∧
      t1.getD (bestT t0 l) < ((c ⬝ᵥ p + ε : ℝ) : WithTop ℝ) :=
  C92_room_complexity hn sdp_convex (sdp_room hF1 hB1 hF2 hB2) (fun _ _ _ hd hz => ⟨atLeast_mono hd hz.1, atLeast_mono hd hz.2⟩)
    hρ hη hinit hball hslater hpR ⟨atLeast_zero hp1, atLeast_zero hp2⟩ hε hθ hθ1 hθM htol htol' hmax ⟨h1, h2⟩ t0

/-- **C101** (exceptions).  If some point has both matrices positive definite and `c ≠ 0`, every answer has a nonzero gradient and
`β ≥ 0`: a run from a proper ellipsoid with `max_it ≥ 1`, `tol > 0` returns, or divides by zero after an exactly tangent cut. -/
theorem C101_total (hF1 : ∀ q, SymOn (F1 q) m1) (hB1 : SymOn B1 m1) (hF2 : ∀ q, SymOn (F2 q) m2) (hB2 : SymOn B2 m2) {a : Fin n → ℝ}
    (ha1 : PDon (pencil F1 B1 a) 0 m1) (ha2 : PDon (pencil F2 B2 a) 0 m2) (hc : c ≠ 0) (hE : E₀.Proper) (hmax : 1 ≤ o.maxIt)
    (htol : 0 < o.tol) (h1 : Ready m1 Q₀.1) (h2 : Ready m2 Q₀.2) :
    (∃ r, cuttingPlaneDc (fun x t => liftOracle (sdpLazy F1 B1 m1 F2 B2 m2 c x t)) (Ell.space (CholExt ℝ × CholExt ℝ) n) t0 o
      (Q₀, E₀) = .ok r) ∨
    cuttingPlaneDc (fun x t => liftOracle (sdpLazy F1 B1 m1 F2 B2 m2 c x t)) (Ell.space (CholExt ℝ × CholExt ℝ) n) t0 o (Q₀, E₀) =
      .error .zeroDivision := by
  have hans : Answers (fun Q : CholExt ℝ × CholExt ℝ => Ready m1 Q.1 ∧ Ready m2 Q.2) (sdpLazy F1 B1 m1 F2 B2 m2 c) := by
    rintro x t ⟨Q1, Q2⟩ ⟨hQ1, hQ2⟩
    have hne : ∀ (g : Fin n → ℝ) (β : ℝ), 0 ≤ β → ∑ q, g q * (a q - x q) + β < 0 → g ≠ 0 := by
      rintro g β hβ h rfl
      simp at h; linarith
    obtain ⟨Q1', r1, a1, a2, -, a4⟩ := C35_lmi hF1 hB1 x hQ1
    unfold sdpLazy sdpCall
    simp only [a1]
    cases r1 with
    | some cut =>
      obtain ⟨e1, -, e2, -⟩ := a4 cut.1 cut.2 rfl
      exact ⟨_, _, _, _, rfl, ⟨a2, hQ2⟩, e1, hne _ _ e1 (e2 a ha1)⟩
    | none =>
      obtain ⟨Q2', r2, b1, b2, -, b4⟩ := C35_lmi hF2 hB2 x hQ2
      simp only [b1]
      cases r2 with
      | some cut =>
        obtain ⟨e1, -, e2, -⟩ := b4 cut.1 cut.2 rfl
        exact ⟨_, _, _, _, rfl, ⟨a2, b2⟩, e1, hne _ _ e1 (e2 a ha2)⟩
      | none =>
        induction t using WithTop.recTopCoe with
        | top => exact ⟨_, _, _, _, rfl, ⟨a2, b2⟩, le_rfl, hc⟩
        | coe t =>
          simp only
          split_ifs with h
          · exact ⟨_, _, _, _, rfl, ⟨a2, b2⟩, h.le, hc⟩
          · exact ⟨_, _, _, _, rfl, ⟨a2, b2⟩, le_rfl, hc⟩
  rcases C99_dc_total hans hE hmax htol (w₀ := Q₀) ⟨h1, h2⟩ t0 with h | ⟨h, -⟩
  · exact .inl h
  · exact .inr h

/-! ### The data of the test -/

theorem quad2 (A : ℕ → ℕ → ℝ) (y : ℕ → ℝ) :
    quadOn A 0 2 y = y 0 * A 0 0 * y 0 + y 0 * A 0 1 * y 1 + (y 1 * A 1 0 * y 0 + y 1 * A 1 1 * y 1) := by
  simp [quadOn, Finset.sum_range_succ]

theorem quad3 (A : ℕ → ℕ → ℝ) (y : ℕ → ℝ) :
    quadOn A 0 3 y = y 0 * A 0 0 * y 0 + y 0 * A 0 1 * y 1 + y 0 * A 0 2 * y 2 +
      (y 1 * A 1 0 * y 0 + y 1 * A 1 1 * y 1 + y 1 * A 1 2 * y 2) + (y 2 * A 2 0 * y 0 + y 2 * A 2 1 * y 1 + y 2 * A 2 2 * y 2) := by
  simp [quadOn, Finset.sum_range_succ]

/-- The first constraint written out. -/
theorem sdp1_quad (z : Fin 3 → ℝ) (y : ℕ → ℝ) : quadOn (pencil sdpF1 sdpB1 z) 0 2 y =
    33 * y 0 ^ 2 - 18 * y 0 * y 1 + 26 * y 1 ^ 2 - z 0 * (-7 * y 0 ^ 2 - 22 * y 0 * y 1 + 3 * y 1 ^ 2)
      - z 1 * (7 * y 0 ^ 2 - 36 * y 0 * y 1 + 8 * y 1 ^ 2) - z 2 * (-2 * y 0 ^ 2 - 16 * y 0 * y 1 + y 1 ^ 2) := by
  simp [quadOn_pencil, quad2, Fin.sum_univ_three, sdpF1, sdpB1, Fin.ofNat]
  ring

/-- The second constraint written out. -/
theorem sdp2_quad (z : Fin 3 → ℝ) (y : ℕ → ℝ) : quadOn (pencil sdpF2 sdpB2 z) 0 3 y =
    14 * y 0 ^ 2 + 18 * y 0 * y 1 + 80 * y 0 * y 2 + 91 * y 1 ^ 2 + 20 * y 1 * y 2 + 15 * y 2 ^ 2
      - z 0 * (-21 * y 0 ^ 2 - 22 * y 0 * y 1 + 10 * y 1 ^ 2 + 16 * y 1 * y 2 + 5 * y 2 ^ 2)
      - z 1 * (20 * y 0 * y 1 + 32 * y 0 * y 2 - 10 * y 1 ^ 2 - 20 * y 1 * y 2 + 3 * y 2 ^ 2)
      - z 2 * (-5 * y 0 ^ 2 + 4 * y 0 * y 1 - 34 * y 0 * y 2 - 6 * y 1 ^ 2 + 16 * y 1 * y 2 + 6 * y 2 ^ 2) := by
  simp [quadOn_pencil, quad3, Fin.sum_univ_three, sdpF2, sdpB2, Fin.ofNat]
  ring

theorem ball3 {a z : Fin 3 → ℝ} {r : ℝ} (hr : 0 ≤ r) (h : z ∈ euclBall a r) :
    |z 0 - a 0| ≤ r ∧ |z 1 - a 1| ≤ r ∧ |z 2 - a 2| ≤ r := by
  change ∑ i, (z i - a i) ^ 2 ≤ r ^ 2 at h
  rw [Fin.sum_univ_three] at h
  exact ⟨abs_le_of_sq_le_sq (by nlinarith [sq_nonneg (z 1 - a 1), sq_nonneg (z 2 - a 2)]) hr,
    abs_le_of_sq_le_sq (by nlinarith [sq_nonneg (z 0 - a 0), sq_nonneg (z 2 - a 2)]) hr,
    abs_le_of_sq_le_sq (by nlinarith [sq_nonneg (z 0 - a 0), sq_nonneg (z 1 - a 1)]) hr⟩

theorem pert {d G K : ℝ} (hd : |d| ≤ 0.1) (h1 : G ≤ K) (h2 : -G ≤ K) : d * G ≤ 0.1 * K := by
  have h : |G| ≤ K := abs_le.2 ⟨by linarith, h1⟩
  calc d * G ≤ |d| * |G| := by rw [← abs_mul]; exact le_abs_self _
    _ ≤ 0.1 * K := mul_le_mul hd h (abs_nonneg _) (by norm_num)

theorem sdp_sym1 : (∀ q, SymOn (sdpF1 q) 2) ∧ SymOn sdpB1 2 := by
  refine ⟨fun q i j hi hj => ?_, fun i j hi hj => ?_⟩
  · interval_cases i <;> interval_cases j <;> fin_cases q <;> simp [sdpF1, Fin.ofNat]
  · interval_cases i <;> interval_cases j <;> simp [sdpB1, Fin.ofNat]

theorem sdp_sym2 : (∀ q, SymOn (sdpF2 q) 3) ∧ SymOn sdpB2 3 := by
  refine ⟨fun q i j hi hj => ?_, fun i j hi hj => ?_⟩
  · interval_cases i <;> interval_cases j <;> fin_cases q <;> simp [sdpF2, Fin.ofNat]
  · interval_cases i <;> interval_cases j <;> simp [sdpB2, Fin.ofNat]

theorem sdp_slater {z : Fin 3 → ℝ} (hz : z ∈ euclBall ![1.4, 0, -1.9] 0.1) :
    (AtLeast 5 (pencil sdpF1 sdpB1 z) 2 ∧ AtLeast 5 (pencil sdpF2 sdpB2 z) 3) ∧ sdpC ⬝ᵥ z ≤ 0 := by
  obtain ⟨e0, e1, e2⟩ := ball3 (by norm_num) hz
  simp only [cons_val_zero, cons_val_one, cons_val_two, head_cons, tail_cons] at e0 e1 e2
  refine ⟨⟨fun y => ?_, fun y => ?_⟩, ?_⟩
  · rw [sdp1_quad]
    simp only [Finset.sum_range_succ, Finset.sum_range_zero]
    have p0 := pert (G := -7 * y 0 ^ 2 - 22 * y 0 * y 1 + 3 * y 1 ^ 2) (K := 18 * (y 0 ^ 2 + y 1 ^ 2)) e0
      (by nlinarith [sq_nonneg (y 0 + y 1), sq_nonneg (y 0 - y 1)]) (by nlinarith [sq_nonneg (y 0 + y 1), sq_nonneg (y 0 - y 1)])
    have p1 := pert (G := 7 * y 0 ^ 2 - 36 * y 0 * y 1 + 8 * y 1 ^ 2) (K := 26 * (y 0 ^ 2 + y 1 ^ 2)) e1
      (by nlinarith [sq_nonneg (y 0 + y 1), sq_nonneg (y 0 - y 1)]) (by nlinarith [sq_nonneg (y 0 + y 1), sq_nonneg (y 0 - y 1)])
    have p2 := pert (G := -2 * y 0 ^ 2 - 16 * y 0 * y 1 + y 1 ^ 2) (K := 10 * (y 0 ^ 2 + y 1 ^ 2)) e2
      (by nlinarith [sq_nonneg (y 0 + y 1), sq_nonneg (y 0 - y 1)]) (by nlinarith [sq_nonneg (y 0 + y 1), sq_nonneg (y 0 - y 1)])
    have c : 0 ≤ (123/5) * (y 0 + (-44/123) * y 1) ^ 2 + (7567/1230) * (y 1) ^ 2 := by positivity
    nlinarith [sq_nonneg (y 0), sq_nonneg (y 1)]
  · rw [sdp2_quad]
    simp only [Finset.sum_range_succ, Finset.sum_range_zero]
    have s1 := sq_nonneg (y 0 + y 1)
    have s2 := sq_nonneg (y 0 - y 1)
    have s3 := sq_nonneg (y 0 + y 2)
    have s4 := sq_nonneg (y 0 - y 2)
    have s5 := sq_nonneg (y 1 + y 2)
    have s6 := sq_nonneg (y 1 - y 2)
    have s7 := sq_nonneg (y 0)
    have s8 := sq_nonneg (y 1)
    have s9 := sq_nonneg (y 2)
    have p0 := pert (G := -21 * y 0 ^ 2 - 22 * y 0 * y 1 + 10 * y 1 ^ 2 + 16 * y 1 * y 2 + 5 * y 2 ^ 2)
      (K := 32 * (y 0 ^ 2 + y 1 ^ 2 + y 2 ^ 2)) e0 (by nlinarith) (by nlinarith)
    have p1 := pert (G := 20 * y 0 * y 1 + 32 * y 0 * y 2 - 10 * y 1 ^ 2 - 20 * y 1 * y 2 + 3 * y 2 ^ 2)
      (K := 30 * (y 0 ^ 2 + y 1 ^ 2 + y 2 ^ 2)) e1 (by nlinarith) (by nlinarith)
    have p2 := pert (G := -5 * y 0 ^ 2 + 4 * y 0 * y 1 - 34 * y 0 * y 2 - 6 * y 1 ^ 2 + 16 * y 1 * y 2 + 6 * y 2 ^ 2)
      (K := 31 * (y 0 ^ 2 + y 1 ^ 2 + y 2 ^ 2)) e2 (by nlinarith) (by nlinarith)
    have c : 0 ≤ (39/2) * (y 0 + (94/65) * y 1 + (77/195) * y 2) ^ 2 + (3386/325) * (y 1 + (931/3386) * y 2) ^ 2 + (29759/25395) * (y 2) ^ 2 := by positivity
    nlinarith
  · rw [abs_le] at e0 e1 e2
    simp [sdpC, dotProduct, Fin.sum_univ_three]
    linarith

/-- The feasible point close to the optimum. -/
def sdpP : Fin 3 → ℝ := ![-0.3674, 1.8981, -0.8876]

theorem sdpP_feasible : PSDon (pencil sdpF1 sdpB1 sdpP) 0 2 ∧ PSDon (pencil sdpF2 sdpB2 sdpP) 0 3 := by
  refine ⟨fun y => ?_, fun y => ?_⟩
  · rw [sdp1_quad]
    simp only [sdpP, cons_val_zero, cons_val_one, cons_val]
    have c : 0 ≤ (153663/10000) * (y 0 + (140236/153663) * y 1) ^ 2 + (5205727/768315000) * (y 1) ^ 2 := by positivity
    linarith
  · rw [sdp2_quad]
    simp only [sdpP, cons_val_zero, cons_val_one, cons_val]
    have c : 0 ≤ (9233/5000) * (y 0 + (-8748/1319) * y 1 + (-27294/9233) * y 2) ^ 2 + (35747973/1319000) * (y 1 + (6191861/59579955) * y 2) ^ 2 + (53702673779/1390198950000) * (y 2) ^ 2 := by positivity
    linarith

/-- No feasible point has an objective below `-3.15355`: three vectors of the dual problem. -/
theorem sdp_dual {z : Fin 3 → ℝ} (h1 : PSDon (pencil sdpF1 sdpB1 z) 0 2) (h2 : PSDon (pencil sdpF2 sdpB2 z) 0 3) :
    -3.15355 ≤ sdpC ⬝ᵥ z := by
  have a1 := h1 fun i => if i = 0 then -27 / 40 else 739 / 1000
  have a2 := h2 fun i => if i = 0 then 229 / 250 else if i = 1 then -1 / 25 else 199 / 500
  have a3 := h2 fun i => if i = 0 then 229 / 250 else if i = 1 then -19 / 500 else 197 / 500
  rw [sdp1_quad] at a1
  rw [sdp2_quad] at a2 a3
  norm_num at a1 a2 a3
  simp [sdpC, dotProduct, Fin.sum_univ_three]
  linarith

/-- **C101** `tests/test_lmi.py`, `run_lmi` with either oracle class, the default options: every run that returns reports a feasible
solution, and the returned point is feasible with `-3.15355 ≤ c'x = t < -3.1528`.  The optimum lies in the same interval. -/
theorem C101_test_lmi {E₀ E : Ell 3} {xb : Option (Fin 3 → ℝ)} (hinit : Ell.init (.scalar 10) ![0, 0, 0] = .ok E₀)
    (hr : cuttingPlaneDc (fun x t => liftOracle (sdpLazy sdpF1 sdpB1 2 sdpF2 sdpB2 3 sdpC x t)) (Ell.space (CholExt ℝ × CholExt ℝ) 3) ⊤
        ⟨2000, 1e-8⟩ ((lmiInit 2, lmiInit 3), E₀) = .ok ((Q, E), xb, t, info) ∨
      cuttingPlaneDc (fun x t => liftOracle (sdpOld sdpF1 sdpB1 2 sdpF2 sdpB2 3 sdpC x t)) (Ell.space (CholExt ℝ × CholExt ℝ) 3) ⊤
        ⟨2000, 1e-8⟩ ((lmiInit 2, lmiInit 3), E₀) = .ok ((Q, E), xb, t, info)) :
    info.feasible = true ∧ ∃ x, xb = some x ∧ PSDon (pencil sdpF1 sdpB1 x) 0 2 ∧ PSDon (pencil sdpF2 sdpB2 x) 0 3 ∧
      t = ((sdpC ⬝ᵥ x : ℝ) : WithTop ℝ) ∧ -3.15355 ≤ sdpC ⬝ᵥ x ∧ sdpC ⬝ᵥ x < -3.1528 := by
  rw [C101_same_run, or_self] at hr
  have e10 : (10 : ℝ) = √10 ^ 2 := (Real.sq_sqrt (by norm_num)).symm
  rw [e10] at hinit
  have hp : sdpC ⬝ᵥ sdpP = -3.1531 := by simp [sdpC, sdpP, dotProduct, Fin.sum_univ_three]; norm_num
  have k1 := (C101_accuracy (c := sdpC) (t0 := ⊤) (o := ⟨2000, 1e-8⟩) (by norm_num) sdp_sym1.1 sdp_sym1.2 sdp_sym2.1 sdp_sym2.2
    (a := ![1.4, 0, -1.9]) (p := sdpP) (ρ := 0.1) (η := 5) (M := 0) (ε := 3e-4) (θ := 2e-5) (Q₀ := (lmiInit 2, lmiInit 3))
    (by norm_num) (by norm_num) hinit (fun z hz => by
      obtain ⟨e0, e1, e2⟩ := ball3 (by norm_num) hz
      simp only [cons_val_zero, cons_val_one, cons_val, abs_le] at e0 e1 e2
      change ∑ i, (z i - (![0, 0, 0] : Fin 3 → ℝ) i) ^ 2 ≤ √10 ^ 2
      rw [← e10, Fin.sum_univ_three]
      simp
      nlinarith) (fun z hz => sdp_slater hz) (by
      change ∑ i, (sdpP i - (![0, 0, 0] : Fin 3 → ℝ) i) ^ 2 ≤ √10 ^ 2
      rw [← e10, Fin.sum_univ_three]
      simp [sdpP]
      norm_num) sdpP_feasible.1 sdpP_feasible.2 (by norm_num) (by norm_num) (by norm_num) (by rw [hp]; norm_num) (by norm_num)
    (by norm_num) (by
      have h10 : √10 < 3.2 := by rw [Real.sqrt_lt' (by norm_num)]; norm_num
      have h1 : Real.log (√10 / (2e-5 * 0.1)) ≤ Real.log (2 ^ 21) := by
        apply Real.log_le_log (by positivity)
        rw [div_le_iff₀ (by norm_num)]
        linarith
      rw [Real.log_pow] at h1
      have := Real.log_two_lt_d9
      push_cast at h1 ⊢
      linarith) (ready_init 2) (ready_init 3)).1 _ _ _ _ _ hr
  have hwf := (init_bound (r := 1) (by norm_num) hinit).1
  obtain ⟨⟨rfl, rfl⟩ | ⟨x, rfl, b1, b2, b3, -⟩, -⟩ := C101_verdict sdp_sym1.1 sdp_sym1.2 sdp_sym2.1 sdp_sym2.2 hwf (ready_init 2)
    (ready_init 3) hr
  · simp at k1
  · refine ⟨?_, x, rfl, b1, b2, b3, sdp_dual b1 b2, ?_⟩
    · obtain ⟨s, i, -, -, -, ht, rfl⟩ := dc_ok hr
      simp [← ht, b3]
    · rw [b3, hp] at k1
      have := WithTop.coe_lt_coe.1 k1
      linarith

theorem pd_of_atLeast {A : ℕ → ℕ → ℝ} {m : ℕ} {δ : ℝ} (hδ : 0 < δ) (h : AtLeast δ A m) : PDon A 0 m := by
  rintro y ⟨i, -, hi, hy⟩
  refine lt_of_lt_of_le (mul_pos hδ ?_) (h y)
  exact Finset.sum_pos' (fun j _ => sq_nonneg _) ⟨i, Finset.mem_range.2 hi, by positivity⟩

/-- **C101** the run of the test returns, or divides by zero after an exactly tangent cut (`C99_dc_total`). -/
theorem C101_test_total {E₀ : Ell 3} (hinit : Ell.init (.scalar 10) ![0, 0, 0] = .ok E₀) :
    (∃ r, cuttingPlaneDc (fun x t => liftOracle (sdpLazy sdpF1 sdpB1 2 sdpF2 sdpB2 3 sdpC x t)) (Ell.space (CholExt ℝ × CholExt ℝ) 3) ⊤
      ⟨2000, 1e-8⟩ ((lmiInit 2, lmiInit 3), E₀) = .ok r) ∨
    cuttingPlaneDc (fun x t => liftOracle (sdpLazy sdpF1 sdpB1 2 sdpF2 sdpB2 3 sdpC x t)) (Ell.space (CholExt ℝ × CholExt ℝ) 3) ⊤
      ⟨2000, 1e-8⟩ ((lmiInit 2, lmiInit 3), E₀) = .error .zeroDivision := by
  have ha : (![1.4, 0, -1.9] : Fin 3 → ℝ) ∈ euclBall ![1.4, 0, -1.9] 0.1 := by
    simp [euclBall]; positivity
  obtain ⟨⟨h1, h2⟩, -⟩ := sdp_slater ha
  obtain rfl : (⟨true, false, ![0, 0, 0], 1, 10⟩ : Ell 3) = E₀ := by
    unfold Ell.init at hinit
    split at hinit
    · simp at hinit
    · simpa using hinit
  exact C101_total sdp_sym1.1 sdp_sym1.2 sdp_sym2.1 sdp_sym2.2 (pd_of_atLeast (by norm_num) h1) (pd_of_atLeast (by norm_num) h2)
    (fun h => by simpa [sdpC] using congrFun h 0) ⟨by norm_num, Matrix.PosDef.one, by norm_num⟩ (by norm_num) (by norm_num)
    (ready_init 2) (ready_init 3)

end Verif
