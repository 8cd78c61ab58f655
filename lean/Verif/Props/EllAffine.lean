import Verif.Proofs.SimCut
import Verif.Spec.AffineSpec
import Verif.Spec.EllSpec
import Mathlib.Data.Fin.VecNotation
import Mathlib.LinearAlgebra.Matrix.Notation
import Mathlib.Tactic.FinCases

/-!
# C123: runs on an ellipsoid do not depend on the choice of coordinates
-/
namespace Verif
open Matrix
variable {n : ℕ} {A : Matrix (Fin n) (Fin n) ℝ} {c : Fin n → ℝ} {E E' : Ell n}

theorem AffineImage.form {s : ℝ} (hQ : s • E'.Q = A * E.Q * Aᵀ) (g : Fin n → ℝ) :
    s • (E'.Q *ᵥ g) = A *ᵥ (E.Q *ᵥ (Aᵀ *ᵥ g)) := by
  rw [← smul_mulVec, hQ, mulVec_mulVec, mulVec_mulVec, Matrix.mul_assoc]

theorem AffineImage.omega {s : ℝ} (hQ : s • E'.Q = A * E.Q * Aᵀ) (g : Fin n → ℝ) :
    s * (g ⬝ᵥ E'.Q *ᵥ g) = (Aᵀ *ᵥ g) ⬝ᵥ E.Q *ᵥ (Aᵀ *ᵥ g) := by
  rw [← smul_eq_mul, ← dotProduct_smul, AffineImage.form hQ, dotProduct_mulVec, ← mulVec_transpose]

/-- **C123** (the set).  If the change of variables is invertible, `E'` is the image of `E`. -/
theorem C123_pts (h : AffineImage A c E E') (hA : IsUnit A.det) : E'.pts = affineMap A c '' E.pts := by
  obtain ⟨s, hs, hk, hQ⟩ := h.shape
  have key : ∀ x y, (y ⬝ᵥ (affineMap A c x - E'.xc)) ^ 2 ≤ E'.kappa * (y ⬝ᵥ E'.Q *ᵥ y) ↔
      ((Aᵀ *ᵥ y) ⬝ᵥ (x - E.xc)) ^ 2 ≤ E.kappa * ((Aᵀ *ᵥ y) ⬝ᵥ E.Q *ᵥ (Aᵀ *ᵥ y)) := by
    intro x y
    rw [h.xc, affineMap, affineMap, add_sub_add_right_eq_sub, ← mulVec_sub, dotProduct_mulVec, ← mulVec_transpose,
      ← AffineImage.omega hQ, hk, mul_assoc, mul_left_comm]
  ext z
  constructor
  · intro hz
    refine ⟨A⁻¹ *ᵥ (z - c), fun y => ?_, ?_⟩
    · have e : affineMap A c (A⁻¹ *ᵥ (z - c)) = z := by
        rw [affineMap, mulVec_mulVec, mul_nonsing_inv _ hA, one_mulVec, sub_add_cancel]
      have := hz ((A⁻¹)ᵀ *ᵥ y)
      rw [← e, key, mulVec_mulVec, ← transpose_mul, nonsing_inv_mul _ hA, transpose_one, one_mulVec] at this
      exact this
    · rw [affineMap, mulVec_mulVec, mul_nonsing_inv _ hA, one_mulVec, sub_add_cancel]
  · rintro ⟨x, hx, rfl⟩ y
    exact (key x y).2 (hx _)

/-- **C123** (one update).  Cutting `E'` with any cut, and `E` with the same cut in the other variables: the same exception, or the same status and the same `tsq`,
and the results correspond again.  Nothing is assumed about the ellipsoid or about `A`. -/
theorem C123_update (h : AffineImage A c E E') (cut : (Fin n → ℝ) × Beta) :
    SimRes (fun p q => AffineImage A c p.1 q.1 ∧ p.2 = q.2) (Ell.update (pullCut A cut) E) (Ell.update cut E') := by
  obtain ⟨g, β⟩ := cut
  obtain ⟨s, hs, hk, hQ⟩ := h.shape
  have hω := AffineImage.omega hQ g
  have hv := AffineImage.form hQ g
  have ht : E'.kappa * (g ⬝ᵥ E'.Q *ᵥ g) = E.kappa * ((Aᵀ *ᵥ g) ⬝ᵥ E.Q *ᵥ (Aᵀ *ᵥ g)) := by rw [hk, ← hω]; ring
  simp only [Ell.update, pullCut, ht, h.usePar]
  rcases Ell.calcLl n E.usePar (E.kappa * ((Aᵀ *ᵥ g) ⬝ᵥ E.Q *ᵥ (Aᵀ *ᵥ g))) β with e | ⟨st | ⟨rho, sigma, delta⟩, tsq⟩
  · exact rfl
  · exact ⟨h, rfl⟩
  · simp only
    set v := E.Q *ᵥ (Aᵀ *ᵥ g) with hvd
    set ω := (Aᵀ *ᵥ g) ⬝ᵥ v with hωd
    set v' := E'.Q *ᵥ g with hvd'
    set ω' := g ⬝ᵥ v' with hωd'
    rcases eq_or_ne ω' 0 with h0 | h0
    · have h1 : ω = 0 := by rw [← hω, h0, mul_zero]
      simp only [pyDiv, h0, h1, if_true]
      exact rfl
    · have h1 : ω ≠ 0 := by rw [← hω]; exact mul_ne_zero hs h0
      have hv' : v' = s⁻¹ • (A *ᵥ v) := by rw [← hv, smul_smul, inv_mul_cancel₀ hs, one_smul]
      have hx : E'.xc - (rho / ω') • v' = affineMap A c (E.xc - (rho / ω) • v) := by
        rw [h.xc, hv', affineMap, affineMap, mulVec_sub, mulVec_smul, smul_smul, ← hω]
        rw [show rho / ω' * s⁻¹ = rho / (s * ω') by field_simp]
        abel
      have hQ' : s • (E'.Q - (sigma / ω') • vecMulVec v' v') = A * (E.Q - (sigma / ω) • vecMulVec v v) * Aᵀ := by
        have e : A * vecMulVec v v * Aᵀ = vecMulVec (A *ᵥ v) (A *ᵥ v) := by
          rw [mul_vecMulVec, vecMulVec_mul, vecMul_transpose]
        rw [smul_sub, hQ, Matrix.mul_sub, Matrix.sub_mul, Matrix.mul_smul, Matrix.smul_mul, e, hv', smul_vecMulVec, vecMulVec_smul,
          smul_smul, smul_smul, smul_smul, ← hω]
        congr 2
        field_simp
      simp only [pyDiv, h0, h1, if_false, h.noDefer]
      cases E.noDefer
      · exact ⟨⟨rfl, rfl, hx, s, hs, by simp only [hk]; ring, hQ'⟩, rfl⟩
      · refine ⟨⟨rfl, rfl, hx, s, hs, hk, ?_⟩, rfl⟩
        simp only [Matrix.mul_smul, Matrix.smul_mul]
        rw [smul_comm, hQ']

variable {W T : Type _}

/-- Corresponding worlds: the same oracle state, corresponding ellipsoids. -/
def AffineWorld (A : Matrix (Fin n) (Fin n) ℝ) (c : Fin n → ℝ) (p q : W × Ell n) : Prop := q.1 = p.1 ∧ AffineImage A c p.2 q.2

theorem C123_space (cut : (Fin n → ℝ) × Beta) {p q : W × Ell n} (h : AffineWorld A c p q) :
    SimRes (fun a b => AffineWorld A c a.1 b.1 ∧ a.2 = b.2) ((Ell.space W n).update (pullCut A cut) p) ((Ell.space W n).update cut q) := by
  rcases (C123_update h.2 cut).elim with ⟨e, h1, h2⟩ | ⟨⟨E1, r1⟩, ⟨E2, r2⟩, h1, h2, h3, h4⟩
  · simp only [Ell.space, h1, h2]; exact rfl
  · simp only [Ell.space, h1, h2]
    exact ⟨⟨h.1, h3⟩, h4⟩

/-- **C123** (`cutting_plane_feas`).  Running the oracle `Ω` on `E'`, or the same problem in the other variables on `E`: the same exception, or the same answer
(flag, status, number of iterations), the same oracle state, and corresponding final ellipsoids. -/
theorem C123_feas (Ω : (Fin n → ℝ) → W → Except PyErr (W × Option ((Fin n → ℝ) × Beta))) (h : AffineImage A c E E') (o : Options ℝ) (w : W) :
    SimRes (fun p q => AffineWorld A c p.1 q.1 ∧ p.2 = q.2)
      (cuttingPlaneFeas (fun x => liftOracle (pullFeas A c Ω x)) (Ell.space W n) o (w, E))
      (cuttingPlaneFeas (fun x => liftOracle (Ω x)) (Ell.space W n) o (w, E')) := by
  refine feas_simC (RC := fun c1 c2 => c1 = pullCut A c2) ?_ ?_ o ⟨rfl, h⟩
  · rintro ⟨w1, E1⟩ ⟨w2, E2⟩ ⟨hw, hE⟩
    simp only at hw hE
    subst hw
    simp only [Ell.space, liftOracle, pullFeas, hE.xc]
    rcases Ω (affineMap A c E1.xc) w2 with e | ⟨w', _ | cut⟩
    · exact rfl
    · exact ⟨⟨rfl, hE⟩, .none⟩
    · exact ⟨⟨rfl, hE⟩, .some rfl⟩
  · rintro _ c2 p q rfl hpq
    exact C123_space c2 hpq

/-- **C123** (`cutting_plane_dc`).  Likewise; the best values are equal and the best points correspond. -/
theorem C123_dc [DecidableEq T] (Ω : (Fin n → ℝ) → T → W → Except PyErr (W × ((Fin n → ℝ) × Beta) × Option T)) (h : AffineImage A c E E')
    (t0 : T) (o : Options ℝ) (w : W) :
    SimRes (fun p q => AffineWorld A c p.1 q.1 ∧ q.2.1 = p.2.1.map (affineMap A c) ∧ p.2.2 = q.2.2)
      (cuttingPlaneDc (fun x t => liftOracle (pullDc A c Ω x t)) (Ell.space W n) t0 o (w, E))
      (cuttingPlaneDc (fun x t => liftOracle (Ω x t)) (Ell.space W n) t0 o (w, E')) := by
  refine SimRes.mono ?_ (dc_simC (R := AffineWorld A c) (RX := fun x y => y = affineMap A c x) (RC := fun c1 c2 => c1 = pullCut A c2)
    (Ω1 := fun x t => liftOracle (pullDc A c Ω x t)) (Ω2 := fun x t => liftOracle (Ω x t)) ?_ ?_ ?_ t0 o ⟨rfl, h⟩)
  · rintro p q ⟨h1, h2, h3⟩
    refine ⟨h1, ?_, h3⟩
    cases h2' : p.2.1 <;> cases h2'' : q.2.1 <;> rw [h2', h2''] at h2 <;> cases h2
    · rfl
    · rename_i e; rw [e]; rfl
  · rintro t ⟨w1, E1⟩ ⟨w2, E2⟩ ⟨hw, hE⟩
    simp only at hw hE
    subst hw
    simp only [Ell.space, liftOracle, pullDc, hE.xc]
    rcases Ω (affineMap A c E1.xc) t w2 with e | ⟨w', cut, t1⟩
    · exact rfl
    · exact ⟨⟨rfl, hE⟩, rfl, rfl⟩
  · rintro _ c2 p q rfl hpq
    exact C123_space c2 hpq
  · intro p q hpq
    exact hpq.2.xc

/-- **C123** (`cutting_plane_q`).  Likewise; the recorded evaluation points are the same. -/
theorem C123_q [DecidableEq T] {Z : Type _}
    (Ω : (Fin n → ℝ) → T → Bool → W → Except PyErr (W × ((Fin n → ℝ) × Beta) × Z × Option T × Bool)) (h : AffineImage A c E E')
    (t0 : T) (o : Options ℝ) (w : W) :
    SimRes (fun p q => AffineWorld A c p.1 q.1 ∧ p.2 = q.2)
      (cuttingPlaneQ (fun x t r => liftOracle (pullQ A c Ω x t r)) (fun x _ => x) (Ell.space W n) t0 o (w, E))
      (cuttingPlaneQ (fun x t r => liftOracle (Ω x t r)) (fun x _ => x) (Ell.space W n) t0 o (w, E')) := by
  refine SimRes.mono ?_ (q_simC (R := AffineWorld A c) (RZ := Eq) (RY := Eq) (RC := fun c1 c2 => c1 = pullCut A c2)
    (Ω1 := fun x t r => liftOracle (pullQ A c Ω x t r)) (Ω2 := fun x t r => liftOracle (Ω x t r)) ?_ ?_ ?_ t0 o ⟨rfl, h⟩)
  · rintro p q ⟨h1, h2, h3⟩
    refine ⟨h1, Prod.ext ?_ h3⟩
    cases h2' : p.2.1 <;> cases h2'' : q.2.1 <;> rw [h2', h2''] at h2 <;> cases h2
    · rename_i e; rw [e]
  · rintro t r ⟨w1, E1⟩ ⟨w2, E2⟩ ⟨hw, hE⟩
    simp only at hw hE
    subst hw
    simp only [Ell.space, liftOracle, pullQ, hE.xc]
    rcases Ω (affineMap A c E1.xc) t r w2 with e | ⟨w', cut, z, t1, m⟩
    · exact rfl
    · exact ⟨⟨rfl, hE⟩, rfl, rfl, rfl⟩
  · rintro _ c2 p q rfl hpq
    exact C123_space c2 hpq
  · rintro z1 z2 p q rfl -
    rfl

/-- **C123** (the two forms of the constructor).  `ell(r, x)` and `ell([r, ..., r], x)` hold the same scale in different places; every run from one is, in results, number of
iterations and exceptions, the run from the other (`C123_feas`, `C123_dc`, `C123_q` with `A = 1`, `c = 0`). -/
theorem C123_scalar_array {r : ℝ} (hr : r ≠ 0) {x : Fin n → ℝ} (h : Ell.init (.scalar r) x = .ok E) (h' : Ell.init (.diag fun _ => r) x = .ok E') :
    AffineImage 1 0 E E' := by
  unfold Ell.init at h h'
  rcases hc : Ell.c1? n with e | v <;> rw [hc] at h h' <;> simp only [Except.ok.injEq, reduceCtorEq] at h h'
  subst h h'
  refine ⟨rfl, rfl, by simp [affineMap], r⁻¹, inv_ne_zero hr, by simp [hr], ?_⟩
  ext i j
  simp [Matrix.diagonal_apply, Matrix.one_apply, hr]

theorem pullFeas_id (Ω : (Fin n → ℝ) → W → Except PyErr (W × Option ((Fin n → ℝ) × Beta))) : pullFeas 1 0 Ω = Ω := by
  funext x w
  have e : affineMap 1 0 x = x := by simp [affineMap]
  have e2 : (pullCut 1 : (Fin n → ℝ) × Beta → _) = id := by funext q; simp [pullCut]
  rw [pullFeas, e, e2]
  rcases Ω x w with _ | ⟨a, b⟩ <;> simp [Except.map]

theorem pullDc_id (Ω : (Fin n → ℝ) → T → W → Except PyErr (W × ((Fin n → ℝ) × Beta) × Option T)) : pullDc 1 0 Ω = Ω := by
  funext x t w
  have e : affineMap 1 0 x = x := by simp [affineMap]
  have e2 : ∀ q : (Fin n → ℝ) × Beta, pullCut 1 q = q := fun q => by simp [pullCut]
  rw [pullDc, e]
  rcases Ω x t w with _ | ⟨a, b⟩ <;> simp [Except.map, e2]

theorem affineMap_id : (affineMap 1 0 : (Fin n → ℝ) → _) = id := by funext x; simp [affineMap]

/-- **C123** (same runs of `cutting_plane_feas` from either form of the constructor). -/
theorem C123_scalar_array_feas {r : ℝ} (hr : r ≠ 0) {x : Fin n → ℝ} (h : Ell.init (.scalar r) x = .ok E) (h' : Ell.init (.diag fun _ => r) x = .ok E')
    (Ω : (Fin n → ℝ) → W → Except PyErr (W × Option ((Fin n → ℝ) × Beta))) (o : Options ℝ) (w : W) :
    SimRes (fun p q => q.1.1 = p.1.1 ∧ q.1.2.xc = p.1.2.xc ∧ p.2 = q.2)
      (cuttingPlaneFeas (fun x => liftOracle (Ω x)) (Ell.space W n) o (w, E)) (cuttingPlaneFeas (fun x => liftOracle (Ω x)) (Ell.space W n) o (w, E')) := by
  have key := C123_feas Ω (C123_scalar_array hr h h') o w
  rw [pullFeas_id] at key
  exact key.mono fun p q hpq => ⟨hpq.1.1, by rw [hpq.1.2.xc, affineMap_id]; rfl, hpq.2⟩

/-- **C123** (same runs of `cutting_plane_dc` from either form of the constructor). -/
theorem C123_scalar_array_dc [DecidableEq T] {r : ℝ} (hr : r ≠ 0) {x : Fin n → ℝ} (h : Ell.init (.scalar r) x = .ok E)
    (h' : Ell.init (.diag fun _ => r) x = .ok E') (Ω : (Fin n → ℝ) → T → W → Except PyErr (W × ((Fin n → ℝ) × Beta) × Option T)) (t0 : T) (o : Options ℝ) (w : W) :
    SimRes (fun p q => q.1.1 = p.1.1 ∧ q.1.2.xc = p.1.2.xc ∧ p.2 = q.2)
      (cuttingPlaneDc (fun x t => liftOracle (Ω x t)) (Ell.space W n) t0 o (w, E))
      (cuttingPlaneDc (fun x t => liftOracle (Ω x t)) (Ell.space W n) t0 o (w, E')) := by
  have key := C123_dc Ω (C123_scalar_array hr h h') t0 o w
  rw [pullDc_id] at key
  refine key.mono fun p q hpq => ⟨hpq.1.1, by rw [hpq.1.2.xc, affineMap_id]; rfl, Prod.ext ?_ hpq.2.2⟩
  rw [hpq.2.1, affineMap_id, Option.map_id]; rfl

/-- **C123** (an array as first argument).  `ell([d_1², ..., d_n²], x)` is the unit ball in the variables `u` with `x_i + d_i u_i`: passing an array means nothing but
rescaling each variable by its radius. -/
theorem C123_array_rescales (d x : Fin n → ℝ) (h : Ell.init (.scalar 1) 0 = .ok E) (h' : Ell.init (.diag fun i => d i ^ 2) x = .ok E') :
    AffineImage (diagonal d) x E E' := by
  unfold Ell.init at h h'
  rcases hc : Ell.c1? n with e | v <;> rw [hc] at h h' <;> simp only [Except.ok.injEq, reduceCtorEq] at h h'
  subst h h'
  refine ⟨rfl, rfl, by simp [affineMap], 1, one_ne_zero, by simp, ?_⟩
  simp [diagonal_mul_diagonal, sq]

/-- A shear with a shift: two ellipsoids in the relation, with `kappa` and `Q` scaled differently. -/
example : AffineImage !![1, 1; 0, 1] ![3, 4]
    { usePar := true, noDefer := false, xc := ![1, 2], Q := 1, kappa := 6 }
    { usePar := true, noDefer := false, xc := ![6, 6], Q := !![4, 2; 2, 2], kappa := 3 } := by
  refine ⟨rfl, rfl, ?_, 1 / 2, by norm_num, by norm_num, ?_⟩
  · funext i; fin_cases i <;> norm_num [affineMap, mulVec, dotProduct, Fin.sum_univ_two]
  · ext i j; fin_cases i <;> fin_cases j <;> norm_num [Matrix.mul_apply, Fin.sum_univ_two]

/-- The constructors of `C123_scalar_array` and `C123_array_rescales` succeed in dimension 2. -/
example : (∃ E, Ell.init (n := 2) (.scalar 4) ![1, 2] = .ok E) ∧ ∃ E, Ell.init (n := 2) (.diag ![4, 9]) ![1, 2] = .ok E := by
  constructor <;> simp [Ell.init, Ell.c1?, pyDiv, show (2 * 2 - 1 : ℝ) ≠ 0 by norm_num]

end Verif
