import Verif.Proofs.Sim
import Verif.Proofs.EllRep
import Verif.Props.Ell
import Verif.Props.Ell1d

/-! # C08, C14, C69: aliasing of the centre array -/
namespace Verif
open Matrix Ell
variable {W T : Type _} {n : ℕ}

theorem HEll.load_eq (h : Heap n) (E : HEll n) : (E.load h).xc = h E.xc := rfl

/-- One heap-level update, related to the value level. -/
private theorem update_sim (c : (Fin n → ℝ) × Beta) (h : Heap n) (E : HEll n) :
    SimRes (fun p q => p.1.2.load p.1.1 = q.1 ∧ p.2 = q.2 ∧ p.1.2.xc = E.xc ∧
        ∀ r, r ≠ E.xc → p.1.1 r = h r)
      (HEll.update c (h, E)) (Ell.update c (E.load h)) := by
  obtain ⟨g, b⟩ := c
  simp only [HEll.update]
  cases hu : Ell.update (g, b) (E.load h) with
  | error e => exact rfl
  | ok r =>
    obtain ⟨E', st, t⟩ := r
    rcases update_ok_raw hu with ⟨hc, rfl⟩ | ⟨rfl, -, ρ, σ, δ, -, rfl⟩
    · by_cases hs : st = .success
      · subst hs
        exact ⟨by simp [HEll.load], rfl, rfl, fun r hr => by simp [Function.update_of_ne hr]⟩
      · simp only [hs, if_false]
        exact ⟨rfl, rfl, rfl, fun _ _ => rfl⟩
    · simp only [if_true]
      refine ⟨?_, rfl, rfl, fun r hr => by simp [Function.update_of_ne hr]⟩
      have := after_usePar (E.load h) g ρ σ δ
      revert this
      generalize after (E.load h) g ρ σ δ = F
      rintro ⟨h1, h2⟩
      obtain ⟨p, d, x, Q, k⟩ := F
      simp only [HEll.load] at h1 h2
      simp [HEll.load, h1, h2]

/-- Heap-level and value-level worlds: same problem state, same ellipsoid value, the reference is the
one we started with, other arrays untouched. -/
private def Rel (h0 : Heap n) (r0 : Ref) (p : W × Heap n × HEll n) (q : W × Ell n) : Prop :=
  p.1 = q.1 ∧ p.2.2.load p.2.1 = q.2 ∧ p.2.2.xc = r0 ∧ ∀ r, r ≠ r0 → p.2.1 r = h0 r

private theorem space_sim {h0 : Heap n} {r0 : Ref} (c : (Fin n → ℝ) × Beta) (p : W × Heap n × HEll n)
    (q : W × Ell n) (h : Rel h0 r0 p q) :
    SimRes (fun a b => Rel h0 r0 a.1 b.1 ∧ a.2 = b.2) ((HEll.space W n).update c p)
      ((Ell.space W n).update c q) := by
  obtain ⟨w, h1, E⟩ := p
  obtain ⟨w', Ev⟩ := q
  obtain ⟨rfl, rfl, rfl, hr⟩ := h
  simp only at hr
  rcases (update_sim c h1 E).elim with ⟨e, h2, h3⟩ | ⟨⟨⟨h', E'⟩, a⟩, ⟨Ev', b⟩, h2, h3, h4, h5, h6, h7⟩
  · simp only [HEll.space, Ell.space, h2, h3]; exact rfl
  · simp only [HEll.space, Ell.space, h2, h3]
    exact ⟨⟨rfl, h4, h6, fun r hne => (h7 r hne).trans (hr r hne)⟩, h5⟩

private theorem oracle_sim {A : Type _} {h0 : Heap n} {r0 : Ref}
    (f : (Fin n → ℝ) → W → Except PyErr (W × A)) (p : W × Heap n × HEll n)
    (q : W × Ell n) (h : Rel h0 r0 p q) :
    SimRes (fun a b => Rel h0 r0 a.1 b.1 ∧ a.2 = b.2) (HEll.readOracle f p.2.2.xc p)
      (liftOracle (f q.2.xc) q) := by
  obtain ⟨w, h1, E⟩ := p
  obtain ⟨w', Ev⟩ := q
  obtain ⟨rfl, rfl, rfl, hr⟩ := h
  simp only [HEll.readOracle, liftOracle, HEll.load_eq]
  cases f (h1 E.xc) w with
  | error e => exact rfl
  | ok a => exact ⟨⟨rfl, rfl, rfl, hr⟩, rfl⟩

/-- **C69 (refinement, `cutting_plane_feas`).**  With aliasing taken into account, a run over an `ell`
raises the same error as, or returns the same information and final ellipsoid as, the value-level run;
the centre array is the one the object was built with and is overwritten, and no other array is
touched. -/
theorem C69_feas_ell_refines (f : (Fin n → ℝ) → W → Except PyErr (W × Option ((Fin n → ℝ) × Beta)))
    (o : Options ℝ) (w : W) (h : Heap n) (E : HEll n) :
    SimRes (fun a b => a.2 = b.2 ∧ a.1.1 = b.1.1 ∧ a.1.2.2.load a.1.2.1 = b.1.2 ∧ a.1.2.2.xc = E.xc ∧
        ∀ r, r ≠ E.xc → a.1.2.1 r = h r)
      (cuttingPlaneFeas (HEll.readOracle f) (HEll.space W n) o (w, h, E))
      (cuttingPlaneFeas (fun x => liftOracle (f x)) (Ell.space W n) o (w, E.load h)) := by
  have := feas_sim (R := Rel h E.xc) (S1 := HEll.space W n) (S2 := Ell.space W n)
    (Ω1 := HEll.readOracle f) (Ω2 := fun x => liftOracle (f x))
    (fun w1 w2 hR => oracle_sim f w1 w2 hR) (fun c w1 w2 hR => space_sim c w1 w2 hR) o
    (w1 := (w, h, E)) (w2 := (w, E.load h)) ⟨rfl, rfl, rfl, fun _ _ => rfl⟩
  exact this.mono fun a b ⟨⟨h1, h2, h3, h4⟩, h5⟩ => ⟨h5, h1, h2, h3, h4⟩

/-- **C69 (refinement, `cutting_plane_dc`).**  As above; moreover `x_best`, when set, is always the
centre array itself. -/
theorem C69_dc_ell_refines [DecidableEq T]
    (f : (Fin n → ℝ) → T → W → Except PyErr (W × ((Fin n → ℝ) × Beta) × Option T))
    (t0 : T) (o : Options ℝ) (w : W) (h : Heap n) (E : HEll n) :
    SimRes (fun a b => a.2.2 = b.2.2 ∧ a.1.1 = b.1.1 ∧ a.1.2.2.load a.1.2.1 = b.1.2 ∧
        a.1.2.2.xc = E.xc ∧ (∀ r, r ≠ E.xc → a.1.2.1 r = h r) ∧
        (a.2.1.isSome = b.2.1.isSome) ∧ (∀ x, a.2.1 = some x → x = E.xc))
      (cuttingPlaneDc (fun x t => HEll.readOracle (fun x => f x t) x) (HEll.space W n) t0 o (w, h, E))
      (cuttingPlaneDc (fun x t => liftOracle (f x t)) (Ell.space W n) t0 o (w, E.load h)) := by
  have := dc_sim (R := Rel h E.xc) (RX := fun x _ => x = E.xc) (S1 := HEll.space W n) (S2 := Ell.space W n)
    (Ω1 := fun x t => HEll.readOracle (fun x => f x t) x) (Ω2 := fun x t => liftOracle (f x t))
    (fun t w1 w2 hR => oracle_sim (fun x => f x t) w1 w2 hR) (fun c w1 w2 hR => space_sim c w1 w2 hR)
    (fun w1 w2 hR => hR.2.2.1) t0 o
    (w1 := (w, h, E)) (w2 := (w, E.load h)) ⟨rfl, rfl, rfl, fun _ _ => rfl⟩
  refine this.mono fun a b ⟨⟨h1, h2, h3, h4⟩, hx, h5⟩ => ⟨h5, h1, h2, h3, h4, ?_, ?_⟩
  · revert hx; generalize a.2.1 = o1; generalize b.2.1 = o2
    intro hx
    cases hx <;> rfl
  · revert hx; generalize a.2.1 = o1; generalize b.2.1 = o2
    rintro hx x rfl
    cases hx with
    | some h => exact h

/-- **C08 (what the code does).**  After `cutting_plane_dc` on an `ell`, the array returned as `x_best`
(if any) *is* the search space's centre array: it holds the final centre, not the point at which the
returned value was obtained. -/
theorem C08_dc_ell_xbest_is_final_centre [DecidableEq T]
    (f : (Fin n → ℝ) → T → W → Except PyErr (W × ((Fin n → ℝ) × Beta) × Option T))
    (t0 : T) (o : Options ℝ) {w w' : W} {h h' : Heap n} {E E' : HEll n} {x : Ref} {t : T} {info : CInfo}
    (hrun : cuttingPlaneDc (fun x t => HEll.readOracle (fun x => f x t) x) (HEll.space W n) t0 o (w, h, E) =
      .ok ((w', h', E'), some x, t, info)) : x = E'.xc ∧ h' x = (E'.load h').xc := by
  rcases (C69_dc_ell_refines f t0 o w h E).elim with ⟨e, h1, -⟩ | ⟨a, b, h1, -, -, -, -, h3, -, -, h4⟩
  · rw [hrun] at h1; simp at h1
  · rw [hrun] at h1
    simp only [Except.ok.injEq] at h1
    subst h1
    have := h4 x rfl
    subst this
    exact ⟨h3.symm, by rw [HEll.load_eq, h3]⟩

private theorem quad2' (g : Fin 2 → ℝ) : g ⬝ᵥ (1 : Matrix (Fin 2) (Fin 2) ℝ) *ᵥ g = g 0 ^ 2 + g 1 ^ 2 := by
  rw [one_mulVec]; simp [dotProduct, Fin.sum_univ_two, sq]

/-- Central cut of the disc of radius 2. -/
theorem centralStep : Ell.update (![1, 0], .scalar 0) (⟨true, false, 0, 1, 4⟩ : Ell 2) =
    .ok (⟨true, false, ![-2 / 3, 0], !![1 / 3, 0; 0, 1], 16 / 3⟩, .success, 4) := by
  have h2 : √(4 : ℝ) = 2 := by rw [show (4 : ℝ) = 2 ^ 2 by norm_num]; exact Real.sqrt_sq (by norm_num)
  have hs : pySqrt 4 = .ok 2 := by unfold pySqrt; rw [if_neg (by norm_num), h2]
  have hc : calcLl 2 true 4 (.scalar 0) = .ok (.accept (2 / 3) (2 / 3) (4 / 3), 4) := by
    simp only [calcLl, calcDc, hs, calcCc, c1, c2]
    norm_num
  simp only [Ell.update, quad2']
  norm_num [hc, pyDiv]
  ext i j; fin_cases i <;> fin_cases j <;> simp <;> norm_num

/-- Minimise the first coordinate: improves whenever `x₀ < t`, with the central cut. -/
noncomputable def exMinO (x : Fin 2 → ℝ) (t : ℝ) (w : Unit) :
    Except PyErr (Unit × ((Fin 2 → ℝ) × Beta) × Option ℝ) :=
  if x 0 < t then .ok (w, (![1, 0], .scalar 0), some (x 0))
  else .ok (w, (![1, 0], .scalar (x 0 - t)), none)

/-- **C08 is violated.**  Minimising `x₀` over the disc of radius 2 about 0, one iteration: the driver
returns the value `t = 0` (obtained at the origin) together with an array holding `(-2/3, 0)`, whose
objective value is `-2/3`. -/
theorem C08_dc_ell_xbest_wrong :
    ∃ (h' : Heap 2) (E' : HEll 2) (x : Ref) (t : ℝ) (info : CInfo),
      cuttingPlaneDc (fun x t => HEll.readOracle (fun x => exMinO x t) x) (HEll.space Unit 2) 1 ⟨1, 0⟩
        ((), (fun _ => 0), ⟨true, false, 0, 1, 4⟩) = .ok (((), h', E'), some x, t, info) ∧
      info.feasible = true ∧ t = 0 ∧ h' x 0 = -2 / 3 := by
  have hl : HEll.load (fun _ => 0) (⟨true, false, 0, 1, 4⟩ : HEll 2) = ⟨true, false, 0, 1, 4⟩ := rfl
  have hq : exMinO (0 : Fin 2 → ℝ) 1 () = .ok ((), (![1, 0], .scalar 0), some 0) := by
    simp [exMinO]
  refine ⟨Function.update (fun _ => 0) 0 ![-2 / 3, 0], ⟨true, false, 0, !![1 / 3, 0; 0, 1], 16 / 3⟩, 0, 0,
    ⟨true, 1, .success⟩, ?_, rfl, rfl, ?_⟩
  · simp only [cuttingPlaneDc, forRange, forLoop, dcBody, HEll.readOracle, HEll.space, HEll.update, hl, hq,
      centralStep, readVar, Int.toNat_one]
    norm_num
  · simp

/-- **C14 (ell1d).**  `bsearch_adaptor` over an `ell1d`: the answer is that of `cutting_plane_feas` on a
copy of the interval after `P.update(t)`; on success only the centre of the original interval moves, to
the accepted point; otherwise the original interval is as before. -/
theorem C14_adaptor_ell1d {α : Type _} [Field α] [LinearOrder α] [IsStrictOrderedRing α]
    (pUpdate : T → W → Except PyErr W) (f : α → W → Except PyErr (W × Option (α × α)))
    (o : Options α) (t : T) (w : W) (E : Ell1d α) :
    probe1d pUpdate f o t (w, E) =
      match pUpdate t w with
      | .error e => .error e
      | .ok w1 =>
        match cuttingPlaneFeas (fun x => liftOracle (f x)) (Ell1d.space W α) o (w1, E) with
        | .error e => .error e
        | .ok ((w2, E2), info) =>
          if info.feasible then .ok ((w2, ⟨E.r, E2.xc⟩), true) else .ok ((w2, E), false) := by
  have hcopy : E.copy = E := by
    unfold Ell1d.copy Ell1d.init
    have h2 : (2 : α) ≠ 0 := two_ne_zero
    cases E
    simp only [Ell1d.mk.injEq]
    constructor <;> field_simp <;> ring
  simp only [probe1d, bsearchAdaptor, hcopy]
  cases pUpdate t w with
  | error e => rfl
  | ok w1 =>
    simp only
    have := feas_sim (R := fun (p : (W × Ell1d α) × Ell1d α) (q : W × Ell1d α) => p.1 = q ∧ p.2 = E)
      (S1 := besides (Ell1d.space W α)) (S2 := Ell1d.space W α)
      (Ω1 := fun x => besidesCall (liftOracle (f x))) (Ω2 := fun x => liftOracle (f x))
      (by
        rintro ⟨p1, p2⟩ q ⟨rfl, rfl⟩
        simp only [besides, besidesCall]
        cases liftOracle (f ((Ell1d.space W α).xc p1)) p1 with
        | error e => exact rfl
        | ok a => exact ⟨⟨rfl, rfl⟩, rfl⟩)
      (by
        rintro c ⟨p1, p2⟩ q ⟨rfl, rfl⟩
        simp only [besides, besidesCall]
        cases (Ell1d.space W α).update c p1 with
        | error e => exact rfl
        | ok a => exact ⟨⟨rfl, rfl⟩, rfl⟩) o (w1 := ((w1, E), E)) (w2 := (w1, E)) ⟨rfl, rfl⟩
    rcases this.elim with ⟨e, h1, h2⟩ | ⟨⟨⟨⟨a1, a2⟩, a3⟩, i⟩, ⟨⟨b1, b2⟩, j⟩, h1, h2, ⟨h3, h4⟩, h5⟩
    · rw [h1, h2]
    · simp only [Prod.mk.injEq] at h3 h4 h5
      obtain ⟨rfl, rfl⟩ := h3
      subst h4 h5
      rw [h1, h2]
      simp [besides, Ell1d.space, Ell1d.setXc]

/-- **C14 (ell, what the code does).**  `bsearch_adaptor` over an `ell` (`n ≠ 1`): the answer is that of
`cutting_plane_feas` on a value copy after `P.update(t)`.  But *whatever the answer*, the centre of the
original ellipsoid is afterwards the final centre of the probe, while its shape, scale and flags are as
before: the probe's copy shares the centre array. -/
theorem C14_adaptor_ell (hn : n ≠ 1) (pUpdate : T → W → Except PyErr W)
    (f : (Fin n → ℝ) → W → Except PyErr (W × Option ((Fin n → ℝ) × Beta)))
    (o : Options ℝ) (t : T) (w : W) (h : Heap n) (E : HEll n) :
    SimRes (fun a b => a.2 = b.2.feasible ∧ a.1.1 = b.1.1 ∧
        a.1.2.2 = E ∧ a.1.2.1 E.xc = b.1.2.xc ∧ ∀ r, r ≠ E.xc → a.1.2.1 r = h r)
      (probeEll pUpdate f o t (w, h, E))
      (match pUpdate t w with
        | .error e => .error e
        | .ok w1 => cuttingPlaneFeas (fun x => liftOracle (f x)) (Ell.space W n) o (w1, E.load h)) := by
  have hcopy : E.copy = .ok E := by
    have := (C24_ell_init_fails (.scalar E.kappa) (h E.xc)).not.2 hn
    unfold Ell.init at this
    unfold HEll.copy HEll.init
    cases hc : c1? n with
    | error e => rw [hc] at this; simp at this
    | ok c => rfl
  simp only [probeEll, bsearchAdaptor, hcopy]
  cases pUpdate t w with
  | error e => exact rfl
  | ok w1 =>
    simp only
    have := feas_sim
      (R := fun (p : (W × Heap n × HEll n) × HEll n) (q : W × Ell n) => Rel h E.xc p.1 q ∧ p.2 = E)
      (S1 := besides (HEll.space W n)) (S2 := Ell.space W n)
      (Ω1 := fun x => besidesCall (HEll.readOracle f x)) (Ω2 := fun x => liftOracle (f x))
      (by
        rintro ⟨p1, p2⟩ q ⟨hR, rfl⟩
        simp only [besides, besidesCall]
        rcases (oracle_sim f p1 q hR).elim with ⟨e, h1, h2⟩ | ⟨a, b, h1, h2, h3, h4⟩
        · rw [show (HEll.space W n).xc p1 = p1.2.2.xc from rfl, h1,
            show (Ell.space W n).xc q = q.2.xc from rfl, h2]; exact rfl
        · rw [show (HEll.space W n).xc p1 = p1.2.2.xc from rfl, h1,
            show (Ell.space W n).xc q = q.2.xc from rfl, h2]; exact ⟨⟨h3, rfl⟩, h4⟩)
      (by
        rintro c ⟨p1, p2⟩ q ⟨hR, rfl⟩
        simp only [besides, besidesCall]
        rcases (space_sim c p1 q hR).elim with ⟨e, h1, h2⟩ | ⟨a, b, h1, h2, h3, h4⟩
        · rw [h1, h2]; exact rfl
        · rw [h1, h2]; exact ⟨⟨h3, rfl⟩, h4⟩) o (w1 := ((w1, h, E), E)) (w2 := (w1, E.load h))
      ⟨⟨rfl, rfl, rfl, fun _ _ => rfl⟩, rfl⟩
    rcases this.elim with ⟨e, h1, h2⟩ | ⟨⟨⟨⟨a1, ah, aE⟩, a3⟩, i⟩, ⟨⟨b1, b2⟩, j⟩, h1, h2, ⟨⟨h3, h4, h5, h6⟩, h7⟩, h8⟩
    · rw [h1, h2]; exact rfl
    · simp only at h3 h4 h5 h6 h7 h8
      subst h3 h4 h7 h8
      rw [h1, h2]
      by_cases hf : i.feasible = true
      · simp only [hf, if_true]
        refine ⟨hf.symm ▸ rfl, rfl, ?_, ?_, h6⟩
        · simp only [HEll.setXc, besides, HEll.space, h5]
        · simp only [HEll.load_eq, h5]
      · have hf' : i.feasible = false := by simpa using hf
        simp only [hf', Bool.false_eq_true, if_false]
        refine ⟨hf'.symm ▸ rfl, rfl, rfl, ?_, h6⟩
        simp only [HEll.load_eq, h5]

/-- **C14 is violated for `ell`.**  A probe that is not feasible (one iteration, a central cut) moves the
centre of the original search space from the origin to `(-2/3, 0)`. -/
theorem C14_adaptor_ell_wrong :
    ∃ (h' : Heap 2) (E' : HEll 2),
      probeEll (fun (_ : ℝ) (w : Unit) => .ok w) (fun _ w => .ok (w, some (![1, 0], .scalar 0))) ⟨1, 0⟩ 0
        ((), (fun _ => 0), ⟨true, false, 0, 1, 4⟩) = .ok (((), h', E'), false) ∧
      (E'.load h').xc 0 = -2 / 3 := by
  have hl : HEll.load (fun _ => 0) (⟨true, false, 0, 1, 4⟩ : HEll 2) = ⟨true, false, 0, 1, 4⟩ := rfl
  have hrun : cuttingPlaneFeas (fun x => liftOracle ((fun (_ : Fin 2 → ℝ) (w : Unit) =>
        (Except.ok (w, some (![1, 0], Beta.scalar 0)) : Except PyErr (Unit × Option ((Fin 2 → ℝ) × Beta)))) x))
      (Ell.space Unit 2) ⟨1, 0⟩ ((), ⟨true, false, 0, 1, 4⟩) =
      .ok (((), ⟨true, false, ![-2 / 3, 0], !![1 / 3, 0; 0, 1], 16 / 3⟩), ⟨false, 1, .success⟩) := by
    simp only [cuttingPlaneFeas, forRange, forLoop, feasBody, liftOracle, Ell.space,
      centralStep, readVar, Int.toNat_one]
    norm_num
  rcases (C14_adaptor_ell (by norm_num) (fun (_ : ℝ) (w : Unit) => .ok w)
    (fun _ w => .ok (w, some (![1, 0], .scalar 0))) ⟨1, 0⟩ 0 () (fun _ => 0)
    (⟨true, false, 0, 1, 4⟩ : HEll 2)).elim with ⟨e, h1, h2⟩ | ⟨⟨⟨⟨⟩, h', E'⟩, b⟩, r, h1, h2, h3, -, h5, h6, -⟩
  · simp only [hl] at h2
    rw [hrun] at h2
    simp at h2
  · simp only [hl] at h2
    rw [hrun] at h2
    simp only [Except.ok.injEq] at h2
    subst h2
    simp only at h3 h5 h6
    subst h3
    refine ⟨h', E', h1, ?_⟩
    rw [h5, HEll.load_eq, h6]
    simp

end Verif
