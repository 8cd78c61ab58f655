import Verif.Model.EllHeapFloat
import Verif.Proofs.BsearchFloat
import Verif.Proofs.Sim
import Verif.Props.AdaptorSolve
import Verif.Props.EllFloatSure
import Verif.Props.LsqFloatRun

/-!
# C140: `bsearch(bsearch_adaptor(P, ell), [lo, up])` with every operation rounded

The probes of `bsearch_adaptor`, the ellipsoid, the oracle and the midpoints of the binary search are all rounded.
-/
namespace Verif
open FloatSpec Finset MeasureTheory Matrix Ell
variable {W T : Type _} {n k m : ℕ} {u : ℝ} {fl : ℝ → ℝ} {vdot : (Fin n → ℝ) → (Fin n → ℝ) → ℝ}

/-! ### The probe refines a run on a value copy -/

/-- What `updateF` does to the flags, and to a rejected ellipsoid. -/
private theorem updateF_frame {c : (Fin n → ℝ) × Beta} {E E' : Ell n} {st : CUTStatus} {tsq : ℝ} (h : Ell.updateF fl vdot c E = .ok (E', st, tsq)) :
    E'.usePar = E.usePar ∧ E'.noDefer = E.noDefer ∧ (st ≠ .success → E' = E) := by
  unfold Ell.updateF at h
  dsimp only at h
  split at h
  · simp at h
  · simp only [Except.ok.injEq, Prod.mk.injEq] at h
    obtain ⟨rfl, -, -⟩ := h
    exact ⟨rfl, rfl, fun _ => rfl⟩
  · split at h
    · split_ifs at h <;>
      · simp only [Except.ok.injEq, Prod.mk.injEq] at h
        obtain ⟨rfl, rfl, -⟩ := h
        exact ⟨rfl, rfl, fun h => absurd rfl h⟩
    · simp at h

private def RelF (h0 : Heap n) (r0 : Ref) (p : W × Heap n × HEll n) (q : W × Ell n) : Prop :=
  p.1 = q.1 ∧ p.2.2.load p.2.1 = q.2 ∧ p.2.2.xc = r0 ∧ ∀ r, r ≠ r0 → p.2.1 r = h0 r

private theorem spaceF_sim {h0 : Heap n} {r0 : Ref} (c : (Fin n → ℝ) × Beta) (p : W × Heap n × HEll n) (q : W × Ell n) (h : RelF h0 r0 p q) :
    SimRes (fun a b => RelF h0 r0 a.1 b.1 ∧ a.2 = b.2) ((HEll.spaceF fl vdot W).update c p) (((Ell.spaceF fl vdot).beside W).update c q) := by
  obtain ⟨w, h1, E⟩ := p
  obtain ⟨w', Ev⟩ := q
  obtain ⟨rfl, rfl, rfl, hr⟩ := h
  simp only at hr
  simp only [HEll.spaceF, Space.beside, Ell.spaceF, HEll.updateF]
  cases hu : Ell.updateF fl vdot c (E.load h1) with
  | error e => exact rfl
  | ok r =>
    obtain ⟨E', st, t⟩ := r
    obtain ⟨f1, f2, f3⟩ := updateF_frame hu
    by_cases hs : st = .success
    · subst hs
      simp only [if_true]
      refine ⟨⟨rfl, ?_, rfl, fun r hne => by simp only [Function.update_of_ne hne]; exact hr r hne⟩, rfl⟩
      obtain ⟨p, d, x, Q, κ⟩ := E'
      simp only [HEll.load] at f1 f2
      simp [HEll.load, f1, f2]
    · simp only [hs, if_false]
      exact ⟨⟨rfl, (f3 hs).symm, rfl, hr⟩, rfl⟩

private theorem oracleF_sim {A : Type _} {h0 : Heap n} {r0 : Ref} (f : (Fin n → ℝ) → W → Except PyErr (W × A)) (p : W × Heap n × HEll n)
    (q : W × Ell n) (h : RelF h0 r0 p q) :
    SimRes (fun a b => RelF h0 r0 a.1 b.1 ∧ a.2 = b.2) (HEll.readOracle f p.2.2.xc p) (liftOracle (f q.2.xc) q) := by
  obtain ⟨w, h1, E⟩ := p
  obtain ⟨w', Ev⟩ := q
  obtain ⟨rfl, rfl, rfl, hr⟩ := h
  simp only [HEll.readOracle, liftOracle, HEll.load_eq]
  cases f (h1 E.xc) w with
  | error e => exact rfl
  | ok a => exact ⟨⟨rfl, rfl, rfl, hr⟩, rfl⟩

/-- **C140** (what a rounded probe does, as `C14_adaptor_ell`).  The answer is that of `cutting_plane_feas` on a value copy after `P.update(t)`; whatever the answer, the centre of the
original ellipsoid is afterwards the final centre of the probe, its shape, scale and flags are as before. -/
theorem C140_adaptor (hn : n ≠ 1) (pUpdate : T → W → Except PyErr W) (f : (Fin n → ℝ) → W → Except PyErr (W × Option ((Fin n → ℝ) × Beta)))
    (o : Options ℝ) (t : T) (w : W) (h : Heap n) (E : HEll n) :
    SimRes (fun a b => a.2 = b.2.feasible ∧ a.1.1 = b.1.1 ∧ a.1.2.2 = E ∧ a.1.2.1 E.xc = b.1.2.xc ∧ ∀ r, r ≠ E.xc → a.1.2.1 r = h r)
      (probeEllF fl vdot pUpdate f o t (w, h, E))
      (match pUpdate t w with
        | .error e => .error e
        | .ok w1 => cuttingPlaneFeas (fun x => liftOracle (f x)) ((Ell.spaceF fl vdot).beside W) o (w1, E.load h)) := by
  have hcopy : E.copy = .ok E := by
    have := (C24_ell_init_fails (.scalar E.kappa) (h E.xc)).not.2 hn
    unfold Ell.init at this
    unfold HEll.copy HEll.init
    cases hc : c1? n with
    | error e => rw [hc] at this; simp at this
    | ok c => rfl
  simp only [probeEllF, bsearchAdaptor, hcopy]
  cases pUpdate t w with
  | error e => exact rfl
  | ok w1 =>
    simp only
    have := feas_sim
      (R := fun (p : (W × Heap n × HEll n) × HEll n) (q : W × Ell n) => RelF h E.xc p.1 q ∧ p.2 = E)
      (S1 := besides (HEll.spaceF fl vdot W)) (S2 := (Ell.spaceF fl vdot).beside W)
      (Ω1 := fun x => besidesCall (HEll.readOracle f x)) (Ω2 := fun x => liftOracle (f x))
      (by
        rintro ⟨p1, p2⟩ q ⟨hR, rfl⟩
        simp only [besides, besidesCall]
        rcases (oracleF_sim f p1 q hR).elim with ⟨e, h1, h2⟩ | ⟨a, b, h1, h2, h3, h4⟩
        · rw [show (HEll.spaceF fl vdot W).xc p1 = p1.2.2.xc from rfl, h1,
            show ((Ell.spaceF fl vdot).beside W).xc q = q.2.xc from rfl, h2]; exact rfl
        · rw [show (HEll.spaceF fl vdot W).xc p1 = p1.2.2.xc from rfl, h1,
            show ((Ell.spaceF fl vdot).beside W).xc q = q.2.xc from rfl, h2]; exact ⟨⟨h3, rfl⟩, h4⟩)
      (by
        rintro c ⟨p1, p2⟩ q ⟨hR, rfl⟩
        simp only [besides]
        rcases (spaceF_sim (fl := fl) (vdot := vdot) c p1 q hR).elim with ⟨e, h1, h2⟩ | ⟨a, b, h1, h2, h3, h4⟩
        · rw [h1, h2]; exact rfl
        · rw [h1, h2]; exact ⟨⟨h3, rfl⟩, h4⟩) o (w1 := ((w1, h, E), E)) (w2 := (w1, E.load h))
      ⟨⟨rfl, rfl, rfl, fun _ _ => rfl⟩, rfl⟩
    rcases this.elim with ⟨e, h1, h2⟩ | ⟨⟨⟨⟨a1, ah, aE⟩, a3⟩, i⟩, ⟨⟨b1, b2⟩, j⟩, h1, h2, ⟨⟨h3, h4, h5, h6⟩, h7⟩, h8⟩
    · rw [h1, h2]; exact rfl
    · simp only at h3 h4 h5 h6 h7 h8
      subst h3 h4 h7 h8
      rw [h1, h2]
      by_cases hf : i.feasible = true
      · simp only [hf, if_true]
        refine ⟨hf.symm ▸ rfl, rfl, ?_, ?_, h6⟩
        · simp only [HEll.setXc, besides, HEll.spaceF, h5]
        · simp only [HEll.load_eq, h5]
      · have hf' : i.feasible = false := by simpa using hf
        simp only [hf', Bool.false_eq_true, if_false]
        refine ⟨hf'.symm ▸ rfl, rfl, rfl, ?_, h6⟩
        simp only [HEll.load_eq, h5]

/-! ### Probes with an oracle that is right up to rounding -/

/-- A feasibility oracle with a level set by `update`, as `LevelOracle`, for rounded oracles: `Acc t x` is what accepting `x` at level `t` means.  At levels of `Lev` and points of the box of
size `B` the oracle answers, and a cut is central or deep and keeps the points of the box with room by more than `δ`. -/
structure RoundedLevelOracle (Lev : Set T) (Acc Room : T → (Fin n → ℝ) → Prop) (δ B : ℝ) (Inv : T → W → Prop) (pUpdate : T → W → Except PyErr W)
    (f : (Fin n → ℝ) → W → Except PyErr (W × Option ((Fin n → ℝ) × Beta))) : Prop where
  upd : ∀ s t w, Inv s w → ∃ w', pUpdate t w = .ok w' ∧ Inv t w'
  pres : ∀ t x w w' r, Inv t w → f x w = .ok (w', r) → Inv t w' ∧ (r = none → Acc t x)
  cuts : ∀ t ∈ Lev, ∀ x : Fin n → ℝ, (∀ i, |x i| ≤ B) → ∀ w, Inv t w → (∃ w', f x w = .ok (w', none)) ∨ ∃ w' g β, f x w = .ok (w', some (g, .scalar β)) ∧ 0 ≤ β ∧
    ∀ z : Fin n → ℝ, (∀ i, |z i| ≤ B) → Room t z → g ⬝ᵥ (z - x) + β ≤ -δ

/-- A rejection at level `t` from centre `c`: no ball of radius `r` inside the ball of radius `R` about `c`, with its centre in the box of size `A`, has room at level `t`. -/
def RejectedBall (Room : T → (Fin n → ℝ) → Prop) (R r A : ℝ) (t : T) (c : Fin n → ℝ) : Prop :=
  ∀ a, (∀ i, |a i| ≤ A) → euclBall a r ⊆ euclBall c R → ∃ z ∈ euclBall a r, ¬ Room t z

/-- The ellipsoid `ell(R², x)` builds, seen through any heap. -/
private theorem load_ball {R : ℝ} {E : HEll n} {x : Ref} (hE : HEll.init (.scalar (R ^ 2)) x = .ok E) (h : Heap n) : E.xc = x ∧ E.load h = ⟨true, false, h x, 1, R ^ 2⟩ := by
  unfold HEll.init at hE
  split at hE
  · simp at hE
  · simp only [Except.ok.injEq] at hE
    subst hE
    exact ⟨rfl, rfl⟩

/-- **C140** (one probe, acceptance).  Fix the radius `R` of the adaptor's ellipsoid, a radius `r` and a box.  There are an `N`, a box of size `B` and a precision such that with that
precision or a better one, `max_it ≥ N` and a tolerance below `199/200·δ²`, every probe at a level of `Lev` answers `True`, in particular raises nothing, if some ball of radius `r`
with its centre in the box, inside the ball of radius `R` about the *current* centre, has room; the centre array then holds an accepted point. -/
theorem C140_accepts (hn : 2 ≤ n) {R r : ℝ} (A : ℝ) (hR : 0 < R) (hr : 0 < r) :
    ∃ (N : ℕ) (B ε₀ : ℝ), 0 < ε₀ ∧ ∀ u, 0 ≤ u → u ≤ ε₀ → ∀ fl vdot, RelErr u fl → VecDotErr u vdot →
      ∀ (Lev : Set T) (Acc Room : T → (Fin n → ℝ) → Prop) (δ : ℝ) (Inv : T → W → Prop) (pUpdate : T → W → Except PyErr W)
        (f : (Fin n → ℝ) → W → Except PyErr (W × Option ((Fin n → ℝ) × Beta))), RoundedLevelOracle Lev Acc Room δ B Inv pUpdate f → 0 < δ →
      ∀ o : Options ℝ, o.tol ≤ 199 / 200 * δ ^ 2 → (N : Int) ≤ o.maxIt → ∀ s t w h E x, Inv s w → t ∈ Lev → HEll.init (.scalar (R ^ 2)) x = .ok E →
      ∀ a, (∀ i, |a i| ≤ A) → euclBall a r ⊆ euclBall (h x) R → (∀ z ∈ euclBall a r, Room t z) →
        ∃ w' h', probeEllF fl vdot pUpdate f o t (w, h, E) = .ok ((w', h', E), true) ∧ Inv t w' ∧ Acc t (h' x) ∧ ∀ r, r ≠ x → h' r = h r := by
  set c := volume.real (euclBall (0 : Fin n → ℝ) 1) with hc
  have hc0 : 0 < c := euclBall_real_pos
  obtain ⟨N, L, ε₀, hε₀, C, η, b, l, q, D, v, hN, hS⟩ := C133_uniform (V := R ^ n * c) (a := min (r ^ n * c) (R ^ n * c)) (L₀ := R ^ 2) hn (A + r)
    (by positivity) (min_le_right _ _) (by positivity)
  refine ⟨N, A + r + √L, ε₀, hε₀, fun u hu0 hu fl vdot hfl hvdot Lev Acc Room δ Inv pUpdate f hO hδ o htol hmax s t w h E x hw ht hE a ha hball hroom => ?_⟩
  obtain ⟨hx, hload⟩ := load_ball hE h
  set E₀ : Ell n := ⟨true, false, h x, 1, R ^ 2⟩ with hE₀
  have hprop : E₀.Proper := ⟨hn, PosDef.one, by positivity⟩
  have hpts : E₀.pts = euclBall (h x) R := euclBall_eq_pts hn (h x) R true false
  have hball' : euclBall a r ⊆ E₀.pts := by rw [hpts]; exact hball
  have hvol : volume.real E₀.pts = R ^ n * c := by rw [hpts, vol_ball hn hR]
  have hvolb : volume.real (euclBall a r ∩ E₀.pts) = r ^ n * c := by rw [Set.inter_eq_left.2 hball', vol_ball hn hr]
  have hle : r ^ n * c ≤ R ^ n * c := by
    rw [← hvol, ← hvolb]
    exact measureReal_mono Set.inter_subset_right (volume_pts_ne_top hprop)
  rw [min_eq_left hle] at hN hS
  have hwithin : E₀.Within (R ^ 2) := fun y => by rw [hE₀]; simp
  have hKA : ∀ z ∈ euclBall a r, ∀ i, |z i| ≤ A + r := fun z hz i => (ball_coord hr.le hz i).trans (by linarith [ha i])
  have hsure := hS E₀ (euclBall a r) hwithin hKA hvol hvolb u u hu0 le_rfl hu {x | ∀ i, |x i| ≤ A + r + √L} fun x hx => hx
  have hmem : a ∈ euclBall a r := by
    change ∑ i, (a i - a i) ^ 2 ≤ r ^ 2; simp; positivity
  have hKB : ∀ z ∈ euclBall a r, ∀ i, |z i| ≤ A + r + √L := fun z hz i => (hKA z hz i).trans (by linarith [Real.sqrt_nonneg L])
  have hkeep : FeasKeeps (euclBall a r) {x | ∀ i, |x i| ≤ A + r + √L} (Inv t) o.tol f := by
    intro y hy w hw
    rcases hO.cuts t ht y hy w hw with h1 | ⟨w', g, β, h1, h2, h3⟩
    · exact .inl h1
    · refine .inr ⟨w', g, β, h1, (hO.pres _ _ _ _ _ hw h1).1, h2, ?_, fun z hz => ?_⟩
      · rintro rfl
        have := h3 a (hKB a hmem) (hroom a hmem)
        rw [zero_dotProduct] at this
        linarith
      · have h4 := h3 z (hKB z hz) (hroom z hz)
        refine ⟨by linarith, htol.trans ?_⟩
        have : δ ^ 2 ≤ (g ⬝ᵥ (z - y)) ^ 2 := by
          rw [← neg_sq (g ⬝ᵥ (z - y))]
          exact pow_le_pow_left₀ hδ.le (by linarith) 2
        linarith
  obtain ⟨w1, hu1, hw1⟩ := hO.upd s t w hw
  obtain ⟨⟨w2, E2⟩, info, r1, r2, -, -, -, w3, r5, r6⟩ := C133_feas hsure hprop hfl hu0 le_rfl hvdot hkeep hw1 (by rw [hvol, hvolb]; exact hN) hmax
  obtain ⟨r7, r8⟩ := hO.pres _ _ _ _ _ r5 r6
  rcases (C140_adaptor (fl := fl) (vdot := vdot) (by omega) pUpdate f o t w h E).elim with ⟨e, h8, h9⟩ | ⟨⟨⟨v', h', E'⟩, b'⟩, q', h8, h9, h10, h11, h12, h13, h14⟩
  · rw [hu1, hload] at h9
    dsimp only at h9
    rw [show o = ⟨o.maxIt, o.tol⟩ from rfl, r1] at h9
    simp at h9
  · rw [hu1, hload] at h9
    dsimp only at h9 h10 h11 h12 h13 h14
    rw [show o = ⟨o.maxIt, o.tol⟩ from rfl, r1] at h9
    simp only [Except.ok.injEq] at h9
    subst h9
    dsimp only at h10 h11 h12 h13
    subst h10 h11 h12
    rw [r2] at h8
    rw [hx] at h13 h14
    exact ⟨v', h', h8, r7, by rw [h13]; exact r8 rfl, h14⟩

/-- The oracle's invariant survives any run of `cutting_plane_feas` on a rounded `ell`. -/
private theorem feasF_inv {f : (Fin n → ℝ) → W → Except PyErr (W × Option ((Fin n → ℝ) × Beta))} {P : W → Prop} {o : Options ℝ} {w w' : W} {E E' : Ell n} {info : CInfo}
    (hf : ∀ x w w' r, P w → f x w = .ok (w', r) → P w') (hw : P w)
    (h : cuttingPlaneFeas (fun x => liftOracle (f x)) ((Ell.spaceF fl vdot).beside W) o (w, E) = .ok ((w', E'), info)) :
    P w' ∧ (info.feasible = true → ∃ u, P u ∧ f E'.xc u = .ok (w', none)) := by
  have hup : ∀ {c} {p p' : W × Ell n} {st tsq}, ((Ell.spaceF fl vdot).beside W).update c p = .ok (p', st, tsq) → p'.1 = p.1 := by
    intro c p p' st tsq h
    simp only [Space.beside, Ell.spaceF] at h
    split at h
    · simp at h
    · simp only [Except.ok.injEq, Prod.mk.injEq] at h
      rw [← h.1]
  obtain ⟨s, i, hfr, hs, rfl⟩ := feas_ok h
  have key : ∀ {j s1}, Rounds (feasBody (fun x => liftOracle (f x)) ((Ell.spaceF fl vdot).beside W) o.tol) 0
      ⟨(w, E), false, .success⟩ j s1 → P s1.w.1 ∧ s1.feasible = false := by
    intro j s1 hr
    refine Rounds.inv (fun _ s1 => P s1.w.1 ∧ s1.feasible = false) ⟨hw, rfl⟩ ?_ hr
    rintro j s s' ⟨h1, h2⟩ hb
    obtain ⟨w1, c, w2, tsq, hq, hu, -, rfl⟩ := feasBody_cont hb
    refine ⟨?_, h2⟩
    dsimp only
    rw [hup hu]
    exact hf _ _ _ _ h1 (liftOracle_ok hq).1
  have hw1 : w' = s.w.1 := by rw [← hs]
  have hE1 : E' = s.w.2 := by rw [← hs]
  rw [hw1, hE1]
  clear h hs
  rcases forRange_ok hfr with ⟨s1, -, hr, hb⟩ | ⟨-, hr⟩
  · obtain ⟨h1, h2⟩ := key hr
    rcases feasBody_brk hb with ⟨w1, hq, rfl⟩ | ⟨w1, c, w2, st, tsq, hq, hu, hne, rfl⟩ |
      ⟨w1, c, w2, tsq, hq, hu, ht, rfl⟩
    · obtain ⟨hq1, hq2⟩ := liftOracle_ok hq
      refine ⟨hf _ _ _ _ h1 hq1, fun _ => ⟨_, h1, ?_⟩⟩
      dsimp only; rw [hq2]; exact hq1
    all_goals
      refine ⟨?_, fun h => absurd h (by simp [h2])⟩
      dsimp only
      rw [hup hu]
      exact hf _ _ _ _ h1 (liftOracle_ok hq).1
  · obtain ⟨h1, h2⟩ := key hr
    exact ⟨h1, fun h => absurd h (by simp [h2])⟩

/-- **C140** (one probe, any outcome).  With `N`, the box and the precision as in `C140_accepts`: if a probe returns, shape, scale and flags of the ellipsoid are unchanged and no other
array is touched; with `True` the centre array holds an accepted point; with `False` the level is rejected for the ball of radius `R` about the centre the probe *started* from. -/
theorem C140_verdict (hn : 2 ≤ n) {R r : ℝ} (A : ℝ) (hR : 0 < R) (hr : 0 < r) :
    ∃ (N : ℕ) (B ε₀ : ℝ), 0 < ε₀ ∧ ∀ u, 0 ≤ u → u ≤ ε₀ → ∀ fl vdot, RelErr u fl → VecDotErr u vdot →
      ∀ (Lev : Set T) (Acc Room : T → (Fin n → ℝ) → Prop) (δ : ℝ) (Inv : T → W → Prop) (pUpdate : T → W → Except PyErr W)
        (f : (Fin n → ℝ) → W → Except PyErr (W × Option ((Fin n → ℝ) × Beta))), RoundedLevelOracle Lev Acc Room δ B Inv pUpdate f → 0 < δ →
      ∀ o : Options ℝ, o.tol ≤ 199 / 200 * δ ^ 2 → (N : Int) ≤ o.maxIt → ∀ s t w h E x w' h' E' b, Inv s w → t ∈ Lev → HEll.init (.scalar (R ^ 2)) x = .ok E →
      probeEllF fl vdot pUpdate f o t (w, h, E) = .ok ((w', h', E'), b) →
        E' = E ∧ Inv t w' ∧ (∀ r, r ≠ x → h' r = h r) ∧ (b = true → Acc t (h' x)) ∧ (b = false → RejectedBall Room R r A t (h x)) := by
  obtain ⟨N, B, ε₀, hε₀, hacc⟩ := C140_accepts (W := W) (T := T) hn A hR hr
  refine ⟨N, B, ε₀, hε₀, fun u hu0 hu fl vdot hfl hvdot Lev Acc Room δ Inv pUpdate f hO hδ o htol hmax s t w h E x w' h' E' b hw ht hE hrun => ?_⟩
  obtain ⟨hx, hload⟩ := load_ball hE h
  obtain ⟨w1, hu1, hw1⟩ := hO.upd s t w hw
  rcases (C140_adaptor (fl := fl) (vdot := vdot) (by omega) pUpdate f o t w h E).elim with ⟨e, h8, h9⟩ | ⟨⟨⟨v, h2, E2⟩, b2⟩, ⟨⟨v3, E3⟩, info⟩, h8, h9, h10, h11, h12, h13, h14⟩
  · rw [hrun] at h8; simp at h8
  rw [hrun] at h8
  simp only [Except.ok.injEq, Prod.mk.injEq] at h8
  obtain ⟨⟨rfl, rfl, rfl⟩, rfl⟩ := h8
  rw [hu1] at h9
  dsimp only at h9 h10 h11 h12 h13 h14
  subst h11 h12
  rw [hx] at h13 h14
  obtain ⟨h15, h16⟩ := feasF_inv (P := Inv t) (fun x w w' r hw h => (hO.pres t x w w' r hw h).1) hw1 h9
  refine ⟨rfl, h15, h14, fun hb => ?_, fun hb => ?_⟩
  · rw [← h10, hb] at h16
    obtain ⟨y, hy1, hy2⟩ := h16 rfl
    rw [h13]
    exact (hO.pres _ _ _ _ _ hy1 hy2).2 rfl
  · intro a ha hball
    by_contra hcon
    push Not at hcon
    obtain ⟨w5, h5, h17, -⟩ := hacc u hu0 hu fl vdot hfl hvdot Lev Acc Room δ Inv pUpdate f hO hδ o htol hmax s t w h E' x hw ht hE a ha hball hcon
    rw [hrun] at h17
    simp only [Except.ok.injEq, Prod.mk.injEq] at h17
    rw [hb] at h17
    simp at h17

/-! ### The search -/

/-- One step of the bracket. -/
private theorem bracket_step {p : ℕ} {fq : ℚ → ℚ} {lo up l u : ℚ} {j : ℕ} (hfq : Nearest p fq) (hp : 1 ≤ p) (h2 : Rep p u) (h3 : Rep p l) (h5 : lo ≤ l) (h6 : l ≤ u) (h7 : u ≤ up)
    (h8 : u - l ≤ ((1 + 1 / 2 ^ p) / 2) ^ j * (up - lo) + 2 * max |lo| |up| / (2 ^ p - 1)) :
    let t := midF fq l (tauF fq u l)
    Rep p t ∧ l ≤ t ∧ t ≤ u ∧ t - l ≤ ((1 + 1 / 2 ^ p) / 2) ^ (j + 1) * (up - lo) + 2 * max |lo| |up| / (2 ^ p - 1) ∧
      u - t ≤ ((1 + 1 / 2 ^ p) / 2) ^ (j + 1) * (up - lo) + 2 * max |lo| |up| / (2 ^ p - 1) := by
  intro t
  have h2p : (2 : ℚ) ≤ 2 ^ p := by
    calc (2 : ℚ) = 2 ^ 1 := by norm_num
      _ ≤ 2 ^ p := pow_le_pow_right₀ (by norm_num) hp
  set M := max |lo| |up| with hM
  obtain ⟨b1, b2⟩ := midF_bounds hfq h3 h2 h6
  have hlM : |l| ≤ M := by
    rw [abs_le]
    constructor
    · have := (neg_abs_le lo); have := le_max_left |lo| |up|; linarith
    · have := (le_abs_self up); have := le_max_right |lo| |up|; linarith
  have huM : |u| ≤ M := by
    rw [abs_le]
    constructor
    · have := (neg_abs_le lo); have := le_max_left |lo| |up|; linarith
    · have := (le_abs_self up); have := le_max_right |lo| |up|; linarith
  obtain ⟨n1, n2⟩ := midF_near hfq h6 hlM huM
  have hstep : (1 + 1 / 2 ^ p) / 2 * (u - l) + M / 2 ^ p ≤ ((1 + 1 / 2 ^ p) / 2) ^ (j + 1) * (up - lo) + 2 * M / (2 ^ p - 1) := by
    have hq0 : (0 : ℚ) ≤ (1 + 1 / 2 ^ p) / 2 := by positivity
    have e1 := mul_le_mul_of_nonneg_left h8 hq0
    have e2 : (1 + 1 / 2 ^ p) / 2 * (2 * M / (2 ^ p - 1)) + M / 2 ^ p = 2 * M / (2 ^ p - 1) := by
      have : (2 : ℚ) ^ p - 1 ≠ 0 := by linarith
      field_simp
      ring
    rw [pow_succ]
    linarith
  exact ⟨hfq.rep _, b1, b2, n1.trans hstep, n2.trans hstep⟩

/-- **C140** (the search).  `bsearch(bsearch_adaptor(P, ell(R², x), o), [lo, up], ob)` with every operation rounded, also those of the binary search (`p` bits), whenever it returns
`upper`.  With `N`, the box and the precision of `C140_accepts`, after `j` probes there is a lower end `l` of the bracket such that
* the bracket is as small as the rounded halving makes it (`< 2·tol` on `smallenough`; otherwise `j = max_it`);
* `upper` is `up`, or was accepted at some point;
* `l` is `lo`, or was rejected from some centre `c`;
* `x_best` (the centre array) is the start centre if no probe was made; it is accepted at level `upper` if the last probe was accepted; otherwise it is what the failed last probe, at
  level `l`, left behind;
* the ellipsoid's shape is unchanged and no array but its centre has been written. -/
theorem C140_search (hn : 2 ≤ n) {R r : ℝ} (A : ℝ) (hR : 0 < R) (hr : 0 < r) :
    ∃ (N : ℕ) (B ε₀ : ℝ), 0 < ε₀ ∧ ∀ u, 0 ≤ u → u ≤ ε₀ → ∀ fl vdot, RelErr u fl → VecDotErr u vdot → ∀ p fq, Nearest p fq → 1 ≤ p → ∀ lo up : ℚ, Rep p lo → Rep p up → lo ≤ up →
      ∀ (Acc Room : ℝ → (Fin n → ℝ) → Prop) (δ : ℝ) (Inv : ℝ → W → Prop) (pUpdate : ℝ → W → Except PyErr W)
        (f : (Fin n → ℝ) → W → Except PyErr (W × Option ((Fin n → ℝ) × Beta))), RoundedLevelOracle (Set.Icc (lo : ℝ) up) Acc Room δ B Inv pUpdate f → 0 < δ →
      ∀ o : Options ℝ, o.tol ≤ 199 / 200 * δ ^ 2 → (N : Int) ≤ o.maxIt → ∀ (ob : Options ℚ) s w h E x w' h' E' upper info, Inv s w → HEll.init (.scalar (R ^ 2)) x = .ok E →
      bsearchF (tauF fq) (midF fq) (fun t => probeEllF fl vdot pUpdate f o (t : ℝ)) lo up ob (w, h, E) = .ok ((w', h', E'), upper, info) →
      (info.feasible = true ↔ upper ≠ up) ∧ E' = E ∧ (∀ r, r ≠ x → h' r = h r) ∧ ∃ (j : ℕ) (l : ℚ), lo ≤ l ∧ l ≤ upper ∧ upper ≤ up ∧
        upper - l ≤ ((1 + 1 / 2 ^ p) / 2) ^ j * (up - lo) + 2 * max |lo| |up| / (2 ^ p - 1) ∧
        (info.status = .smallenough ∧ (Rep p ob.tol → upper - l < 2 * ob.tol) ∨ info.status = .success ∧ (j : ℤ) = ob.maxIt) ∧
        (upper = up ∨ ∃ z, Acc upper z) ∧ (l = lo ∨ ∃ c, RejectedBall Room R r A l c) ∧
        (j = 0 ∧ h' = h ∨
          Acc upper (h' x) ∧ (∃ w1 h1, probeEllF fl vdot pUpdate f o (upper : ℝ) (w1, h1, E) = .ok ((w', h', E), true)) ∨
          ∃ w1 h1, probeEllF fl vdot pUpdate f o (l : ℝ) (w1, h1, E) = .ok ((w', h', E), false) ∧ RejectedBall Room R r A l (h1 x)) := by
  obtain ⟨N, B, ε₀, hε₀, hver⟩ := C140_verdict (W := W) (T := ℝ) hn A hR hr
  refine ⟨N, B, ε₀, hε₀, fun u hu0 hu fl vdot hfl hvdot p fq hfq hp lo up hrl hru hle Acc Room δ Inv pUpdate f hO hδ o htol hmax ob s w h E x w' h' E' upper info hw hE hrun => ?_⟩
  have hver := hver u hu0 hu fl vdot hfl hvdot (Set.Icc (lo : ℝ) up) Acc Room δ Inv pUpdate f hO hδ o htol hmax
  obtain ⟨st, i, hf, hst, rfl, rfl⟩ := bsearchF_ok hrun
  have h2p : (2 : ℚ) ≤ 2 ^ p := by
    calc (2 : ℚ) = 2 ^ 1 := by norm_num
      _ ≤ 2 ^ p := pow_le_pow_right₀ (by norm_num) hp
  let J : ℕ → BsSt (W × Heap n × HEll n) ℚ → Prop := fun j st =>
    st.status = .success ∧ (∃ s, Inv s st.w.1) ∧ st.w.2.2 = E ∧ (∀ r, r ≠ x → st.w.2.1 r = h r) ∧ (Rep p st.upper ∧ Rep p st.lower ∧ lo ≤ st.lower ∧ st.lower ≤ st.upper ∧ st.upper ≤ up ∧
      st.upper - st.lower ≤ ((1 + 1 / 2 ^ p) / 2) ^ j * (up - lo) + 2 * max |lo| |up| / (2 ^ p - 1)) ∧ (st.upper = up ∨ ∃ z, Acc st.upper z) ∧
      (st.lower = lo ∨ ∃ c, RejectedBall Room R r A st.lower c) ∧
      (j = 0 ∧ st.w.2.1 = h ∨
        Acc st.upper (st.w.2.1 x) ∧ (∃ w1 h1, probeEllF fl vdot pUpdate f o (st.upper : ℝ) (w1, h1, E) = .ok (st.w, true)) ∨
        ∃ w1 h1, probeEllF fl vdot pUpdate f o (st.lower : ℝ) (w1, h1, E) = .ok (st.w, false) ∧ RejectedBall Room R r A st.lower (h1 x))
  have key : ∀ {j s1}, Rounds (bsearchBodyF (tauF fq) (midF fq) (fun t => probeEllF fl vdot pUpdate f o (t : ℝ)) ob.tol) 0 ⟨(w, h, E), lo, up, .success⟩ j s1 → J j s1 := by
    intro j s1 hrd
    refine Rounds.inv J ⟨rfl, ⟨s, hw⟩, rfl, fun _ _ => rfl, ⟨hru, hrl, le_rfl, hle, le_rfl, ?_⟩, .inl rfl, .inl rfl, .inl ⟨rfl, rfl⟩⟩ ?_ hrd
    · have : 0 ≤ 2 * max |lo| |up| / (2 ^ p - 1) := div_nonneg (by positivity) (by linarith)
      simpa using this
    rintro j ⟨⟨w1, h1, E1⟩, l, v, stt⟩ s' ⟨e1, ⟨s2, e2⟩, e3, e4, ⟨f1, f2, f3, f4, f5, f6⟩, e6, e7, e8⟩ hb
    dsimp only at e1 e2 e3 e4 e6 e7 e8 f1 f2 f3 f4 f5 f6
    subst e1 e3
    obtain ⟨g1, g2, g3, g4, g5⟩ := bracket_step hfq hp f1 f2 f3 f4 f5 f6
    rcases bsBodyF_ok hb with ⟨_, he⟩ | ⟨-, ⟨w2, h2, E2⟩, b, hq, he⟩
    · simp at he
    simp only [Step.cont.injEq] at he
    dsimp only at hq he
    set t := midF fq l (tauF fq v l) with ht
    obtain ⟨rfl, q2, q3, q4, q5⟩ := hver s2 (t : ℝ) w1 h1 E1 x w2 h2 E2 b e2 ⟨by exact_mod_cast f3.trans g2, by exact_mod_cast g3.trans f5⟩ hE hq
    have e4' : ∀ r, r ≠ x → h2 r = h r := fun r hr => (q3 r hr).trans (e4 r hr)
    cases b with
    | true =>
      simp only [if_true] at he
      subst he
      exact ⟨rfl, ⟨_, q2⟩, rfl, e4', ⟨g1, f2, f3, g2, g3.trans f5, g4⟩, .inr ⟨_, q4 rfl⟩, e7, .inr (.inl ⟨q4 rfl, w1, h1, hq⟩)⟩
    | false =>
      simp only [Bool.false_eq_true, if_false] at he
      subst he
      exact ⟨rfl, ⟨_, q2⟩, rfl, e4', ⟨f1, g1, f3.trans g2, g3, f5, g5⟩, e6, .inr ⟨_, q5 rfl⟩, .inr (.inr ⟨w1, h1, hq, q5 rfl⟩)⟩
  have h1 : w' = st.w.1 := by rw [← hst]
  have h2 : h' = st.w.2.1 := by rw [← hst]
  have h3 : E' = st.w.2.2 := by rw [← hst]
  subst h1 h2 h3
  refine ⟨by simp, ?_⟩
  rcases forRange_ok hf with ⟨s1, hi, hrd, hb⟩ | ⟨hi, hrd⟩
  · obtain ⟨-, -, e3, e4, ⟨f1, f2, f3, f4, f5, f6⟩, e6, e7, e8⟩ := key hrd
    rcases bsBodyF_ok hb with ⟨hn', he⟩ | ⟨_, wl1, b, hq, he⟩
    · simp only [Step.brk.injEq] at he
      subst he
      refine ⟨e3, e4, i, s1.lower, f3, f4, f5, f6, .inl ⟨rfl, fun ht => tauF_small hfq ht hn'⟩, e6, e7, ?_⟩
      have : (s1.w.1, s1.w.2.1, E) = s1.w := by rw [← e3]
      rw [this]; exact e8
    · simp at he
  · obtain ⟨e1, -, e3, e4, ⟨f1, f2, f3, f4, f5, f6⟩, e6, e7, e8⟩ := key hrd
    refine ⟨e3, e4, i + 1, st.lower, f3, f4, f5, f6, .inr ⟨e1, ?_⟩, e6, e7, ?_⟩
    · simpa using hi
    have : (st.w.1, st.w.2.1, E) = st.w := by rw [← e3]
    rw [this]; exact e8

/-! ### `qmi_oracle` -/

/-- Whatever `getA` preserves, the rounded `factor` preserves. -/
theorem factorF_world {V α : Type _} [Field α] [LinearOrder α] {fl : α → α} {dot : ℕ → ℕ → (ℕ → α) → (ℕ → α) → α} {getA : ℕ → ℕ → V → Except PyErr (V × α)} (P : V → Prop)
    (hP : ∀ i j w w' a, P w → getA i j w = .ok (w', a) → P w') {Q Q' : CholExt α} {w w' : V} {b : Bool}
    (h : Q.factorF fl dot getA w = .ok (w', Q', b)) (hw : P w) : P w' := by
  have inner : ∀ s i r j T d w w' T' d', P w → cholInnerF fl dot getA s i r j T d w = .ok (w', T', d') → P w' := by
    intro s i r
    induction r with
    | zero =>
      intro j T d w w' T' d' hw h
      simp only [cholInnerF, Except.ok.injEq, Prod.mk.injEq] at h
      exact h.1 ▸ hw
    | succ r ih =>
      intro j T d w w' T' d' hw h
      simp only [cholInnerF] at h
      split at h
      · simp at h
      split at h
      · simp at h
      · rename_i hg
        exact ih _ _ _ _ _ _ _ (hP _ _ _ _ _ hw hg) h
  have rows : ∀ al r i s T w w' T' p, P w → cholRowsF fl dot getA al r i s T w = .ok (w', T', p) → P w' := by
    intro al r
    induction r with
    | zero =>
      intro i s T w w' T' p hw h
      simp only [cholRowsF, Except.ok.injEq, Prod.mk.injEq] at h
      exact h.1 ▸ hw
    | succ r ih =>
      intro i s T w w' T' p hw h
      simp only [cholRowsF] at h
      split at h
      · simp at h
      rename_i w1 d0 hg
      split at h
      · simp at h
      rename_i w2 T1 d hin
      have hw2 := inner _ _ _ _ _ _ _ _ _ _ (hP _ _ _ _ _ hw hg) hin
      split_ifs at h
      · exact ih _ _ _ _ _ _ _ hw2 h
      · simp only [Except.ok.injEq, Prod.mk.injEq] at h
        exact h.1 ▸ hw2
      · exact ih _ _ _ _ _ _ _ hw2 h
  simp only [CholExt.factorF] at h
  split at h
  · simp at h
  · rename_i hr
    simp only [Except.ok.injEq, Prod.mk.injEq] at h
    rw [← h.1]
    exact rows _ _ _ _ _ _ _ _ _ hw hr

/-- A rounded call never changes the level. -/
theorem qmiCallF_level {dot : ℕ → ℕ → (ℕ → ℝ) → (ℕ → ℝ) → ℝ} {F : Fin k → ℕ → ℕ → ℝ} {F0 : ℕ → ℕ → ℝ} {nr nc : ℕ} {x : Fin k → ℝ} {o o' : QmiOracle ℝ}
    {r : Option ((Fin k → ℝ) × ℝ)} (h : qmiCallF fl dot F F0 nr nc x o = .ok (o', r)) : o'.qmi.t = o.qmi.t := by
  have key : ∀ s1 Q1 b, o.Q.factorF fl dot (qmiEvalF fl dot F F0 nr x) { o.qmi with count := 0 } = .ok (s1, Q1, b) → s1.t = o.qmi.t := by
    intro s1 Q1 b hf
    refine factorF_world (fun s : QmiSt ℝ => s.t = o.qmi.t) ?_ hf rfl
    intro i j w w' a hw hg
    simp only [qmiEvalF] at hg
    split_ifs at hg <;> simp only [Except.ok.injEq, Prod.mk.injEq] at hg <;> rw [← hg.1] <;> exact hw
  unfold qmiCallF at h
  dsimp only at h
  split at h
  · simp at h
  · rename_i s1 Q1 hf
    simp only [Except.ok.injEq, Prod.mk.injEq] at h
    rw [← h.1]; exact key _ _ _ hf
  · rename_i s1 Q1 hf
    split at h
    · simp at h
    split at h
    · simp at h
    · simp only [Except.ok.injEq, Prod.mk.injEq] at h
      rw [← h.1]; exact key _ _ _ hf

section
variable {γ η δ ζ R : ℝ} {dot : ℕ → ℕ → (ℕ → ℝ) → (ℕ → ℝ) → ℝ} {F : Fin k → ℕ → ℕ → ℝ} {F0 : ℕ → ℕ → ℝ}

/-- **C140** (one call of `qmi_oracle`).  A rounded call on any object that can be reused raises nothing and keeps the level, and its answer is right up to `lsqUnit`. -/
theorem C140_qmi_call (hF : ∀ q, SymOn (F q) m) (hfl : RelErr u fl) (hu0 : 0 ≤ u) (hγ : 0 ≤ γ) (hdot : DotErr γ m dot) (hθ : 3 * u + 2 * γ ≤ 1 / 10)
    (hη : (1 + u) ^ (k + 2) ≤ 1 + η) (hδ : (1 + u) * ((1 + γ) * ((1 + η) * (1 + η))) ≤ 1 + δ) (hζ : (1 + u) * ((1 + γ) * ((1 + γ) * ((1 + γ) * (1 + η)))) ≤ 1 + ζ) (hδ1 : δ ≤ 1 / 10)
    {x : Fin k → ℝ} (hx : ∀ q, |x q| ≤ R) {o : QmiOracle ℝ} (ht : |o.qmi.t| ≤ R) (hQ : Ready m o.Q) :
    ∃ o' r, qmiCallF fl dot F F0 m m x o = .ok (o', r) ∧ Ready m o'.Q ∧ o'.qmi.t = o.qmi.t ∧
      (r = none → AtLeast (-lsqUnit F F0 m R u γ δ ζ) (tiMinusGram m o.qmi.t (pencil F F0 x)) m) ∧
      ∀ g ep, r = some (g, ep) → 0 ≤ ep ∧ ∀ (z : Fin k → ℝ) μ, (∀ q, |z q| ≤ R) → lsqUnit F F0 m R u γ δ ζ ≤ μ → AtLeast μ (tiMinusGram m o.qmi.t (pencil F F0 z)) m →
        g ⬝ᵥ (z - x) + ep ≤ -(μ - lsqUnit F F0 m R u γ δ ζ) := by
  have hη0 : 0 ≤ η := by have := one_le_pow₀ (show 1 ≤ 1 + u by linarith) (n := k + 2); linarith
  have hηδ : η ≤ δ := by
    have e1 : 1 + η ≤ (1 + η) * (1 + η) := le_mul_of_one_le_left (by linarith) (by linarith)
    have e2 : (1 + η) * (1 + η) ≤ (1 + γ) * ((1 + η) * (1 + η)) := le_mul_of_one_le_left (by positivity) (by linarith)
    have e3 : (1 + γ) * ((1 + η) * (1 + η)) ≤ (1 + u) * ((1 + γ) * ((1 + η) * (1 + η))) := le_mul_of_one_le_left (by positivity) (by linarith)
    linarith
  have hδ0 : 0 ≤ δ := hη0.trans hηδ
  have hζ0 : 0 ≤ ζ := by
    have e1 : 1 ≤ (1 + γ) * (1 + η) := one_le_mul_of_one_le_of_one_le (by linarith) (by linarith)
    have e2 : 1 ≤ (1 + γ) * ((1 + γ) * (1 + η)) := one_le_mul_of_one_le_of_one_le (by linarith) e1
    have e3 : 1 ≤ (1 + γ) * ((1 + γ) * ((1 + γ) * (1 + η))) := one_le_mul_of_one_le_of_one_le (by linarith) e2
    have e4 := one_le_mul_of_one_le_of_one_le (show 1 ≤ 1 + u by linarith) e3
    linarith
  have hR : 0 ≤ R := (abs_nonneg _).trans ht
  set P := entrySum F F0 m * (1 + R) with hP
  have hP0 : 0 ≤ P := mul_nonneg (entrySum_nonneg F F0 m) (by linarith)
  set M := lsqSize F F0 m R with hM
  have hMe : M = R + P + m * P ^ 2 := by rw [hM, lsqSize]
  have hmP : (0 : ℝ) ≤ m * P ^ 2 := by positivity
  have hM0 : 0 ≤ M := by rw [hMe]; linarith
  have hmPM : m * P ^ 2 ≤ M := by rw [hMe]; linarith
  set θ := 3 * u + 2 * γ with hθd
  have hθ0 : 0 ≤ θ := by positivity
  set ν := lsqUnit F F0 m R u γ δ ζ with hν
  have hνe : ν = (26 * θ + 2 * δ + 4 * ζ + 6 * γ + 2 * u) * ((m + 1) * M) := rfl
  have hm0 : (0 : ℝ) ≤ m := Nat.cast_nonneg _
  have hν1 : (26 * θ + 2 * δ + 4 * ζ + 6 * γ + 2 * u) * (m * M) ≤ ν := by
    rw [hνe]
    exact mul_le_mul_of_nonneg_left (mul_le_mul_of_nonneg_right (by linarith) hM0) (by positivity)
  have hpen : ∀ {y : Fin k → ℝ}, (∀ q, |y q| ≤ R) → ∀ i < m, ∀ j < m, absPencil F F0 y i j ≤ P := fun hy i hi j hj => pencil_abs_le F F0 hi hj hy hR
  have hgram : ∀ i < m, ∀ j < m, absGram m o.qmi.t (absPencil F F0 x) i j ≤ M := fun i hi j hj => (gram_abs_le F F0 hi hj hx ht).trans (by rw [hMe]; linarith)
  have hgabs : ∀ i j, |tiMinusGram m o.qmi.t (pencil F F0 x) i j| ≤ absGram m o.qmi.t (absPencil F F0 x) i j := fun i j => by
    unfold tiMinusGram absGram
    refine (abs_sub _ _).trans (add_le_add ?_ ((abs_sum_le_sum_abs _ _).trans (sum_le_sum fun l _ => ?_)))
    · split_ifs <;> simp
    · rw [abs_mul]
      exact mul_le_mul (abs_pencil_le F F0 _ _ _) (abs_pencil_le F F0 _ _ _) (abs_nonneg _) (absPencil_nonneg F F0 _ _ _)
  have hdiag : ∀ i < m, tiMinusGram m o.qmi.t (pencil F F0 x) i i + δ * absGram m o.qmi.t (absPencil F F0 x) i i ≤ √((1 + δ) * M) ^ 2 := fun i hi => by
    rw [Real.sq_sqrt (by positivity)]
    have k1 := (le_abs_self _).trans (hgabs i i)
    have k2 := hgram i hi i hi
    have k3 := mul_le_mul_of_nonneg_left k2 hδ0
    linarith
  obtain ⟨o', r, h1, h2, h3, h4⟩ := qmiF_core (F0 := F0) hF x hQ hfl hu0 (by linarith) hγ hdot (by linarith) hη hδ hζ
  refine ⟨o', r, h1, h2, qmiCallF_level h1, fun hr => ?_, fun g ep hr => ?_⟩
  · have k1 := mul_le_mul_of_nonneg_left (show 1 + δ ≤ 11 / 10 by linarith) hθ0
    have k2 := mul_le_mul_of_nonneg_right (show 5 / 4 * θ * (1 + δ) + δ ≤ 26 * θ + 2 * δ + 4 * ζ + 6 * γ + 2 * u by linarith) (show 0 ≤ m * M by positivity)
    refine (near_atLeast (fun i _ => tiMinusGram_le_absGram F F0 _ _ i) hgram hθ0 hδ0 hM0 (h3 hr)).mono ?_
    rw [mul_assoc]
    linarith
  · obtain ⟨a1, e, a2, a3, a4, -, -, a5⟩ := h4 g ep hr
    refine ⟨a1, fun z μ hz hμ hroom => ?_⟩
    have edot : g ⬝ᵥ (z - x) = ∑ q, g q * (z q - x q) := by simp [dotProduct]
    rw [edot]
    set v := o'.Q.v with hv
    obtain ⟨-, c1⟩ := a5 (fun _ => √((1 + δ) * M)) (fun _ => Real.sqrt_nonneg _) hdiag
    set G := m * M * ∑ i ∈ range e, v i ^ 2 with hG
    have hs0 : 0 ≤ ∑ i ∈ range e, v i ^ 2 := sum_nonneg fun i _ => sq_nonneg _
    have hG0 : 0 ≤ G := mul_nonneg (by positivity) hs0
    have sums : ∀ B' : ℝ, 0 ≤ B' → B' ≤ M → e * B' * (∑ i ∈ range e, v i ^ 2) ≤ G := fun B' hB hB' =>
      mul_le_mul_of_nonneg_right (mul_le_mul (by exact_mod_cast a3) hB' hB hm0) hs0
    have hS : (∑ i ∈ range e, √((1 + δ) * M) * |v i|) ^ 2 ≤ 11 / 10 * G := by
      have hD : 0 ≤ (1 + δ) * M := by positivity
      rw [← mul_sum, mul_pow, Real.sq_sqrt hD]
      have k1 := mul_le_mul_of_nonneg_left (abs_sum_sq_le e v) hD
      have k2 := mul_le_mul_of_nonneg_left (sums M hM0 le_rfl) (show 0 ≤ 1 + δ by linarith)
      have k3 := mul_le_mul_of_nonneg_right (show 1 + δ ≤ 11 / 10 by linarith) hG0
      linarith
    have b1 : quadOn (absGram m o.qmi.t (absPencil F F0 x)) 0 e (fun i => |v i|) ≤ G :=
      (quadOn_abs_le (fun i hi j hj => hgram i (by omega) j (by omega)) hM0 _).trans (sums M hM0 le_rfl)
    have b2 : 2 * ζ * (∑ q : Fin k, |z q - x q| * absBilin m e v (F q) (absPencil F F0 x)) ≤ 4 * ζ * G := by
      have k1 := quad_grad_le (F := F) (F0 := F0) a3 v (hpen hx) (hpen hz) hP0
      have k2 := mul_le_mul_of_nonneg_left (k1.trans (mul_le_mul_of_nonneg_left (sums _ hmP hmPM) zero_le_two)) (show 0 ≤ 2 * ζ by positivity)
      linarith
    have b3 := c1 x o.qmi.t
    simp only [sub_self, mul_zero, sum_const_zero, abs_zero, zero_mul, add_zero, zero_add] at b3
    have c2 := c1 z o.qmi.t
    rw [sub_self, zero_mul, add_zero] at c2
    have hfin := cut_room a1 hθ0 hθ hδ0 hδ1 hG0 c2 b3 ((neg_quadOn_le (fun i _ j _ => hgabs i j) v).trans b1) hS b1 b2
    have hs1 : 1 ≤ ∑ i ∈ range e, v i ^ 2 := by
      have := single_le_sum (f := fun i => v i ^ 2) (fun i _ => sq_nonneg _) (mem_range.2 (show e - 1 < e by omega))
      simp only [a4] at this
      linarith
    have hq := (hroom.sub a3) v
    have k1 : (26 * θ + δ + 4 * ζ) * (m * M) ≤ ν := le_trans (mul_le_mul_of_nonneg_right (by linarith) (by positivity)) hν1
    have k2 := mul_le_mul_of_nonneg_right k1 hs0
    have k3 := mul_le_mul_of_nonneg_right (show ν - μ ≤ 0 by linarith) (show 0 ≤ ∑ i ∈ range e, v i ^ 2 - 1 by linarith)
    rw [hG] at hfin
    linarith

/-- What accepting `x` at level `t` means with rounding: `t·I - F(x)'F(x) ⪰ -ν·(size of the numbers involved)·I`. -/
def QmiFits (F : Fin k → ℕ → ℕ → ℝ) (F0 : ℕ → ℕ → ℝ) (m : ℕ) (ν t : ℝ) (x : Fin k → ℝ) : Prop :=
  AtLeast (-(ν * lsqSize F F0 m (|t| + ∑ q, |x q|))) (tiMinusGram m t (pencil F F0 x)) m

/-- Room `μ` at level `t`. -/
def QmiRoom (F : Fin k → ℕ → ℕ → ℝ) (F0 : ℕ → ℕ → ℝ) (m : ℕ) (μ t : ℝ) (z : Fin k → ℝ) : Prop := AtLeast μ (tiMinusGram m t (pencil F F0 z)) m

/-- **C140**: `qmi_oracle` with rounding meets the contract of the adaptor's problem, in any state of use, if the arithmetic is precise enough. -/
theorem C140_qmi_level (hF : ∀ q, SymOn (F q) m) {μ ν : ℝ} (hμ : 0 < μ) (hν : 0 < ν) (B T : ℝ) :
    ∃ ζ₀ : ℝ, 0 < ζ₀ ∧ ∀ u, 0 ≤ u → u ≤ ζ₀ → ∀ fl dot, RelErr u fl → DotErr u m dot →
      RoundedLevelOracle {t | |t| ≤ T} (QmiFits F F0 m ν) (QmiRoom F F0 m μ) (μ / 2) B (fun t w => Ready m w.Q ∧ w.qmi.t = t) qmiUpdate (qmiOmegaF fl dot F F0 m) := by
  set η : ℝ → ℝ := fun u => (1 + u) ^ (k + 2) - 1 with hη
  set δ : ℝ → ℝ := fun u => (1 + u) * ((1 + u) * ((1 + η u) * (1 + η u))) - 1 with hδ
  set ζ : ℝ → ℝ := fun u => (1 + u) * ((1 + u) * ((1 + u) * ((1 + u) * (1 + η u)))) - 1 with hζ
  obtain ⟨s1, hs1, hs1'⟩ := small_of_cont (g := fun u => 2 * lsqUnit F F0 m (max B T) u u (δ u) (ζ u)) (c := μ)
    (by simp only [lsqUnit, hδ, hζ, hη]; fun_prop) (by simp [lsqUnit, hδ, hζ, hη]; exact hμ)
  obtain ⟨s2, hs2, hs2'⟩ := small_of_cont (g := δ) (c := 1 / 10) (by simp only [hδ, hη]; fun_prop) (by simp [hδ, hη])
  obtain ⟨s3, hs3, hs3'⟩ := small_of_cont (g := fun u => (26 * (3 * u + 2 * u) + 2 * δ u + 4 * ζ u + 6 * u + 2 * u) * (m + 1)) (c := ν)
    (by simp only [hδ, hζ, hη]; fun_prop) (by simp [hδ, hζ, hη]; exact hν)
  refine ⟨min (min s1 s2) (min s3 (1 / 50)), by positivity, fun u hu0 hu fl dot hfl hdot => ?_⟩
  have k1 : u ≤ s1 := hu.trans ((min_le_left _ _).trans (min_le_left _ _))
  have k2 : u ≤ s2 := hu.trans ((min_le_left _ _).trans (min_le_right _ _))
  have k3 : u ≤ s3 := hu.trans ((min_le_right _ _).trans (min_le_left _ _))
  have k4 : u ≤ 1 / 50 := hu.trans ((min_le_right _ _).trans (min_le_right _ _))
  have e1 : (1 + u) ^ (k + 2) ≤ 1 + η u := le_of_eq (by rw [hη]; ring)
  have e2 : (1 + u) * ((1 + u) * ((1 + η u) * (1 + η u))) ≤ 1 + δ u := le_of_eq (by rw [hδ]; ring)
  have e3 : (1 + u) * ((1 + u) * ((1 + u) * ((1 + u) * (1 + η u)))) ≤ 1 + ζ u := le_of_eq (by rw [hζ]; ring)
  have call : ∀ {R : ℝ} {x : Fin k → ℝ}, (∀ q, |x q| ≤ R) → ∀ {o : QmiOracle ℝ}, |o.qmi.t| ≤ R → Ready m o.Q → _ := fun {R x} hx {o} ht hQ =>
    C140_qmi_call (F0 := F0) hF hfl hu0 hu0 hdot (by linarith) e1 e2 e3 (hs2' u hu0 k2) hx ht hQ
  refine ⟨fun s t w hw => ⟨w.setT t, rfl, hw.1, rfl⟩, ?_, ?_⟩
  · rintro t x w w' r ⟨hQ, rfl⟩ h
    have hsum : 0 ≤ ∑ q, |x q| := sum_nonneg fun q _ => abs_nonneg _
    obtain ⟨o', r', h1, h2, h3, h4, -⟩ := call (R := |w.qmi.t| + ∑ q, |x q|) (x := x) (o := w)
      (fun q => by have := single_le_sum (f := fun q => |x q|) (fun q _ => abs_nonneg _) (mem_univ q); linarith [abs_nonneg w.qmi.t]) (by linarith) hQ
    simp only [qmiOmegaF, h1, Except.map, Except.ok.injEq, Prod.mk.injEq] at h
    obtain ⟨rfl, rfl⟩ := h
    refine ⟨⟨h2, h3⟩, fun hr => ?_⟩
    refine (h4 (by simpa using hr)).mono ?_
    have hsz : 0 ≤ lsqSize F F0 m (|w.qmi.t| + ∑ q, |x q|) := by
      have := entrySum_nonneg F F0 m
      have := abs_nonneg w.qmi.t
      unfold lsqSize
      positivity
    have := mul_le_mul_of_nonneg_right (hs3' u hu0 k3) hsz
    have e : lsqUnit F F0 m (|w.qmi.t| + ∑ q, |x q|) u u (δ u) (ζ u) =
      (26 * (3 * u + 2 * u) + 2 * δ u + 4 * ζ u + 6 * u + 2 * u) * (m + 1) * lsqSize F F0 m (|w.qmi.t| + ∑ q, |x q|) := by rw [lsqUnit]; ring
    rw [e]
    linarith
  · rintro t ht x hx w ⟨hQ, rfl⟩
    obtain ⟨o', r', h1, h2, h3, h4, h5⟩ := call (R := max B T) (x := x) (o := w) (fun q => (hx q).trans (le_max_left _ _)) (le_trans ht (le_max_right _ _)) hQ
    cases r' with
    | none => exact .inl ⟨o', by simp [qmiOmegaF, h1, Except.map]⟩
    | some c =>
      obtain ⟨g, ep⟩ := c
      obtain ⟨h6, h7⟩ := h5 g ep rfl
      refine .inr ⟨o', g, ep, by simp [qmiOmegaF, h1, Except.map], h6, fun z hz hroom => ?_⟩
      have h8 := hs1' u hu0 k1
      have := h7 z μ (fun q => (hz q).trans (le_max_left _ _)) (by linarith) hroom
      linarith

/-- **C140** (`lsq_corr_core`, one probe).  Let `lo ≤ up`, a radius `R` of the ellipsoid, and `r`, `A`, `μ`, `ν` be given, all radii and margins positive.  There are an `N`, a precision and a
tolerance such that, with that precision or a better one and `max_it ≥ N`, for an oracle object in any state of use: if `t·I - F(z)'F(z) ⪰ μ·I` on a ball of radius `r` with its centre in
the box of size `A`, inside the ball of radius `R` about the current centre, the probe at `t` answers `True`, and `t·I - F(x)'F(x) ⪰ 0` up to `ν` times the size of the numbers involved at
the point `x` it leaves in the centre array. -/
theorem C140_lsq_corr_accepts (hk : 2 ≤ k) (hF : ∀ q, SymOn (F q) m) {R r μ ν : ℝ} (A : ℝ) (hR : 0 < R) (hr : 0 < r) (hμ : 0 < μ) (hν : 0 < ν) (lo up : ℝ) :
    ∃ (N : ℕ) (ζ₀ tol₀ : ℝ), 0 < ζ₀ ∧ 0 < tol₀ ∧ ∀ u, 0 ≤ u → u ≤ ζ₀ → ∀ fl dot vdot, RelErr u fl → DotErr u m dot → VecDotErr u vdot →
      ∀ o : Options ℝ, o.tol ≤ tol₀ → (N : Int) ≤ o.maxIt → ∀ w h E x t, Ready m w.Q → HEll.init (.scalar (R ^ 2)) x = .ok E → lo ≤ t → t ≤ up →
      ∀ a, (∀ i, |a i| ≤ A) → euclBall a r ⊆ euclBall (h x) R → (∀ z ∈ euclBall a r, AtLeast μ (tiMinusGram m t (pencil F F0 z)) m) →
        ∃ w' h', probeEllF fl vdot qmiUpdate (qmiOmegaF fl dot F F0 m) o t (w, h, E) = .ok ((w', h', E), true) ∧ Ready m w'.Q ∧ QmiFits F F0 m ν t (h' x) ∧ ∀ r, r ≠ x → h' r = h r := by
  obtain ⟨N, B, ε₀, hε₀, hacc⟩ := C140_accepts (W := QmiOracle ℝ) (T := ℝ) hk A hR hr
  obtain ⟨ζ₀, hζ₀, hlev⟩ := C140_qmi_level (F0 := F0) hF hμ hν B (max |lo| |up|)
  refine ⟨N, min ε₀ ζ₀, 199 / 200 * (μ / 2) ^ 2, by positivity, by positivity, fun u hu0 hu fl dot vdot hfl hdot hvdot o htol hmax w h E x t hw hE h1 h2 a ha hball hroom => ?_⟩
  obtain ⟨w', h', r1, r2, r3, r4⟩ := hacc u hu0 (hu.trans (min_le_left _ _)) fl vdot hfl hvdot _ _ _ _ _ _ _ (hlev u hu0 (hu.trans (min_le_right _ _)) fl dot hfl hdot) (by linarith)
    o htol hmax w.qmi.t t w h E x ⟨hw, rfl⟩ (abs_le_max_abs_abs h1 h2) hE a ha hball hroom
  exact ⟨w', h', r1, r2.1, r3, r4⟩

/-- **C140** (`lsq_corr_core`, `tests/test_corr_fn.py:54-60`).  Binary search for the smallest `t` with `t·I - F(x)'F(x) ⪰ 0`, every operation of the binary search, the ellipsoid, the
factorization and the oracle rounded, on symmetric `F_q`, for an oracle object in any state of use.  With `N`, precision and tolerance as in `C140_lsq_corr_accepts`, whenever the search
returns `upper`: it is `up`, or the inequality holds at some `z` at level `upper` up to `ν` times the size of the numbers involved; the lower end `l` of the final bracket is `lo`, or was
rejected from some centre, i.e. there is no ball with margin `μ` at level `l`; and if the last probe was accepted, `x_best` is such a `z`. -/
theorem C140_lsq_corr_search (hk : 2 ≤ k) (hF : ∀ q, SymOn (F q) m) {R r μ ν : ℝ} (A : ℝ) (hR : 0 < R) (hr : 0 < r) (hμ : 0 < μ) (hν : 0 < ν) {lo up : ℚ} (hle : lo ≤ up) :
    ∃ (N : ℕ) (ζ₀ tol₀ : ℝ), 0 < ζ₀ ∧ 0 < tol₀ ∧ ∀ u, 0 ≤ u → u ≤ ζ₀ → ∀ fl dot vdot, RelErr u fl → DotErr u m dot → VecDotErr u vdot →
      ∀ p fq, Nearest p fq → 1 ≤ p → Rep p lo → Rep p up →
      ∀ o : Options ℝ, o.tol ≤ tol₀ → (N : Int) ≤ o.maxIt → ∀ (ob : Options ℚ) w h E x w' h' E' upper info, Ready m w.Q → HEll.init (.scalar (R ^ 2)) x = .ok E →
      bsearchF (tauF fq) (midF fq) (fun t => probeEllF fl vdot qmiUpdate (qmiOmegaF fl dot F F0 m) o (t : ℝ)) lo up ob (w, h, E) = .ok ((w', h', E'), upper, info) →
      (info.feasible = true ↔ upper ≠ up) ∧ E' = E ∧ (∀ r, r ≠ x → h' r = h r) ∧ ∃ (j : ℕ) (l : ℚ), lo ≤ l ∧ l ≤ upper ∧ upper ≤ up ∧
        upper - l ≤ ((1 + 1 / 2 ^ p) / 2) ^ j * (up - lo) + 2 * max |lo| |up| / (2 ^ p - 1) ∧
        (info.status = .smallenough ∧ (Rep p ob.tol → upper - l < 2 * ob.tol) ∨ info.status = .success ∧ (j : ℤ) = ob.maxIt) ∧
        (upper = up ∨ ∃ z, QmiFits F F0 m ν upper z) ∧ (l = lo ∨ ∃ c, RejectedBall (QmiRoom F F0 m μ) R r A (l : ℝ) c) ∧
        (j = 0 ∧ h' = h ∨ QmiFits F F0 m ν upper (h' x) ∨
          ∃ w1 h1, probeEllF fl vdot qmiUpdate (qmiOmegaF fl dot F F0 m) o (l : ℝ) (w1, h1, E) = .ok ((w', h', E), false) ∧ RejectedBall (QmiRoom F F0 m μ) R r A (l : ℝ) (h1 x)) := by
  obtain ⟨N, B, ε₀, hε₀, hsearch⟩ := C140_search (W := QmiOracle ℝ) hk A hR hr
  obtain ⟨ζ₀, hζ₀, hlev⟩ := C140_qmi_level (F0 := F0) hF hμ hν B (max |(lo : ℝ)| |(up : ℝ)|)
  refine ⟨N, min ε₀ ζ₀, 199 / 200 * (μ / 2) ^ 2, by positivity, by positivity,
    fun u hu0 hu fl dot vdot hfl hdot hvdot p fq hfq hp hrl hru o htol hmax ob w h E x w' h' E' upper info hw hE hrun => ?_⟩
  have hl := hlev u hu0 (hu.trans (min_le_right _ _)) fl dot hfl hdot
  obtain ⟨r1, r2, r3, j, l, r4, r5, r6, r7, r8, r9, r10, r11⟩ := hsearch u hu0 (hu.trans (min_le_left _ _)) fl vdot hfl hvdot p fq hfq hp lo up hrl hru hle _ _ _ _ _ _
    ⟨hl.upd, hl.pres, fun t ht => hl.cuts t (abs_le_max_abs_abs ht.1 ht.2)⟩ (by linarith) o htol hmax ob w.qmi.t w h E x w' h' E' upper info ⟨hw, rfl⟩ hE hrun
  refine ⟨r1, r2, r3, j, l, r4, r5, r6, r7, r8, r9, r10, ?_⟩
  rcases r11 with r | ⟨r, -⟩ | r
  · exact .inl r
  · exact .inr (.inl r)
  · exact .inr (.inr r)

/-- With enough bits the errors are as small as required. -/
theorem bits_precise (m n : ℕ) {ζ₀ : ℝ} (hζ : 0 < ζ₀) : ∃ p₀ : ℕ, ∀ p fl, p₀ ≤ p → Nearest p fl →
    ∃ u, 0 ≤ u ∧ u ≤ ζ₀ ∧ RelErr u fl ∧ DotErr u m (seqDot fl) ∧ VecDotErr u (vecDot (n := n) fl) := by
  obtain ⟨s1, hs1, hs1'⟩ := small_of_cont (g := fun u => (1 + u) ^ (m + n + 3) - 1) (c := ζ₀) (by fun_prop) (by simpa using hζ)
  obtain ⟨p₀, hp₀⟩ := exists_pow_lt_of_lt_one hs1 (show (1 / 2 : ℝ) < 1 by norm_num)
  refine ⟨p₀, fun p fl hp hfl => ?_⟩
  have hup : (1 / 2 ^ p : ℝ) ≤ s1 := by
    rw [show (1 / 2 ^ p : ℝ) = (1 / 2) ^ p by rw [_root_.one_div_pow]]
    exact (pow_le_pow_of_le_one (by norm_num) (by norm_num) hp).trans hp₀.le
  have hr := hfl.relErr
  have hu0 : (0 : ℝ) ≤ 1 / 2 ^ p := by positivity
  have hsm := hs1' _ hu0 hup
  generalize hu : (1 / 2 ^ p : ℝ) = u at *
  set w := (1 + u) ^ (m + n + 3) - 1 with hw
  have hmono : ∀ i, i ≤ m + n + 3 → (1 + u) ^ i - 1 ≤ w := fun i hi => sub_le_sub_right (pow_le_pow_right₀ (by linarith) hi) 1
  have hw0 : 0 ≤ w := by have := hmono 0 (by omega); simpa using this
  have huw : u ≤ w := by have := hmono 1 (by omega); simpa using this
  exact ⟨w, hw0, hsm, fun x => (hr x).trans (mul_le_mul_of_nonneg_right huw (abs_nonneg _)),
    fun s e x y he => (seqDot_err hr hu0 m s e x y he).trans (mul_le_mul_of_nonneg_right (hmono _ (by omega)) (Finset.sum_nonneg fun _ _ => abs_nonneg _)),
    fun x y => (vecDot_err hr hu0 x y).trans (mul_le_mul_of_nonneg_right (hmono _ (by omega)) (Finset.sum_nonneg fun _ _ => abs_nonneg _))⟩

end

/-! ### Non-vacuity -/

private theorem exQmiF_quad (t : ℝ) (z : Fin 2 → ℝ) (y : ℕ → ℝ) :
    quadOn (tiMinusGram 2 t (pencil exQmiF exQmiF0 z)) 0 2 y = (t - (1 - z 0) ^ 2) * y 0 ^ 2 + (t - (2 - z 1) ^ 2) * y 1 ^ 2 := by
  simp [quadOn, tiMinusGram, pencil, exQmiF, exQmiF0, Finset.sum_range_succ, Fin.sum_univ_two]
  ring

/-- C140 applies: `F(x) = diag(1 - x₀, 2 - x₁)`, `ell(16, 0)`, a fresh oracle.  With enough bits, one round of the search on `[0, 2]` asks at `t = 1`, is answered `True` and returns `1`
with `(1 - x₀)², (2 - x₁)² ≤ 1` at the point `x` left in the centre array, up to rounding. -/
example : ∃ (N p₀ : ℕ) (tol₀ : ℝ), 0 < tol₀ ∧ ∀ p fl fq, p₀ ≤ p → Nearest p fl → Nearest p fq → ∀ im : Int, (N : Int) ≤ im → ∃ w' h' info,
    bsearchF (tauF fq) (midF fq) (fun t => probeEllF fl (vecDot fl) qmiUpdate (qmiOmegaF fl (seqDot fl) exQmiF exQmiF0 2) ⟨im, tol₀⟩ (t : ℝ)) 0 2 ⟨1, 1 / 1024⟩
      (⟨⟨0, 0, fun _ _ => 0⟩, CholExt.init 2⟩, (fun _ => 0), ⟨true, false, 0, 1, 4 ^ 2⟩) = .ok ((w', h', ⟨true, false, 0, 1, 4 ^ 2⟩), 1, info) ∧ info.feasible = true ∧
    (1 - h' 0 0) ^ 2 ≤ 1 + 0.001 * lsqSize exQmiF exQmiF0 2 (1 + (|h' 0 0| + |h' 0 1|)) ∧
    (2 - h' 0 1) ^ 2 ≤ 1 + 0.001 * lsqSize exQmiF exQmiF0 2 (1 + (|h' 0 0| + |h' 0 1|)) := by
  have hF : ∀ q, SymOn (exQmiF q) 2 := by
    intro q i j _ _
    simp only [exQmiF]
    by_cases h : i = j
    · subst h; rfl
    · rw [if_neg (fun e => h e.1), if_neg (fun e => h e.1.symm)]
  have hE : HEll.init (n := 2) (.scalar ((4 : ℝ) ^ 2)) 0 = .ok ⟨true, false, 0, 1, 4 ^ 2⟩ := by
    unfold HEll.init c1? pyDiv; norm_num
  obtain ⟨N, ζ₀, tol₀, h1, h2, h3⟩ := C140_lsq_corr_accepts (F := exQmiF) (F0 := exQmiF0) (m := 2) le_rfl hF (R := 4) (r := 1 / 2) (μ := 1 / 2) (ν := 0.001) 2 (by norm_num) (by norm_num)
    (by norm_num) (by norm_num) 0 2
  obtain ⟨p₀, hp₀⟩ := bits_precise 2 2 h1
  refine ⟨N, p₀, tol₀, h2, fun p fl fq hp hfl hfq im him => ?_⟩
  obtain ⟨u, hu0, hu, e1, e2, e3⟩ := hp₀ p fl hp hfl
  obtain ⟨w', h', q1, -, q3, -⟩ := h3 u hu0 hu fl (seqDot fl) (vecDot fl) e1 e2 e3 ⟨im, tol₀⟩ le_rfl him ⟨⟨0, 0, fun _ _ => 0⟩, CholExt.init 2⟩ (fun _ => 0) ⟨true, false, 0, 1, 4 ^ 2⟩ 0 1
    (ready_init 2) hE (by norm_num) (by norm_num) ![1, 2] (by intro i; fin_cases i <;> norm_num) (by
      intro z hz
      simp only [euclBall, Set.mem_ofPred_eq, Fin.sum_univ_two, cons_val_zero, cons_val_one, Pi.zero_apply] at hz ⊢
      nlinarith [sq_nonneg (z 0 - 2), sq_nonneg (z 1 - 4)]) (by
      intro z hz y
      simp only [euclBall, Set.mem_ofPred_eq, Fin.sum_univ_two, cons_val_zero, cons_val_one] at hz
      rw [exQmiF_quad]
      simp only [Finset.sum_range_succ, Finset.sum_range_zero]
      nlinarith [sq_nonneg (y 0), sq_nonneg (y 1), mul_nonneg (sq_nonneg (y 0)) (sq_nonneg (z 1 - 2)),
        mul_nonneg (sq_nonneg (y 1)) (sq_nonneg (z 0 - 1)),
        mul_nonneg (sq_nonneg (y 0)) (by nlinarith [sq_nonneg (z 1 - 2)] : (0 : ℝ) ≤ 1 / 4 - (1 - z 0) ^ 2),
        mul_nonneg (sq_nonneg (y 1)) (by nlinarith [sq_nonneg (z 0 - 1)] : (0 : ℝ) ≤ 1 / 4 - (2 - z 1) ^ 2)])
  refine ⟨w', h', ⟨true, 0, .success⟩, ?_, rfl, ?_⟩
  · have r2 : fq 2 = 2 := hfq.rounding.exact 2 (by simpa using rep_pow (α := ℚ) (p := p) 1)
    have r1 : fq 1 = 1 := hfq.rounding.exact 1 (by simpa using rep_pow (α := ℚ) (p := p) 0)
    have t1 : tauF fq 2 0 = 1 := by unfold tauF; norm_num [r2, r1]
    have t2 : midF fq 0 1 = 1 := by unfold midF; norm_num [r1]
    simp only [bsearchF, forRange, forLoop, bsearchBodyF, Int.toNat_one, t1, t2, Rat.cast_one, q1]
    norm_num [readVar]
  · unfold QmiFits at q3
    rw [Fin.sum_univ_two, abs_one] at q3
    have q0 := q3 (fun i => if i = 0 then 1 else 0)
    have q1 := q3 (fun i => if i = 1 then 1 else 0)
    rw [exQmiF_quad] at q0 q1
    norm_num [Finset.sum_range_succ] at q0 q1
    exact ⟨by linarith, by linarith⟩

end Verif
