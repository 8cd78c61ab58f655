import Verif.Props.Alias
import Verif.Props.Bsearch
import Verif.Props.Solve

/-!
# C96: `bsearch(bsearch_adaptor(P, ell), [lo, up])`

The binary search over a feasibility oracle with a level, as in `lsq_corr_core` of `tests/test_corr_fn.py:54-60`.
The copy of the ellipsoid shares its centre array with the original (C14), so each probe starts from the final centre
of the previous one, whether that was accepted or not.
-/
namespace Verif
open Matrix Ell
variable {n m : ℕ} {W T : Type _}

/-- A feasibility oracle with a level set by `update`: `Acc t x` is what accepting `x` at level `t` means, `Room t z δ`
that `z` satisfies the constraints at level `t` with margin `δ`; `Inv t w` relates the object state to the level. -/
structure LevelOracle (Acc : T → (Fin n → ℝ) → Prop) (Room : T → (Fin n → ℝ) → ℝ → Prop) (Inv : T → W → Prop)
    (pUpdate : T → W → Except PyErr W) (f : (Fin n → ℝ) → W → Except PyErr (W × Option ((Fin n → ℝ) × Beta))) :
    Prop where
  upd : ∀ s t w, Inv s w → ∃ w', pUpdate t w = .ok w' ∧ Inv t w'
  call : ∀ t x w, Inv t w → ∃ w' r, f x w = .ok (w', r) ∧ Inv t w' ∧ (r = none → Acc t x) ∧
    ∀ c, r = some c → deepBeta c.2 ∧ ∀ z δ, 0 ≤ δ → Room t z δ → z ∈ cutSet x c ∧ c.1 ⬝ᵥ (z - x) ≤ -δ

/-- A rejection at level `t` from centre `c`: every ball inside the ball of radius `R` about `c` that is large enough
for the iteration limit contains a point without margin `δ`, for every `δ` above the tolerance. -/
def Rejected (Room : T → (Fin n → ℝ) → ℝ → Prop) (R : ℝ) (o : Options ℝ) (t : T) (c : Fin n → ℝ) : Prop :=
  ∀ a r δ, 0 < r → 0 < δ → o.tol ≤ δ ^ 2 → 2 * n * ((n : ℝ) + 1) * Real.log (R / r) < o.maxIt →
    euclBall a r ⊆ euclBall c R → ∃ z ∈ euclBall a r, ¬ Room t z δ

section generic
variable {Acc : T → (Fin n → ℝ) → Prop} {Room : T → (Fin n → ℝ) → ℝ → Prop} {Inv : T → W → Prop}
  {pUpdate : T → W → Except PyErr W} {f : (Fin n → ℝ) → W → Except PyErr (W × Option ((Fin n → ℝ) × Beta))}

/-- The oracle's invariant survives any run of `cutting_plane_feas` on an `ell`. -/
private theorem feas_inv {P : W → Prop} {o : Options ℝ} {w w' : W} {E E' : Ell n} {info : CInfo}
    (hf : ∀ x w w' r, P w → f x w = .ok (w', r) → P w') (hw : P w)
    (h : cuttingPlaneFeas (fun x => liftOracle (f x)) (Ell.space W n) o (w, E) = .ok ((w', E'), info)) :
    P w' ∧ (info.feasible = true → ∃ u, P u ∧ f E'.xc u = .ok (w', none)) := by
  obtain ⟨s, i, hfr, hs, rfl⟩ := feas_ok h
  have key : ∀ {j s1}, Rounds (feasBody (fun x => liftOracle (f x)) (Ell.space W n) o.tol) 0
      ⟨(w, E), false, .success⟩ j s1 → P s1.w.1 ∧ s1.feasible = false := by
    intro j s1 hr
    refine Rounds.inv (fun _ s1 => P s1.w.1 ∧ s1.feasible = false) ⟨hw, rfl⟩ ?_ hr
    rintro j s s' ⟨h1, h2⟩ hb
    obtain ⟨w1, c, w2, tsq, hq, hu, -, rfl⟩ := feasBody_cont hb
    refine ⟨?_, h2⟩
    rw [(space_update_ok hu).2]
    exact hf _ _ _ _ h1 (liftOracle_ok hq).1
  have hw1 : w' = s.w.1 := by rw [← hs]
  have hE1 : E' = s.w.2 := by rw [← hs]
  rw [hw1, hE1]
  clear h hs
  rcases forRange_ok hfr with ⟨s1, -, hr, hb⟩ | ⟨-, hr⟩
  · obtain ⟨h1, h2⟩ := key hr
    rcases feasBody_brk hb with ⟨w1, hq, rfl⟩ | ⟨w1, c, w2, st, tsq, hq, hu, hne, rfl⟩ |
      ⟨w1, c, w2, tsq, hq, hu, ht, rfl⟩
    · obtain ⟨hq1, hq2⟩ := liftOracle_ok hq
      refine ⟨hf _ _ _ _ h1 hq1, fun _ => ⟨_, h1, ?_⟩⟩
      dsimp only; rw [hq2]; exact hq1
    all_goals
      refine ⟨?_, fun h => absurd h (by simp [h2])⟩
      dsimp only
      rw [(space_update_ok hu).2]
      exact hf _ _ _ _ h1 (liftOracle_ok hq).1
  · obtain ⟨h1, h2⟩ := key hr
    exact ⟨h1, fun h => absurd h (by simp [h2])⟩

private theorem LevelOracle.pres (hO : LevelOracle Acc Room Inv pUpdate f) (t : T) :
    ∀ x w w' r, Inv t w → f x w = .ok (w', r) → Inv t w' := by
  intro x w w' r hw hq
  obtain ⟨w1, r1, h1, h2, -⟩ := hO.call t x w hw
  rw [hq] at h1
  simp only [Except.ok.injEq, Prod.mk.injEq] at h1
  exact h1.1 ▸ h2

variable {R : ℝ} {o : Options ℝ}

/-- The adaptor's ellipsoid as `ell(R², x)` builds it, seen through any heap. -/
private theorem load_init {E : HEll n} {x : Ref} (hE : HEll.init (.scalar (R ^ 2)) x = .ok E) (h : Heap n) :
    E.xc = x ∧ Ell.init (.scalar (R ^ 2)) (h E.xc) = .ok (E.load h) := by
  unfold HEll.init at hE
  unfold Ell.init
  split at hE
  · simp at hE
  · rename_i c hc
    simp only [Except.ok.injEq] at hE
    subst hE
    exact ⟨rfl, by rw [hc]; rfl⟩

/-- **C96** (one probe, acceptance).  The adaptor owns `ell(R², x)`.  If a ball of radius `r` inside the ball of radius
`R` about the *current* centre has margin `δ` at level `t`, `tol ≤ δ²` and `max_it > 2n(n+1)·ln(R/r)`, the probe answers
`True` (in particular raises nothing), and the centre array then holds a point accepted at level `t`. -/
theorem C96_probe_accepts (hn : 2 ≤ n) (hO : LevelOracle Acc Room Inv pUpdate f) {s t : T} {w : W} (hw : Inv s w)
    {h : Heap n} {E : HEll n} {x : Ref} (hE : HEll.init (.scalar (R ^ 2)) x = .ok E)
    {a : Fin n → ℝ} {r δ : ℝ} (hr : 0 < r) (hδ : 0 < δ)
    (hball : euclBall a r ⊆ euclBall (h x) R) (hroom : ∀ z ∈ euclBall a r, Room t z δ)
    (htol : o.tol ≤ δ ^ 2) (hmax : 2 * n * ((n : ℝ) + 1) * Real.log (R / r) < o.maxIt) :
    ∃ w' h', probeEll pUpdate f o t (w, h, E) = .ok ((w', h', E), true) ∧ Inv t w' ∧ Acc t (h' x) ∧
      ∀ r, r ≠ x → h' r = h r := by
  obtain ⟨rfl, hinit⟩ := load_init hE h
  obtain ⟨hwf, hpts, hv⟩ := init_bound (r := r) hn hinit
  obtain ⟨w1, hu, hw1⟩ := hO.upd s t w hw
  have ha : a ∈ euclBall a r := by
    change ∑ i, (a i - a i) ^ 2 ≤ r ^ 2; simp; positivity
  rw [← hv] at hmax
  have hrun := C25_feas_ell_converges (Ω := f) (Inv t) hwf hr (by rw [hpts]; exact hball) (o := o)
    (fun x w hw => by
      obtain ⟨w', r', h1, h2, -, h4⟩ := hO.call t x w hw
      cases r' with
      | none => exact .inl ⟨w', h1⟩
      | some c =>
        obtain ⟨h5, h6⟩ := h4 c rfl
        obtain ⟨g, b⟩ := c
        have h7 := (h6 a δ hδ.le (hroom a ha)).2
        refine .inr ⟨w', g, b, h1, h2, fun z hz => (h6 z δ hδ.le (hroom z hz)).1, h5, ?_, a, ha, ?_⟩
        · rintro rfl
          dsimp only at h7
          rw [zero_dotProduct] at h7
          linarith
        · dsimp only at h7
          nlinarith)
    hmax w1 hw1
  obtain ⟨w2, E2, info, h1, h2, -, -, u, hru, hacc⟩ := hrun
  obtain ⟨w3, r3, h5, h6, h7, -⟩ := hO.call t E2.xc u hru
  rw [hacc] at h5
  simp only [Except.ok.injEq, Prod.mk.injEq] at h5
  obtain ⟨rfl, rfl⟩ := h5
  rcases (C14_adaptor_ell (by omega) pUpdate f o t w h E).elim with ⟨e, h8, h9⟩ |
    ⟨⟨⟨v, h', E'⟩, b⟩, q, h8, h9, h10, h11, h12, h13, h14⟩
  · rw [hu] at h9
    dsimp only at h9
    rw [h1] at h9
    simp at h9
  · rw [hu] at h9
    dsimp only at h9 h10 h11 h12 h13 h14
    rw [h1] at h9
    simp only [Except.ok.injEq] at h9
    subst h9
    dsimp only at h10 h11 h12 h13
    subst h10 h11 h12
    rw [h2] at h8
    exact ⟨v, h', h8, h6, by rw [h13]; exact h7 rfl, h14⟩

/-- **C96** (one probe, any outcome).  If the probe returns: shape, scale and flags of the ellipsoid are unchanged, no
other array is touched; with `True` the centre array holds an accepted point; with `False` the level is rejected for the
ball of radius `R` about the centre the probe *started* from (the centre array has moved nevertheless, C14). -/
theorem C96_probe_verdict (hn : 2 ≤ n) (hO : LevelOracle Acc Room Inv pUpdate f) {s t : T} {w w' : W} (hw : Inv s w)
    {h h' : Heap n} {E E' : HEll n} {x : Ref} {b : Bool} (hE : HEll.init (.scalar (R ^ 2)) x = .ok E)
    (hrun : probeEll pUpdate f o t (w, h, E) = .ok ((w', h', E'), b)) :
    E' = E ∧ Inv t w' ∧ (∀ r, r ≠ x → h' r = h r) ∧ (b = true → Acc t (h' x)) ∧
      (b = false → Rejected Room R o t (h x)) := by
  obtain ⟨hx, hinit⟩ := load_init hE h
  obtain ⟨w1, hu, hw1⟩ := hO.upd s t w hw
  rcases (C14_adaptor_ell (by omega) pUpdate f o t w h E).elim with ⟨e, h8, h9⟩ |
    ⟨⟨⟨v, h2, E2⟩, b2⟩, ⟨⟨v3, E3⟩, info⟩, h8, h9, h10, h11, h12, h13, h14⟩
  · rw [hrun] at h8; simp at h8
  rw [hrun] at h8
  simp only [Except.ok.injEq, Prod.mk.injEq] at h8
  obtain ⟨⟨rfl, rfl, rfl⟩, rfl⟩ := h8
  rw [hu] at h9
  dsimp only at h9 h10 h11 h12 h13 h14
  subst h11 h12
  rw [hx] at h13 h14
  obtain ⟨h15, h16⟩ := feas_inv (P := Inv t) (hO.pres t) hw1 h9
  refine ⟨rfl, h15, h14, fun hb => ?_, fun hb => ?_⟩
  · rw [← h10, hb] at h16
    obtain ⟨u, hu1, hu2⟩ := h16 rfl
    obtain ⟨w4, r4, h17, -, h18, -⟩ := hO.call t E3.xc u hu1
    rw [hu2] at h17
    simp only [Except.ok.injEq, Prod.mk.injEq] at h17
    rw [h13]
    exact h18 h17.2.symm
  · intro a r δ hr hδ htol hmax hball
    by_contra hcon
    push Not at hcon
    obtain ⟨w5, h5, h17, -⟩ := C96_probe_accepts hn hO hw hE hr hδ hball hcon htol hmax (t := t)
    rw [hrun] at h17
    simp only [Except.ok.injEq, Prod.mk.injEq] at h17
    rw [hb] at h17
    simp at h17

end generic

section search
variable {Acc : ℝ → (Fin n → ℝ) → Prop} {Room : ℝ → (Fin n → ℝ) → ℝ → Prop} {Inv : ℝ → W → Prop}
  {pUpdate : ℝ → W → Except PyErr W} {f : (Fin n → ℝ) → W → Except PyErr (W × Option ((Fin n → ℝ) × Beta))}
  {R : ℝ} {o ob : Options ℝ}

/-- **C96** (the search).  `bsearch(bsearch_adaptor(P, ell(R², x), o), [lo, up], ob)`, whenever it returns `u`.
There is a lower end `l`, `u - l = (up - lo)/2^k` after `k` probes (`< 2·tol` on `smallenough`), such that
* `u` is `up`, or was accepted at some point, i.e. the constraints hold there at level `u`;
* `l` is `lo`, or was rejected from some centre `c`;
* `x_best` (the centre array) is the start centre if no probe was made; it is accepted at level `u` if the last probe
  was accepted; otherwise it is what the failed last probe, at level `l`, left behind (see `C96_xbest_wrong`);
* the ellipsoid's shape is unchanged and no array but its centre has been written. -/
theorem C96_search (hn : 2 ≤ n) (hO : LevelOracle Acc Room Inv pUpdate f) {s lo up u : ℝ} {w w' : W} (hw : Inv s w)
    {h h' : Heap n} {E E' : HEll n} {x : Ref} (hE : HEll.init (.scalar (R ^ 2)) x = .ok E) {info : CInfo}
    (hrun : bsearch (probeEll pUpdate f o) id lo up ob (w, h, E) = .ok ((w', h', E'), u, info)) :
    (info.feasible = true ↔ u ≠ up) ∧ E' = E ∧ (∀ r, r ≠ x → h' r = h r) ∧ ∃ (k : ℕ) (l : ℝ),
      u - l = (up - lo) / 2 ^ k ∧ (lo ≤ up → lo ≤ l ∧ u ≤ up) ∧ (k : ℤ) ≤ ob.maxIt ∧ (info.status = .smallenough → u - l < 2 * ob.tol) ∧
      (u = up ∨ ∃ z, Acc u z) ∧ (l = lo ∨ ∃ c, Rejected Room R o l c) ∧
      (k = 0 ∧ h' = h ∨
        Acc u (h' x) ∧ (∃ w1 h1, probeEll pUpdate f o u (w1, h1, E) = .ok ((w', h', E), true)) ∨
        ∃ w1 h1, probeEll pUpdate f o l (w1, h1, E) = .ok ((w', h', E), false) ∧ Rejected Room R o l (h1 x)) := by
  obtain ⟨st, i, hf, hst, rfl, rfl⟩ := bsearch_ok hrun
  let J : ℕ → BsSt (W × Heap n × HEll n) ℝ → Prop := fun k st =>
    st.status = .success ∧ (∃ s, Inv s st.w.1) ∧ st.w.2.2 = E ∧ (∀ r, r ≠ x → st.w.2.1 r = h r) ∧
      st.upper - st.lower = (up - lo) / 2 ^ k ∧ (lo ≤ up → lo ≤ st.lower ∧ st.upper ≤ up) ∧ (st.upper = up ∨ ∃ z, Acc st.upper z) ∧
      (st.lower = lo ∨ ∃ c, Rejected Room R o st.lower c) ∧
      (k = 0 ∧ st.w.2.1 = h ∨
        Acc st.upper (st.w.2.1 x) ∧ (∃ w1 h1, probeEll pUpdate f o st.upper (w1, h1, E) = .ok (st.w, true)) ∨
        ∃ w1 h1, probeEll pUpdate f o st.lower (w1, h1, E) = .ok (st.w, false) ∧ Rejected Room R o st.lower (h1 x))
  have key : ∀ {j s1}, Rounds (bsearchBody (probeEll pUpdate f o) id ob.tol) 0 ⟨(w, h, E), lo, up, .success⟩ j s1 →
      J j s1 := by
    intro j s1 hr
    refine Rounds.inv J ⟨rfl, ⟨s, hw⟩, rfl, fun _ _ => rfl, by simp, fun _ => ⟨le_rfl, le_rfl⟩, .inl rfl, .inl rfl, .inl ⟨rfl, rfl⟩⟩ ?_ hr
    rintro j ⟨⟨w1, h1, E1⟩, l, u, stt⟩ s' ⟨e1, ⟨s2, e2⟩, e3, e4, e5, e9, e6, e7, e8⟩ hb
    dsimp only at e1 e2 e3 e4 e5 e6 e7 e8 e9
    subst e1 e3
    have e10 : lo ≤ up → 0 ≤ u - l := fun hlu => by rw [e5]; exact div_nonneg (sub_nonneg.2 hlu) (by positivity)
    rcases bsBody_ok hb with ⟨_, he⟩ | ⟨-, ⟨w2, h2, E2⟩, b, hq, he⟩
    · simp at he
    simp only [Step.cont.injEq] at he
    simp only [id_eq] at hq he
    obtain ⟨rfl, q2, q3, q4, q5⟩ := C96_probe_verdict hn hO e2 hE hq
    have e4' : ∀ r, r ≠ x → h2 r = h r := fun r hr => (q3 r hr).trans (e4 r hr)
    cases b with
    | true =>
      simp only [if_true] at he
      subst he
      refine ⟨rfl, ⟨_, q2⟩, rfl, e4', ?_, fun hlu => ⟨(e9 hlu).1, ?_⟩, .inr ⟨_, q4 rfl⟩, e7, .inr (.inl ⟨q4 rfl, w1, h1, hq⟩)⟩
      · dsimp only
        rw [pow_succ, ← div_div, ← e5]; ring
      · have := e10 hlu; have := e9 hlu; dsimp only; linarith
    | false =>
      simp only [Bool.false_eq_true, if_false] at he
      subst he
      refine ⟨rfl, ⟨_, q2⟩, rfl, e4', ?_, fun hlu => ⟨?_, (e9 hlu).2⟩, e6, .inr ⟨_, q5 rfl⟩, .inr (.inr ⟨w1, h1, hq, q5 rfl⟩)⟩
      · dsimp only
        rw [pow_succ, ← div_div, ← e5]; ring
      · have := e10 hlu; have := e9 hlu; dsimp only; linarith
  have h1 : w' = st.w.1 := by rw [← hst]
  have h2 : h' = st.w.2.1 := by rw [← hst]
  have h3 : E' = st.w.2.2 := by rw [← hst]
  subst h1 h2 h3
  refine ⟨by simp, ?_⟩
  rcases forRange_ok hf with ⟨s1, hi, hr, hb⟩ | ⟨hi, hr⟩
  · obtain ⟨-, -, e3, e4, e5, e9, e6, e7, e8⟩ := key hr
    rcases bsBody_ok hb with ⟨hn', he⟩ | ⟨_, wl1, b, hq, he⟩
    · simp only [Step.brk.injEq] at he
      subst he
      refine ⟨e3, e4, i, s1.lower, e5, e9, hi.le, fun _ => by dsimp only; linarith, e6, e7, ?_⟩
      have : (s1.w.1, s1.w.2.1, E) = s1.w := by rw [← e3]
      rw [this]; exact e8
    · simp at he
  · obtain ⟨e1, -, e3, e4, e5, e9, e6, e7, e8⟩ := key hr
    refine ⟨e3, e4, i + 1, st.lower, e5, e9, hi.le, fun hs => by rw [e1] at hs; simp at hs, e6, e7, ?_⟩
    have : (st.w.1, st.w.2.1, E) = st.w := by rw [← e3]
    rw [this]; exact e8

end search

/-! ### `qmi_oracle` -/

/-- `qmi_oracle` (square matrices) as the problem of the adaptor. -/
noncomputable def qmiOmega (F : Fin n → ℕ → ℕ → ℝ) (F0 : ℕ → ℕ → ℝ) (m : ℕ) (x : Fin n → ℝ) (w : QmiOracle ℝ) :
    Except PyErr (QmiOracle ℝ × Option ((Fin n → ℝ) × Beta)) :=
  (qmiCall F F0 m m x w).map fun r => (r.1, r.2.map scalarCut)

/-- `qmi_oracle.update`. -/
def qmiUpdate (t : ℝ) (w : QmiOracle ℝ) : Except PyErr (QmiOracle ℝ) := .ok (w.setT t)

/-- Whatever `getA` preserves, `factor` preserves. -/
theorem factor_world {V α : Type _} [Field α] [LinearOrder α] {getA : ℕ → ℕ → V → Except PyErr (V × α)} (P : V → Prop)
    (hP : ∀ i j w w' a, P w → getA i j w = .ok (w', a) → P w') {Q Q' : CholExt α} {w w' : V} {b : Bool}
    (h : Q.factor getA w = .ok (w', Q', b)) (hw : P w) : P w' := by
  have inner : ∀ s i r j T d w w' T' d', P w → cholInner getA s i r j T d w = .ok (w', T', d') → P w' := by
    intro s i r
    induction r with
    | zero =>
      intro j T d w w' T' d' hw h
      simp only [cholInner, Except.ok.injEq, Prod.mk.injEq] at h
      exact h.1 ▸ hw
    | succ r ih =>
      intro j T d w w' T' d' hw h
      simp only [cholInner] at h
      split at h
      · simp at h
      split at h
      · simp at h
      · rename_i hg
        exact ih _ _ _ _ _ _ _ (hP _ _ _ _ _ hw hg) h
  have rows : ∀ al r i s T w w' T' p, P w → cholRows getA al r i s T w = .ok (w', T', p) → P w' := by
    intro al r
    induction r with
    | zero =>
      intro i s T w w' T' p hw h
      simp only [cholRows, Except.ok.injEq, Prod.mk.injEq] at h
      exact h.1 ▸ hw
    | succ r ih =>
      intro i s T w w' T' p hw h
      simp only [cholRows] at h
      split at h
      · simp at h
      rename_i w1 d0 hg
      split at h
      · simp at h
      rename_i w2 T1 d hin
      have hw2 := inner _ _ _ _ _ _ _ _ _ _ (hP _ _ _ _ _ hw hg) hin
      split_ifs at h
      · exact ih _ _ _ _ _ _ _ hw2 h
      · simp only [Except.ok.injEq, Prod.mk.injEq] at h
        exact h.1 ▸ hw2
      · exact ih _ _ _ _ _ _ _ hw2 h
  simp only [CholExt.factor] at h
  split at h
  · simp at h
  · rename_i hr
    simp only [Except.ok.injEq, Prod.mk.injEq] at h
    rw [← h.1]
    exact rows _ _ _ _ _ _ _ _ _ hw hr

/-- A call never changes the level. -/
theorem qmiCall_level {α : Type _} [Field α] [LinearOrder α] {F : Fin n → ℕ → ℕ → α} {F0 : ℕ → ℕ → α} {nr nc : ℕ}
    {x : Fin n → α} {o o' : QmiOracle α} {r : Option ((Fin n → α) × α)} (h : qmiCall F F0 nr nc x o = .ok (o', r)) :
    o'.qmi.t = o.qmi.t := by
  have key : ∀ s1 Q1 b, o.Q.factor (qmiEval F F0 nr x) { o.qmi with count := 0 } = .ok (s1, Q1, b) →
      s1.t = o.qmi.t := by
    intro s1 Q1 b hf
    refine factor_world (fun s : QmiSt α => s.t = o.qmi.t) ?_ hf rfl
    intro i j w w' a hw hg
    simp only [qmiEval] at hg
    split_ifs at hg <;> simp only [Except.ok.injEq, Prod.mk.injEq] at hg <;> rw [← hg.1] <;> exact hw
  unfold qmiCall at h
  dsimp only at h
  split at h
  · simp at h
  · rename_i s1 Q1 hf
    simp only [Except.ok.injEq, Prod.mk.injEq] at h
    rw [← h.1]; exact key _ _ _ hf
  · rename_i s1 Q1 hf
    split at h
    · simp at h
    split at h
    · simp at h
    · simp only [Except.ok.injEq, Prod.mk.injEq] at h
      rw [← h.1]; exact key _ _ _ hf

/-- **C96**: `qmi_oracle` on symmetric `F_q` meets the contract, in any state of use: acceptance at level `t` means
`‖F₀ - Σ x_q F_q‖² < t` (spectral norm, as `t·I - AᵀA ≻ 0`), the margin is in the same matrix order. -/
theorem C96_qmi_levelOracle {F : Fin n → ℕ → ℕ → ℝ} (F0 : ℕ → ℕ → ℝ) (hF : ∀ q, SymOn (F q) m) :
    LevelOracle (fun t x => PDon (tiMinusGram m t (pencil F F0 x)) 0 m)
      (fun t z δ => AtLeast δ (tiMinusGram m t (pencil F F0 z)) m)
      (fun t w => Ready m w.Q ∧ w.qmi.t = t) qmiUpdate (qmiOmega F F0 m) where
  upd := fun s t w hw => ⟨w.setT t, rfl, hw.1, rfl⟩
  call := by
    rintro t x w ⟨hQ, rfl⟩
    obtain ⟨h1, -, h3⟩ := qmi_core F F0 m m x hQ
    by_cases hpd : PDon (tiMinusGram m w.qmi.t (pencil F F0 x)) 0 m
    · obtain ⟨o', e1, e2⟩ := h1 hpd
      exact ⟨o', none, by simp [qmiOmega, e1, Except.map], ⟨e2, qmiCall_level e1⟩, fun _ => hpd,
        fun c hc => by simp at hc⟩
    · obtain ⟨o', g, ep, e, e1, e2, e3, -, e4, e5, e6, -, -, e7⟩ := h3 hpd rfl
      refine ⟨o', some (g, .scalar ep), by simp [qmiOmega, e1, Except.map, scalarCut], ⟨e2, qmiCall_level e1⟩,
        fun h => by simp at h, ?_⟩
      intro c hc
      simp only [Option.some.injEq] at hc
      subst hc
      refine ⟨e3, fun z δ hδ hz => ?_⟩
      have h5 := e7 hF z w.qmi.t
      rw [sub_self, zero_mul] at h5
      have h6 := hz.cut hδ e4 e5 e6
      have h7 : g ⬝ᵥ (z - x) = ∑ q, g q * (z q - x q) := rfl
      refine ⟨?_, ?_⟩
      · change g ⬝ᵥ (z - x) + ep ≤ 0
        rw [h7]; linarith
      · dsimp only
        rw [h7]; linarith

/-- **C96** (`lsq_corr_core`, `tests/test_corr_fn.py:54-60`): binary search for the smallest `t` with
`t·I - A(x)ᵀA(x) ≻ 0`, `A(x) = F₀ - Σ x_q F_q`, on symmetric `F_q`, for an oracle object in any state of use, any
bracket and any options.  A returned `u ≠ up` is attained: some `z` has `u·I - A(z)ᵀA(z) ≻ 0`; the lower end `l` of the
final bracket is `lo` or was rejected from some centre; and if the last probe was accepted, `x_best` attains `u`. -/
theorem C96_lsq_corr_search (hn : 2 ≤ n) {F : Fin n → ℕ → ℕ → ℝ} {F0 : ℕ → ℕ → ℝ} (hF : ∀ q, SymOn (F q) m)
    {R lo up u : ℝ} {o ob : Options ℝ} {w w' : QmiOracle ℝ} (hw : Ready m w.Q) {h h' : Heap n} {E E' : HEll n} {x : Ref}
    (hE : HEll.init (.scalar (R ^ 2)) x = .ok E) {info : CInfo}
    (hrun : bsearch (probeEll qmiUpdate (qmiOmega F F0 m) o) id lo up ob (w, h, E) = .ok ((w', h', E'), u, info)) :
    (info.feasible = true ↔ u ≠ up) ∧ E' = E ∧ ∃ (k : ℕ) (l : ℝ),
      u - l = (up - lo) / 2 ^ k ∧ (lo ≤ up → lo ≤ l ∧ u ≤ up) ∧ (info.status = .smallenough → u - l < 2 * ob.tol) ∧
      (u = up ∨ ∃ z, PDon (tiMinusGram m u (pencil F F0 z)) 0 m) ∧
      (l = lo ∨ ∃ c, Rejected (fun t z δ => AtLeast δ (tiMinusGram m t (pencil F F0 z)) m) R o l c) ∧
      (k = 0 ∧ h' = h ∨ PDon (tiMinusGram m u (pencil F F0 (h' x))) 0 m ∨
        ∃ w1 h1, probeEll qmiUpdate (qmiOmega F F0 m) o l (w1, h1, E) = .ok ((w', h', E), false) ∧
          Rejected (fun t z δ => AtLeast δ (tiMinusGram m t (pencil F F0 z)) m) R o l (h1 x)) := by
  obtain ⟨h1, hE', -, k, l, h2, hb, -, h3, h4, h5, h6⟩ :=
    C96_search hn (C96_qmi_levelOracle F0 hF) ⟨hw, rfl⟩ hE hrun
  refine ⟨h1, hE', k, l, h2, hb, h3, h4, h5, ?_⟩
  rcases h6 with h6 | ⟨h6, -⟩ | ⟨w1, h1, h6⟩
  · exact .inl h6
  · exact .inr (.inl h6)
  · exact .inr (.inr ⟨w1, h1, h6⟩)

/-! ### Concrete runs -/

/-- `A(x) = diag(1 - x₀, 2 - x₁)`. -/
def exQmiF : Fin 2 → ℕ → ℕ → ℝ := fun q i j => if i = j ∧ i = (q : ℕ) then 1 else 0
def exQmiF0 : ℕ → ℕ → ℝ := fun i j => if i = j then (i : ℝ) + 1 else 0

private theorem exQmi_quad (t : ℝ) (z : Fin 2 → ℝ) (y : ℕ → ℝ) :
    quadOn (tiMinusGram 2 t (pencil exQmiF exQmiF0 z)) 0 2 y =
      (t - (1 - z 0) ^ 2) * y 0 ^ 2 + (t - (2 - z 1) ^ 2) * y 1 ^ 2 := by
  simp [quadOn, tiMinusGram, pencil, exQmiF, exQmiF0, Finset.sum_range_succ, Fin.sum_univ_two]
  ring

/-- C96 applies: the first probe of `[0, 2]`, at `t = 1`, from the origin with `ell(16, 0)`, a fresh oracle and default
options, is accepted; so one round of the search returns `u = 1` and a point with `(1 - x₀)², (2 - x₁)² < 1`. -/
example : ∃ w' h' info, bsearch (probeEll qmiUpdate (qmiOmega exQmiF exQmiF0 2) ⟨2000, 1 / 10 ^ 8⟩) id 0 2 ⟨1, 1 / 10 ^ 8⟩
      (⟨⟨0, 0, fun _ _ => 0⟩, CholExt.init 2⟩, (fun _ => 0), ⟨true, false, 0, 1, 4 ^ 2⟩) =
        .ok ((w', h', ⟨true, false, 0, 1, 4 ^ 2⟩), 1, info) ∧ info.feasible = true ∧
      (1 - h' 0 0) ^ 2 < 1 ∧ (2 - h' 0 1) ^ 2 < 1 := by
  have hF : ∀ q, SymOn (exQmiF q) 2 := by
    intro q i j _ _
    simp only [exQmiF]
    by_cases h : i = j
    · subst h; rfl
    · rw [if_neg (fun e => h e.1), if_neg (fun e => h e.1.symm)]
  have hE : HEll.init (n := 2) (.scalar ((4 : ℝ) ^ 2)) 0 = .ok ⟨true, false, 0, 1, 4 ^ 2⟩ := by
    unfold HEll.init c1? pyDiv; norm_num
  have key := C96_probe_accepts (o := ⟨2000, 1 / 10 ^ 8⟩) (t := 1) le_rfl
    (C96_qmi_levelOracle exQmiF0 hF) (s := 0) (w := ⟨⟨0, 0, fun _ _ => 0⟩, CholExt.init 2⟩) ⟨ready_init 2, rfl⟩
    (h := fun _ => 0) hE (a := ![1, 2]) (r := 1 / 2) (δ := 1 / 2) (by norm_num) (by norm_num) ?_ ?_ (by norm_num) ?_
  · obtain ⟨w', h', h1, -, h3, -⟩ := key
    refine ⟨w', h', ⟨true, 0, .success⟩, ?_, rfl, ?_⟩
    · have e : (0 : ℝ) + (2 - 0) / 2 = 1 := by norm_num
      simp only [bsearch, forRange, forLoop, bsearchBody, Int.toNat_one, id_eq, e, h1]
      norm_num [readVar]
    · have q0 := h3 (fun i => if i = 0 then 1 else 0) ⟨0, by norm_num, by norm_num, by norm_num⟩
      have q1 := h3 (fun i => if i = 1 then 1 else 0) ⟨1, by norm_num, by norm_num, by norm_num⟩
      rw [exQmi_quad] at q0 q1
      norm_num at q0 q1
      exact ⟨by rwa [sq_lt_one_iff_abs_lt_one], by rwa [sq_lt_one_iff_abs_lt_one]⟩
  · intro z hz
    simp only [euclBall, Set.mem_ofPred_eq, Fin.sum_univ_two, cons_val_zero, cons_val_one,
      Pi.zero_apply] at hz ⊢
    nlinarith [sq_nonneg (z 0 - 2), sq_nonneg (z 1 - 4)]
  · intro z hz y
    simp only [euclBall, Set.mem_ofPred_eq, Fin.sum_univ_two, cons_val_zero, cons_val_one] at hz
    rw [exQmi_quad]
    simp only [Finset.sum_range_succ, Finset.sum_range_zero]
    nlinarith [sq_nonneg (y 0), sq_nonneg (y 1), mul_nonneg (sq_nonneg (y 0)) (sq_nonneg (z 1 - 2)),
      mul_nonneg (sq_nonneg (y 1)) (sq_nonneg (z 0 - 1)),
      mul_nonneg (sq_nonneg (y 0)) (by nlinarith [sq_nonneg (z 1 - 2)] : (0 : ℝ) ≤ 1 / 4 - (1 - z 0) ^ 2),
      mul_nonneg (sq_nonneg (y 1)) (by nlinarith [sq_nonneg (z 0 - 1)] : (0 : ℝ) ≤ 1 / 4 - (2 - z 1) ^ 2)]
  · have : Real.log (4 / (1 / 2)) ≤ 4 / (1 / 2) - 1 := Real.log_le_sub_one_of_pos (by norm_num)
    norm_num at this ⊢
    linarith

/-- `|x₀| + 1/2 ≤ t` with its central subgradient cut; the object state is the level. -/
noncomputable def exAbsO (x : Fin 2 → ℝ) (t : ℝ) : Except PyErr (ℝ × Option ((Fin 2 → ℝ) × Beta)) :=
  if |x 0| + 1 / 2 ≤ t then .ok (t, none) else .ok (t, some (![if 0 ≤ x 0 then 1 else -1, 0], .scalar 0))

/-- It meets the contract. -/
theorem exAbsO_levelOracle : LevelOracle (fun t (x : Fin 2 → ℝ) => |x 0| + 1 / 2 ≤ t)
    (fun t z δ => |z 0| + 1 / 2 + δ ≤ t) (fun t w => w = t) (fun t _ => .ok t) exAbsO where
  upd := fun _ t _ _ => ⟨t, rfl, rfl⟩
  call := by
    rintro t x w rfl
    by_cases hx : |x 0| + 1 / 2 ≤ w
    · exact ⟨w, none, by rw [exAbsO, if_pos hx], rfl, fun _ => hx, fun c hc => by simp at hc⟩
    · refine ⟨w, some (![if 0 ≤ x 0 then 1 else -1, 0], .scalar 0), by rw [exAbsO, if_neg hx], rfl,
        fun h => by simp at h, ?_⟩
      intro c hc
      simp only [Option.some.injEq] at hc
      subst hc
      refine ⟨le_rfl, fun z δ hδ hz => ?_⟩
      have key : (![if 0 ≤ x 0 then 1 else -1, 0] : Fin 2 → ℝ) ⬝ᵥ (z - x) ≤ -δ := by
        simp only [dotProduct, Fin.sum_univ_two, Pi.sub_apply, cons_val_zero, cons_val_one]
        have h1 := le_abs_self (z 0)
        have h2 := neg_abs_le (z 0)
        split_ifs with h0
        · rw [abs_of_nonneg h0] at hx; push Not at hx; linarith
        · push Not at h0; rw [abs_of_neg h0] at hx; push Not at hx; linarith
      refine ⟨?_, key⟩
      change _ + (0 : ℝ) ≤ 0
      linarith

/-- **C96 (`x_best` can be wrong).**  An oracle meeting the contract, `ell(4, 0)`, the bracket `[0, 1]`, two rounds of the
search with one iteration per probe: `t = 1/2` is accepted at the origin, `t = 1/4` is rejected.  The search returns
`u = 1/2` and `feasible = True`, but `x_best` is `(-2/3, 0)`, which violates the constraint at level `1/2` (and even at
the initial upper level 1): the failed last probe overwrote it. -/
theorem C96_xbest_wrong :
    ∃ (h' : Heap 2) (info : CInfo),
      bsearch (probeEll (fun t _ => .ok t) exAbsO ⟨1, 0⟩) id 0 1 ⟨2, 0⟩ (0, (fun _ => 0), ⟨true, false, 0, 1, 4⟩) =
        .ok ((1 / 4, h', ⟨true, false, 0, 1, 4⟩), 1 / 2, info) ∧ info.feasible = true ∧
      ¬ |h' 0 0| + 1 / 2 ≤ 1 := by
  have hl : HEll.load (fun _ => 0) (⟨true, false, 0, 1, 4⟩ : HEll 2) = ⟨true, false, 0, 1, 4⟩ := rfl
  have q1 : exAbsO (0 : Fin 2 → ℝ) (1 / 2) = .ok (1 / 2, none) := by simp [exAbsO]
  have q2 : exAbsO (0 : Fin 2 → ℝ) (1 / 4) = .ok (1 / 4, some (![1, 0], .scalar 0)) := by
    norm_num [exAbsO]
  have hcopy : HEll.copy (⟨true, false, 0, 1, 4⟩ : HEll 2) = .ok ⟨true, false, 0, 1, 4⟩ := by
    unfold HEll.copy HEll.init c1? pyDiv; norm_num
  have p1 : probeEll (fun t _ => .ok t) exAbsO ⟨1, 0⟩ (1 / 2) (0, (fun _ => 0), ⟨true, false, 0, 1, 4⟩) =
      .ok ((1 / 2, (fun _ => 0), ⟨true, false, 0, 1, 4⟩), true) := by
    simp only [probeEll, bsearchAdaptor, hcopy, cuttingPlaneFeas, forRange, forLoop, feasBody, besides, besidesCall,
      HEll.readOracle, HEll.space, q1, readVar, Int.toNat_one, HEll.setXc]
    simp
  have p2 : probeEll (fun t _ => .ok t) exAbsO ⟨1, 0⟩ (1 / 4) (1 / 2, (fun _ => 0), ⟨true, false, 0, 1, 4⟩) =
      .ok ((1 / 4, Function.update (fun _ => 0) 0 ![-2 / 3, 0], ⟨true, false, 0, 1, 4⟩), false) := by
    simp only [probeEll, bsearchAdaptor, hcopy, cuttingPlaneFeas, forRange, forLoop, feasBody, besides, besidesCall,
      HEll.readOracle, HEll.space, HEll.update, hl, q2, centralStep, readVar, Int.toNat_one]
    norm_num
  refine ⟨Function.update (fun _ => 0) 0 ![-2 / 3, 0], ⟨true, 1, .success⟩, ?_, rfl, ?_⟩
  · have e1 : (0 : ℝ) + (1 - 0) / 2 = 1 / 2 := by norm_num
    have e2 : (0 : ℝ) + (1 / 2 - 0) / 2 = 1 / 4 := by norm_num
    have e3 : (2 : ℤ).toNat = 2 := rfl
    simp only [bsearch, forRange, forLoop, bsearchBody, e3, id_eq, e1, p1]
    norm_num [readVar]
    simp only [p2]
    norm_num [readVar]
  · simp
    norm_num [abs_of_neg]

end Verif
