import Verif.Props.EllFloatAnyCut
import Verif.Props.LowpassFloat

/-!
# C135: the low-pass design run with every operation rounded

`cutting_plane_dc(lowpass_oracle(...), ell(...), Spsq)`, the oracle (C122) and the ellipsoid with parallel cuts (C134) both in floating point.
-/
namespace Verif
open Matrix MeasureTheory Ell FloatSpec
variable {n : ℕ} [NeZero n] {fl : ℝ → ℝ} {dot dot' : (Fin n → ℝ) → (Fin n → ℝ) → ℝ} {u γ ε tol : ℝ} {o₀ : Lowpass n} {E₀ : Ell n} {K X : Set (Fin n → ℝ)}

/-- The rows of the specification have absolute sums of at most `B`. -/
def RowsBy (B : ℝ) (o : Lowpass n) : Prop := ∀ g, SpecRow o.Ap.row o.As.row o.Anr.row g → ∑ i, |g i| ≤ B

theorem abs_dot_le {g z : Fin n → ℝ} {B R : ℝ} (hg : ∑ i, |g i| ≤ B) (hz : ∀ i, |z i| ≤ R) : ∑ i, |g i * z i| ≤ B * R := by
  have hR : 0 ≤ R := (abs_nonneg _).trans (hz 0)
  refine le_trans ?_ (mul_le_mul_of_nonneg_right hg hR)
  rw [Finset.sum_mul]
  exact Finset.sum_le_sum fun i _ => by rw [abs_mul]; exact mul_le_mul_of_nonneg_left (hz i) (abs_nonneg _)

/-- What the errors in one cut amount to, in a box of size `R`. -/
def lpErr (γ u B R : ℝ) : ℝ := γ * (B * R) + 4 * u * (γ * (B * R) + 2 * (B * R))

omit [NeZero n] in
/-- A cut that holds up to small errors for points with enough room holds for them exactly. -/
theorem nearCut_ok {c : (Fin n → ℝ) × Beta} {x : Fin n → ℝ} {e G δ ν : ℝ} (hu0 : 0 ≤ u) (hu : u ≤ 1 / 4) (hd : deepBeta c.2) (hKne : K.Nonempty)
    (hc : ∀ z ∈ K, NearCut (e - δ) (2 * u) x c z) (he : 0 ≤ e) (hG : ∀ z ∈ K, |c.1 ⬝ᵥ (z - x)| ≤ G) (hν : e + 4 * u * (e + G) ≤ ν) (hδ : ν < δ)
    (htol : tol ≤ 199 / 200 * (δ - ν) ^ 2) : CutOK K tol x c := by
  obtain ⟨g, be⟩ := c
  dsimp only at hd hG
  have hG0 : 0 ≤ G := (abs_nonneg _).trans (hG _ hKne.some_mem)
  have heν : e ≤ ν := by
    have : 0 ≤ 4 * u * (e + G) := by positivity
    linarith
  have key : ∀ z ∈ K, g ⬝ᵥ (z - x) ≤ -(δ - ν) ∧ z ∈ cutSet x (g, be) := fun z hz => by
    have h1 := hc z hz
    have h2 := abs_le.1 (hG z hz)
    have first : ∀ {b0 : ℝ}, 0 ≤ b0 → g ⬝ᵥ (z - x) + b0 ≤ e - δ + 2 * u * b0 → g ⬝ᵥ (z - x) + b0 ≤ ν - δ := fun {b0} hb h => by
      have h3 : 2 * u * b0 ≤ 1 / 2 * b0 := mul_le_mul_of_nonneg_right (by linarith) hb
      have h4 : b0 ≤ 2 * (e + G) := by linarith [h2.1]
      have h5 := mul_le_mul_of_nonneg_left h4 (show 0 ≤ 2 * u by linarith)
      linarith
    match be, hd, h1 with
    | .scalar b, hd, h1 =>
      have hd : 0 ≤ b := hd
      have h1 : g ⬝ᵥ (z - x) + b ≤ e - δ := h1
      exact ⟨by linarith, show g ⬝ᵥ (z - x) + b ≤ 0 by linarith⟩
    | .seq [b0, b1], hd, h1 =>
      have hd : 0 ≤ b0 := hd
      have h1 : g ⬝ᵥ (z - x) + b0 ≤ e - δ + 2 * u * b0 ∧ -(e - δ + 2 * u * b1) ≤ g ⬝ᵥ (z - x) + b1 := h1
      have h3 := first hd h1.1
      refine ⟨by linarith, show g ⬝ᵥ (z - x) + b0 ≤ 0 ∧ 0 ≤ g ⬝ᵥ (z - x) + b1 from ⟨by linarith, ?_⟩⟩
      rcases le_or_gt G b1 with hb | hb
      · linarith [h2.1]
      · have h4 := mul_le_mul_of_nonneg_left hb.le (show 0 ≤ 2 * u by linarith)
        have h5 : 0 ≤ u * e := by positivity
        have h6 : 0 ≤ u * G := by positivity
        linarith [h1.2]
  refine ⟨hd, ?_, fun z hz => ⟨(key z hz).2, ?_⟩⟩
  · intro h0
    have h0 : g = 0 := h0
    have := (key _ hKne.some_mem).1
    rw [h0, zero_dotProduct] at this
    linarith
  · have h1 := (key z hz).1
    have h2 : (δ - ν) ^ 2 ≤ (g ⬝ᵥ (z - x)) ^ 2 := by
      rw [← neg_sq (g ⬝ᵥ (z - x))]
      exact pow_le_pow_left₀ (by linarith) (by linarith) 2
    dsimp only
    linarith

/-- What stays true of the oracle object during a run. -/
def LpKept (o₀ o : Lowpass n) : Prop := o.Inv ∧ o₀.SameData o

/-- One call of the rounded oracle at a point of the box, while the points of `K` have room `δ` at the level. -/
theorem lowpass_callF (hLU : o₀.Lpsq ≤ o₀.Upsq) (hN : 0 < o₀.As.N) (hfl : RelErr u fl) (hu0 : 0 ≤ u) (hu : u ≤ 1 / 4) (hγ : 0 ≤ γ) (hdot : VecDotErr γ dot)
    {B R τ δ : ℝ} (hB : RowsBy B o₀) (hKne : K.Nonempty) (hKR : ∀ z ∈ K, ∀ i, |z i| ≤ R)
    (hK : ∀ z ∈ K, MeetsSpecBy o₀.Ap.row o₀.As.row o₀.Anr.row o₀.Lpsq o₀.Upsq τ δ z) (hδ : lpErr γ u B R < δ)
    (htol : tol ≤ 199 / 200 * (δ - lpErr γ u B R) ^ 2) {x : Fin n → ℝ} (hx : ∀ i, |x i| ≤ R) {t : ℝ} (ht : 0 ≤ t) {o : Lowpass n} (ho : LpKept o₀ o) :
    ∃ o' c t1, Lowpass.callF fl dot x t o = .ok (o', c, t1) ∧ LpKept o₀ o' ∧ 0 ≤ t1.getD t ∧ t1.getD t ≤ t ∧
      (∀ s, t1 = some s → MeetsSpecUpTo (fun _ => γ * (B * R)) o₀.Ap.row o₀.As.row o₀.Anr.row o₀.Lpsq o₀.Upsq s x) ∧
      (τ ≤ t1.getD t → CutOK K tol x c) := by
  obtain ⟨hI, e1, e2, e3, e4, e5⟩ := ho
  obtain ⟨o', c, t1, h1, h2, ⟨d1, d2, d3, d4, d5⟩, h4, -, h6, h7, h8⟩ :=
    C122_lowpass hI (by rw [e4, e5]; exact hLU) (by rw [e2]; exact hN) x ht hfl hu0 (by linarith) hγ hdot
  obtain ⟨mA, i1, i2, i3, Ap, As, Anr, L, U⟩ := o
  obtain rfl := e1; obtain rfl := e2; obtain rfl := e3; obtain rfl := e4; obtain rfl := e5
  dsimp only at h4 h6 h7 h8 d1 d2 d3 d4 d5
  have hrow : ∀ g, SpecRow o₀.Ap.row o₀.As.row o₀.Anr.row g → rowErr γ x g ≤ γ * (B * R) := fun g hg =>
    mul_le_mul_of_nonneg_left (abs_dot_le (hB g hg) hx) hγ
  refine ⟨o', c, t1, h1, ⟨h2, d1, d2, d3, d4, d5⟩, ?_, ?_, fun s hs => ?_, fun hbad => ?_⟩
  · cases t1 with
    | none => exact ht
    | some s => exact (h4 s rfl).1
  · cases t1 with
    | none => exact le_rfl
    | some s => exact (h4 s rfl).2.1
  · obtain ⟨-, -, m, -⟩ := h4 s hs
    refine ⟨fun k => ?_, fun k => ?_, fun k => ?_, m.first⟩
    · have h5 := hrow _ (.inl ⟨k, .inl rfl⟩)
      have := m.pass k
      constructor <;> linarith [this.1, this.2]
    · have h5 := hrow _ (.inr (.inl ⟨k, .inl rfl⟩))
      have := m.stop k
      constructor <;> linarith [this.1, this.2]
    · have h5 := hrow _ (.inr (.inr (.inl ⟨k, rfl⟩)))
      rw [rowErr_neg] at h5
      linarith [m.nonneg k]
  · have hr := hrow _ h7
    have hBR : 0 ≤ B * R := mul_nonneg ((Finset.sum_nonneg fun i _ => abs_nonneg _).trans (hB _ h7)) ((abs_nonneg _).trans (hx 0))
    have hd : deepBeta c.2 := by
      cases t1 with
      | none =>
        rcases h6 rfl with ⟨b, hb, hb0⟩ | ⟨b0, b1, hb, hb0⟩ <;> rw [hb] <;> exact hb0.le
      | some s =>
        obtain ⟨-, -, -, k, -, hc⟩ := h4 s rfl
        rw [hc]
        exact le_rfl
    refine nearCut_ok (e := γ * (B * R)) (G := 2 * (B * R)) (δ := δ) (ν := lpErr γ u B R) hu0 hu hd hKne (fun z hz => ?_) (by positivity) (fun z hz => ?_) le_rfl hδ htol
    · have hm := hK z hz
      have h9 := h8 z δ ⟨hm.pass, fun k => ⟨(hm.stop k).1, (hm.stop k).2.trans (by linarith)⟩, hm.nonneg, hm.first⟩
      obtain ⟨g, be⟩ := c
      match be, h9 with
      | .scalar b, h9 =>
        have h9 : g ⬝ᵥ (z - x) + b ≤ rowErr γ x g - δ := h9
        show g ⬝ᵥ (z - x) + b ≤ _
        dsimp only at hr
        linarith
      | .seq [b0, b1], h9 =>
        have h9 : g ⬝ᵥ (z - x) + b0 ≤ rowErr γ x g - δ + 2 * u * b0 ∧ -(rowErr γ x g - δ + 2 * u * b1) ≤ g ⬝ᵥ (z - x) + b1 := h9
        show g ⬝ᵥ (z - x) + b0 ≤ _ ∧ _ ≤ g ⬝ᵥ (z - x) + b1
        dsimp only at hr
        constructor <;> linarith [h9.1, h9.2]
    · have h9 : ∀ i, |(z - x) i| ≤ 2 * R := fun i => by
        have := abs_sub (z i) (x i)
        rw [Pi.sub_apply]
        linarith [hKR z hz i, hx i]
      refine (Finset.abs_sum_le_sum_abs _ _).trans ((abs_dot_le (hB _ h7) h9).trans (le_of_eq (by ring)))

theorem lowpass_keeps (hLU : o₀.Lpsq ≤ o₀.Upsq) (hN : 0 < o₀.As.N) (hfl : RelErr u fl) (hu0 : 0 ≤ u) (hu : u ≤ 1 / 4) (hγ : 0 ≤ γ) (hdot : VecDotErr γ dot)
    {B R τ δ : ℝ} (hB : RowsBy B o₀) (hKne : K.Nonempty) (hKR : ∀ z ∈ K, ∀ i, |z i| ≤ R)
    (hK : ∀ z ∈ K, MeetsSpecBy o₀.Ap.row o₀.As.row o₀.Anr.row o₀.Lpsq o₀.Upsq τ δ z) (hδ : lpErr γ u B R < δ)
    (htol : tol ≤ 199 / 200 * (δ - lpErr γ u B R) ^ 2) :
    DcKeepsAny K {x | ∀ i, |x i| ≤ R} (fun o t => LpKept o₀ o ∧ 0 ≤ t) (fun t => τ ≤ t) tol (fun x t => Lowpass.callF fl dot x t) := by
  constructor
  · rintro x t o o' c t1 ⟨⟨hI, e1, e2, e3, e4, e5⟩, ht⟩ hq
    obtain ⟨o1, c1, t2, h1, h2, ⟨d1, d2, d3, d4, d5⟩, h4, -⟩ :=
      C122_lowpass hI (by rw [e4, e5]; exact hLU) (by rw [e2]; exact hN) x ht hfl hu0 (by linarith) hγ hdot
    rw [hq] at h1
    simp only [Except.ok.injEq, Prod.mk.injEq] at h1
    obtain ⟨rfl, rfl, rfl⟩ := h1
    refine ⟨⟨⟨h2, d1.trans e1, d2.trans e2, d3.trans e3, d4.trans e4, d5.trans e5⟩, ?_⟩, ?_⟩
    · cases t1 with
      | none => exact ht
      | some s => exact (h4 s rfl).1
    · cases t1 with
      | none => exact id
      | some s => exact fun h => le_trans h (h4 s rfl).2.1
  · rintro x hx t o ⟨ho, ht⟩ -
    obtain ⟨o', c, t1, h1, -, -, -, -, h2⟩ := lowpass_callF hLU hN hfl hu0 hu hγ hdot hB hKne hKR hK hδ htol hx ht ho
    exact ⟨o', c, t1, h1, h2⟩

/-- **C135** (the level reached).  Whatever the counters of the oracle are: let the points of `K` meet the specification at level `τ` with room `δ`, more than the errors of a cut in the box of size `R`,
and let the arithmetic be precise enough for `N` rounds (`SureAny`).  Then a run of `cutting_plane_dc(lowpass_oracle(...), ell, t0)`, every operation rounded, with `max_it ≥ N` that returns
has a level `t < τ`, and the design returned, if any, meets the specification at that level up to `γ Σ|aᵢxᵢ|` on every row `a`; and a design that meets the specification at a level below `τ`
up to `γBR` is reported within the first `N` oracle calls, before which no exception is raised. -/
theorem C135_lowpass (hI : o₀.Inv) (hLU : o₀.Lpsq ≤ o₀.Upsq) (hN : 0 < o₀.As.N) (hE : E₀.Proper) (hfl : RelErr u fl) (hu0 : 0 ≤ u) (hu : u ≤ 1 / 4) (huε : u ≤ ε)
    (hγ : 0 ≤ γ) (hdot : VecDotErr γ dot) (hdot' : VecDotErr ε dot') {B R τ δ : ℝ} (hB : RowsBy B o₀) (hKne : K.Nonempty) (hKR : ∀ z ∈ K, ∀ i, |z i| ≤ R)
    (hK : ∀ z ∈ K, MeetsSpecBy o₀.Ap.row o₀.As.row o₀.Anr.row o₀.Lpsq o₀.Upsq τ δ z) (hδ : lpErr γ u B R < δ)
    (htol : tol ≤ 199 / 200 * (δ - lpErr γ u B R) ^ 2) {N : ℕ} {C η θ l q A L₀ L v : ℝ}
    (hs : SureAny n N E₀ K {x | ∀ i, |x i| ≤ R} C ε η u θ l q A L₀ L v) {t0 : ℝ} (ht0 : 0 ≤ t0) :
    (∀ m : Int, (N : Int) ≤ m → ∀ w' xb t info, cuttingPlaneDc (fun x t => liftOracle (Lowpass.callF fl dot x t)) ((Ell.spaceF fl dot').beside (Lowpass n)) t0 ⟨m, tol⟩
      (o₀, E₀) = .ok (w', xb, t, info) → t < τ ∧ ((xb = none ∧ t = t0) ∨ ∃ x, xb = some x ∧ 0 ≤ t ∧ t ≤ t0 ∧
        MeetsSpecUpTo (rowErr γ x) o₀.Ap.row o₀.As.row o₀.Anr.row o₀.Lpsq o₀.Upsq t x)) ∧
    (τ ≤ t0 → ∃ (k : ℕ) (log : _) (p : Lowpass n × Ell n) (w' : Lowpass n) (c : _) (t : ℝ), k < N ∧
      DcRounds (fun x t => liftOracle (Lowpass.callF fl dot x t)) ((Ell.spaceF fl dot').beside (Lowpass n)) tol t0 (o₀, E₀) k log p ∧
      Lowpass.callF fl dot p.2.xc (bestT t0 log) p.1 = .ok (w', c, some t) ∧ t < τ ∧
      MeetsSpecUpTo (fun _ => γ * (B * R)) o₀.Ap.row o₀.As.row o₀.Anr.row o₀.Lpsq o₀.Upsq t p.2.xc) := by
  have hkeep := lowpass_keeps hLU hN hfl hu0 hu hγ hdot hB hKne hKR hK hδ htol
  have hw₀ : LpKept o₀ o₀ ∧ 0 ≤ t0 := ⟨⟨hI, .refl o₀⟩, ht0⟩
  obtain ⟨k1, k2⟩ := C134_dc (t0 := t0) hs hE hfl hu0 huε hdot' hkeep hw₀
  refine ⟨fun m hm w' xb t info h => ⟨not_le.1 (k1 m hm w' xb t info h), ?_⟩, fun hbad => ?_⟩
  · rcases C122_run hI hLU hN hfl hu0 (by linarith) hγ hdot ht0 h with h1 | ⟨x, h1, h2, h3, h4, -⟩
    · exact .inl h1
    · exact .inr ⟨x, h1, h2, h3, h4⟩
  · classical
    -- the first round with a good level
    have key : ∀ k : ℕ, (∃ (k : ℕ) (log : _) (p : Lowpass n × Ell n) (w' : Lowpass n) (c : _) (t : ℝ), k < N ∧
        DcRounds (fun x t => liftOracle (Lowpass.callF fl dot x t)) ((Ell.spaceF fl dot').beside (Lowpass n)) tol t0 (o₀, E₀) k log p ∧
        Lowpass.callF fl dot p.2.xc (bestT t0 log) p.1 = .ok (w', c, some t) ∧ t < τ ∧
        MeetsSpecUpTo (fun _ => γ * (B * R)) o₀.Ap.row o₀.As.row o₀.Anr.row o₀.Lpsq o₀.Upsq t p.2.xc) ∨
      ∃ log p, DcRounds (fun x t => liftOracle (Lowpass.callF fl dot x t)) ((Ell.spaceF fl dot').beside (Lowpass n)) tol t0 (o₀, E₀) k log p ∧ τ ≤ bestT t0 log := by
      intro k
      induction k with
      | zero => exact .inr ⟨[], _, .nil, hbad⟩
      | succ k ih =>
        rcases ih with ih | ⟨log, p, hp, hb⟩
        · exact .inl ih
        · obtain ⟨⟨ho, ht⟩, hil⟩ := dcAny_kept hs hE hfl hu0 huε hdot' hkeep hw₀ hp
          have hil := hil hb
          obtain ⟨-, hX, -⟩ := hs.resolved hE hu0 huε hil
          obtain ⟨o', c, t1, h1, -, -, -, h2, h3⟩ := lowpass_callF hLU hN hfl hu0 hu hγ hdot hB hKne hKR hK hδ htol hX ht ho
          rcases le_or_gt τ (t1.getD (bestT t0 log)) with hb1 | hb1
          · right
            obtain ⟨E', tsq', k6, k7, -⟩ := hs.step hE hfl hu0 huε hdot' hil (h3 hb1)
            refine ⟨_, (o', E'), .snoc hp (w1 := (o', p.2)) (c := c) (t1 := t1) (tsq := tsq') ?_ ?_ k7, ?_⟩
            · simp [Space.beside, Ell.spaceF, liftOracle, h1]
            · simp [Space.beside, Ell.spaceF, k6]
            · rw [bestT_snoc]; exact hb1
          · left
            cases t1 with
            | none => exact absurd hb (not_le.2 hb1)
            | some t => exact ⟨k, log, p, o', c, t, hs.few hu0 huε hil, hp, h1, hb1, h2 t rfl⟩
    rcases key N with h | ⟨log, p, hp, hb⟩
    · exact h
    · exact absurd (hs.few hu0 huε ((dcAny_kept hs hE hfl hu0 huε hdot' hkeep hw₀ hp).2 hb)) (lt_irrefl N)

theorem rowsBy_exists (o : Lowpass n) : ∃ B, 0 ≤ B ∧ RowsBy B o := by
  refine ⟨∑ k, ∑ i, |o.Ap.row k i| + ∑ k, ∑ i, |o.As.row k i| + ∑ k, ∑ i, |o.Anr.row k i| + 1, by positivity, fun g hg => ?_⟩
  have h1 : 0 ≤ ∑ k, ∑ i, |o.Ap.row k i| := by positivity
  have h2 : 0 ≤ ∑ k, ∑ i, |o.As.row k i| := by positivity
  have h3 : 0 ≤ ∑ k, ∑ i, |o.Anr.row k i| := by positivity
  have hn : ∀ a : Fin n → ℝ, ∑ i, |(-a) i| = ∑ i, |a i| := fun a => by simp only [Pi.neg_apply, abs_neg]
  have s1 : ∀ k, ∑ i, |o.Ap.row k i| ≤ ∑ k, ∑ i, |o.Ap.row k i| := fun k =>
    Finset.single_le_sum (f := fun k => ∑ i, |o.Ap.row k i|) (fun k _ => by positivity) (Finset.mem_univ k)
  have s2 : ∀ k, ∑ i, |o.As.row k i| ≤ ∑ k, ∑ i, |o.As.row k i| := fun k =>
    Finset.single_le_sum (f := fun k => ∑ i, |o.As.row k i|) (fun k _ => by positivity) (Finset.mem_univ k)
  have s3 : ∀ k, ∑ i, |o.Anr.row k i| ≤ ∑ k, ∑ i, |o.Anr.row k i| := fun k =>
    Finset.single_le_sum (f := fun k => ∑ i, |o.Anr.row k i|) (fun k _ => by positivity) (Finset.mem_univ k)
  rcases hg with ⟨k, rfl | rfl⟩ | ⟨k, rfl | rfl⟩ | ⟨k, rfl⟩ | rfl
  · linarith [s1 k]
  · rw [hn]; linarith [s1 k]
  · linarith [s2 k]
  · rw [hn]; linarith [s2 k]
  · rw [hn]; linarith [s3 k]
  · have : ∑ i : Fin n, |if i = 0 then (-1 : ℝ) else 0| = 1 := by
      rw [Finset.sum_eq_single 0] <;> simp +contextual
    rw [this]; linarith

/-- **C135** (designable filters are designed).  If on some ball inside the first ellipsoid the specification is met at level `τ` with some room, then for every `ν > 0` there are a number `N` of
iterations, a number `p₀` of bits and a tolerance such that with `p₀` bits or more, whatever the counters of the oracle are, `cutting_plane_dc(lowpass_oracle(...), ell, t0)` with every operation
rounded and `max_it ≥ N` returns, if it returns, a level below `τ`; and if `t0 ≥ τ`, within `N` oracle calls, before which nothing is raised, a design is reported that meets the
specification at a level below `τ` up to `ν`. -/
theorem C135_design (hLU : o₀.Lpsq ≤ o₀.Upsq) (hN : 0 < o₀.As.N) (hE : E₀.Proper) {a : Fin n → ℝ} {r τ δ : ℝ} (hr : 0 < r) (hball : euclBall a r ⊆ E₀.pts)
    (hδ : 0 < δ) (hK : ∀ z ∈ euclBall a r, MeetsSpecBy o₀.Ap.row o₀.As.row o₀.Anr.row o₀.Lpsq o₀.Upsq τ δ z) {ν : ℝ} (hν : 0 < ν) :
    ∃ (N p₀ : ℕ) (tol₀ : ℝ), 0 < tol₀ ∧ ∀ p, p₀ ≤ p → ∀ fl, Nearest p fl → ∀ tol, tol ≤ tol₀ → ∀ o₁ : Lowpass n, o₁.Inv → o₀.SameData o₁ → ∀ t0, 0 ≤ t0 →
    (∀ m : Int, (N : Int) ≤ m → ∀ w' xb t info, cuttingPlaneDc (fun x t => liftOracle (Lowpass.callF fl (vecDot fl) x t)) ((Ell.spaceF fl (vecDot fl)).beside (Lowpass n)) t0
      ⟨m, tol⟩ (o₁, E₀) = .ok (w', xb, t, info) → t < τ) ∧
    (τ ≤ t0 → ∃ (k : ℕ) (log : _) (v : Lowpass n × Ell n) (w' : Lowpass n) (c : _) (t : ℝ), k < N ∧
      DcRounds (fun x t => liftOracle (Lowpass.callF fl (vecDot fl) x t)) ((Ell.spaceF fl (vecDot fl)).beside (Lowpass n)) tol t0 (o₁, E₀) k log v ∧
      Lowpass.callF fl (vecDot fl) v.2.xc (bestT t0 log) v.1 = .ok (w', c, some t) ∧ t < τ ∧
      MeetsSpecUpTo (fun _ => ν) o₀.Ap.row o₀.As.row o₀.Anr.row o₀.Lpsq o₀.Upsq t v.2.xc) := by
  set A := ∑ i, |a i| + r with hA
  have hKA : ∀ z ∈ euclBall a r, ∀ i, |z i| ≤ A := fun z hz i => (ball_coord hr.le hz i).trans
    (by have := Finset.single_le_sum (f := fun i => |a i|) (fun i _ => abs_nonneg _) (Finset.mem_univ i); linarith)
  have hpos : 0 < volume.real (euclBall a r ∩ E₀.pts) := by
    rw [Set.inter_eq_left.2 hball, vol_ball hE.dim hr]
    have := euclBall_real_pos (n := n)
    positivity
  obtain ⟨N, L, ε₀, hε₀, C, η, θ, l, q, L₀, v, hS⟩ := C134_precise hE hKA hpos
  set R := A + √L with hR
  have hR0 : 0 ≤ R := by positivity
  obtain ⟨B, hB0, hB⟩ := rowsBy_exists o₀
  have hne : (euclBall a r).Nonempty := ⟨a, by change ∑ i, (a i - a i) ^ 2 ≤ r ^ 2; simp; positivity⟩
  set Z := 4 * ((n : ℝ) + 1) + 4 + 2 * (n + 1) / ε₀ + 4 * (n + 7) * (B * R) / δ + 2 * (n + 1) * (B * R) / ν with hZ
  obtain ⟨p₀, hp₀⟩ := pow_unbounded_of_one_lt Z (one_lt_two (α := ℝ))
  refine ⟨N, p₀, 199 / 200 * (δ / 2) ^ 2, by positivity, fun p hp fl hfl tol htol o₁ hI hD t0 ht0 => ?_⟩
  have h2p : Z ≤ 2 ^ p := hp₀.le.trans (pow_le_pow_right₀ one_le_two hp)
  have hn0 : (0 : ℝ) ≤ n := Nat.cast_nonneg _
  have z1 : 0 ≤ 4 * ((n : ℝ) + 1) := by positivity
  have z2 : 0 ≤ 2 * ((n : ℝ) + 1) / ε₀ := by positivity
  have z3 : 0 ≤ 4 * ((n : ℝ) + 7) * (B * R) / δ := by positivity
  have z4 : 0 ≤ 2 * ((n : ℝ) + 1) * (B * R) / ν := by positivity
  have h0 : (0 : ℝ) < 2 ^ p := by positivity
  obtain ⟨hrel, hu, hvdot⟩ := C117_double (n := n) hfl (by linarith)
  set u : ℝ := 1 / 2 ^ p with hudef
  set γ : ℝ := 2 * (n + 1) / 2 ^ p with hγdef
  have hu0 : 0 ≤ u := by positivity
  have hu4 : u ≤ 1 / 4 := by rw [hudef]; exact one_div_le_one_div_of_le (by norm_num) (by linarith)
  have hγ0 : 0 ≤ γ := by positivity
  have y1 : γ ≤ ε₀ := by
    have : 2 * ((n : ℝ) + 1) / ε₀ ≤ 2 ^ p := by linarith
    rw [div_le_iff₀ hε₀] at this
    rw [hγdef, div_le_iff₀ h0]
    linarith
  have y2 : lpErr γ u B R ≤ δ / 2 := by
    have e1 : 4 * ((n : ℝ) + 7) * (B * R) / δ ≤ 2 ^ p := by linarith
    rw [div_le_iff₀ hδ] at e1
    have e2 : γ ≤ 1 := by rw [hγdef, div_le_one h0]; linarith
    have e3 : γ * (B * R) ≤ 1 * (B * R) := mul_le_mul_of_nonneg_right e2 (by positivity)
    have e4 : lpErr γ u B R ≤ γ * (B * R) + 4 * u * (3 * (B * R)) := by
      unfold lpErr
      have := mul_le_mul_of_nonneg_left (show γ * (B * R) + 2 * (B * R) ≤ 3 * (B * R) by linarith) (show 0 ≤ 4 * u by linarith)
      linarith
    refine e4.trans ?_
    have e5 : γ * (B * R) + 4 * u * (3 * (B * R)) = (2 * (n + 7)) * (B * R) / 2 ^ p := by rw [hγdef, hudef]; ring
    rw [e5, div_le_iff₀ h0]
    linarith
  have y3 : γ * (B * R) ≤ ν := by
    have : 2 * ((n : ℝ) + 1) * (B * R) / ν ≤ 2 ^ p := by linarith
    rw [div_le_iff₀ hν] at this
    rw [hγdef, div_mul_eq_mul_div, div_le_iff₀ h0]
    linarith
  obtain ⟨mA, i1, i2, i3, Ap, As, Anr, L', U'⟩ := o₁
  obtain ⟨rfl, rfl, rfl, rfl, rfl⟩ := hD
  have key := C135_lowpass (tol := tol) (K := euclBall a r) (B := B) (R := R) (τ := τ) (δ := δ) (t0 := t0) hI hLU hN hE hrel hu0 hu4 hu hγ0 hvdot hvdot hB hne
    (fun z hz i => (hKA z hz i).trans (by rw [hR]; linarith [Real.sqrt_nonneg L])) hK (by linarith)
    (htol.trans (mul_le_mul_of_nonneg_left (pow_le_pow_left₀ (by linarith) (by linarith) 2) (by norm_num)))
    (hS γ u hu0 hu y1 _ fun x hx => hx) ht0
  refine ⟨fun m hm w' xb t info h => (key.1 m hm w' xb t info h).1, fun hb => ?_⟩
  obtain ⟨k, log, w, w', c, t, c1, c2, c3, c4, c5⟩ := key.2 hb
  refine ⟨k, log, w, w', c, t, c1, c2, c3, c4, ⟨fun k => ?_, fun k => ?_, fun k => ?_, c5.first⟩⟩
  · have := c5.pass k
    dsimp only at this
    constructor <;> linarith [this.1, this.2]
  · have := c5.stop k
    dsimp only at this
    constructor <;> linarith [this.1, this.2]
  · have := c5.nonneg k
    dsimp only at this
    linarith

/-- Concrete: `exLp` (C48) from the disc of radius 10; designs near `(3/2, 1/2)` have level below `7/4` with room `1/10`. -/
example {ν : ℝ} (hν : 0 < ν) : ∃ (N p₀ : ℕ) (tol₀ : ℝ), 0 < tol₀ ∧ ∀ p, p₀ ≤ p → ∀ fl, Nearest p fl → ∀ tol, tol ≤ tol₀ →
    ∃ (k : ℕ) (log : _) (v : Lowpass 2 × Ell 2) (w' : Lowpass 2) (c : _) (t : ℝ), k < N ∧
      DcRounds (fun x t => liftOracle (Lowpass.callF fl (vecDot fl) x t)) ((Ell.spaceF fl (vecDot fl)).beside (Lowpass 2)) tol 10 (exLp, ⟨true, false, 0, 1, 10 ^ 2⟩) k log v ∧
      Lowpass.callF fl (vecDot fl) v.2.xc (bestT 10 log) v.1 = .ok (w', c, some t) ∧ t < 7 / 4 ∧
      MeetsSpecUpTo (fun _ => ν) exLp.Ap.row exLp.As.row exLp.Anr.row exLp.Lpsq exLp.Upsq t v.2.xc := by
  have hbd : ∀ z ∈ euclBall (n := 2) ![3 / 2, 1 / 2] (1 / 10), |z 0 - 3 / 2| ≤ 1 / 10 ∧ |z 1 - 1 / 2| ≤ 1 / 10 := by
    intro z hz
    simp only [euclBall, Set.mem_ofPred_eq, Fin.sum_univ_two, cons_val_zero, cons_val_one] at hz
    constructor <;> refine abs_le_of_sq_le_sq ?_ (by norm_num) <;>
      nlinarith [sq_nonneg (z 0 - 3 / 2), sq_nonneg (z 1 - 1 / 2)]
  obtain ⟨N, p₀, tol₀, h1, h2⟩ := C135_design (o₀ := exLp) (E₀ := ⟨true, false, 0, 1, 10 ^ 2⟩) (a := ![3 / 2, 1 / 2]) (r := 1 / 10) (δ := 1 / 10) (τ := 7 / 4)
    (by norm_num [exLp]) (by simp [exLp]) ⟨le_rfl, PosDef.one, by norm_num⟩ (by norm_num) (by
      rw [euclBall_eq_pts le_rfl]
      intro z hz
      obtain ⟨h1, h2⟩ := hbd z hz
      rw [abs_le] at h1 h2
      simp only [euclBall, Set.mem_ofPred_eq, Fin.sum_univ_two, Pi.zero_apply]
      nlinarith) (by norm_num) (by
      intro z hz
      obtain ⟨h1, h2⟩ := hbd z hz
      rw [abs_le] at h1 h2
      refine ⟨fun k => ?_, fun k => ?_, fun k => ?_, by linarith⟩
      · revert k; simp only [exLp]; intro k; fin_cases k; simp [vecHead, vecTail]; constructor <;> linarith
      · revert k; simp only [exLp]; intro k; fin_cases k <;> simp [vecHead, vecTail] <;> constructor <;> linarith
      · revert k; simp only [exLp]; intro k; fin_cases k; simp [vecHead, vecTail]; linarith) hν
  refine ⟨N, p₀, tol₀, h1, fun p hp fl hfl tol htol => ?_⟩
  exact (h2 p hp fl hfl tol htol exLp exLp_inv (.refl _) 10 (by norm_num)).2 (by norm_num)

end Verif
