import Verif.Props.EllSolve
import Verif.Props.MatOracle
import Verif.Props.Profit

/-!
# C73-C75: complete solvers

The drivers, the ellipsoid and the shipped oracles together.  The oracles return `(g, β)` with a float `β`, which
`ell.update` treats as a single-sided cut (`Beta.scalar`).
-/
namespace Verif
open Matrix Ell
variable {n m : ℕ}

/-- Any answer of an oracle with scalar right-hand sides as `ell.update` receives it. -/
def scalarCut (c : (Fin n → ℝ) × ℝ) : (Fin n → ℝ) × Beta := (c.1, .scalar c.2)

/-- `lmi_oracle` as the `Omega` of `cutting_plane_feas`. -/
noncomputable def lmiOmega (F : Fin n → ℕ → ℕ → ℝ) (B : ℕ → ℕ → ℝ) (m : ℕ) (x : Fin n → ℝ) (Q : CholExt ℝ) :
    Except PyErr (CholExt ℝ × Option ((Fin n → ℝ) × Beta)) :=
  (lmiCall F B m x Q).map fun r => (r.1, r.2.map scalarCut)

theorem lmiOmega_answer {F : Fin n → ℕ → ℕ → ℝ} {B : ℕ → ℕ → ℝ} (hF : ∀ q, SymOn (F q) m) (hB : SymOn B m)
    (x : Fin n → ℝ) {Q : CholExt ℝ} (hQ : Ready m Q) :
    ∃ Q' r, lmiOmega F B m x Q = .ok (Q', r) ∧ Ready m Q' ∧ (r = none ↔ PDon (pencil F B x) 0 m) ∧
      ∀ c, r = some c → ∃ ep, c.2 = .scalar ep ∧ 0 ≤ ep ∧ (∀ z, PSDon (pencil F B z) 0 m → c.1 ⬝ᵥ (z - x) + ep ≤ 0) ∧
        ∀ z lam, 0 ≤ lam → AtLeast lam (pencil F B z) m → c.1 ⬝ᵥ (z - x) + ep ≤ -lam := by
  obtain ⟨Q', r, h1, h2, h3, h4⟩ := C35_lmi hF hB x hQ
  refine ⟨Q', r.map scalarCut, by simp [lmiOmega, h1, Except.map], h2, by simpa using h3, ?_⟩
  intro c hc
  cases r with
  | none => simp at hc
  | some c' =>
    obtain ⟨g, ep⟩ := c'
    simp only [Option.map_some, Option.some.injEq] at hc
    subst hc
    obtain ⟨h5, h6, -, h7⟩ := h4 g ep rfl
    exact ⟨ep, rfl, h5, h6, h7⟩

/-- **C73** (convergence).  `cutting_plane_feas(lmi_oracle(F, B), ell(R², x₀))` on symmetric data, the oracle object in
any earlier state of use.  If some ball of radius `r` inside the initial ball consists of points with
`B - Σ z_q F_q ⪰ lam·I`, `lam > 0`, `tol ≤ lam²` and `max_it > 2n(n+1)·ln(R/r)`, the run returns `feasible = True`
within `2n(n+1)·ln(R/r) + 1` iterations, and the centre left in the ellipsoid makes `B - Σ x_q F_q` positive definite. -/
theorem C73_lmi_feas_converges (hn : 2 ≤ n) {F : Fin n → ℕ → ℕ → ℝ} {B : ℕ → ℕ → ℝ} (hF : ∀ q, SymOn (F q) m)
    (hB : SymOn B m) {x₀ a : Fin n → ℝ} {R r lam : ℝ} (hr : 0 < r) {E₀ : Ell n}
    (hinit : Ell.init (.scalar (R ^ 2)) x₀ = .ok E₀) (hball : euclBall a r ⊆ euclBall x₀ R) (hlam : 0 < lam)
    (hslater : ∀ z ∈ euclBall a r, AtLeast lam (pencil F B z) m) {o : Options ℝ} (htol : o.tol ≤ lam ^ 2)
    (hmax : 2 * n * ((n : ℝ) + 1) * Real.log (R / r) < o.maxIt) {Q₀ : CholExt ℝ} (hQ : Ready m Q₀) :
    ∃ Q E info, cuttingPlaneFeas (fun x => liftOracle (lmiOmega F B m x)) (Ell.space (CholExt ℝ) n) o (Q₀, E₀) =
        .ok ((Q, E), info) ∧
      info.feasible = true ∧ info.status = .success ∧
      (info.numIters : ℝ) ≤ 2 * n * ((n : ℝ) + 1) * Real.log (R / r) + 1 ∧
      PDon (pencil F B E.xc) 0 m := by
  obtain ⟨hwf, hpts, hv⟩ := init_bound (r := r) hn hinit
  rw [← hv] at hmax ⊢
  have ha : a ∈ euclBall a r := by
    change ∑ i, (a i - a i) ^ 2 ≤ r ^ 2; simp; positivity
  have hrun := C25_feas_ell_converges (Ω := lmiOmega F B m) (Ready m) hwf hr (by rw [hpts]; exact hball) (o := o)
    (fun x Q hQ => by
      obtain ⟨Q', res, h1, h2, -, h4⟩ := lmiOmega_answer hF hB x hQ
      cases res with
      | none => exact .inl ⟨Q', h1⟩
      | some c =>
        obtain ⟨ep, h5, h6, -, h7⟩ := h4 c rfl
        obtain ⟨g, b⟩ := c
        dsimp only at h5 h7
        subst h5
        refine .inr ⟨Q', g, _, h1, h2, fun z hz => ?_, h6, ?_, a, ha, ?_⟩
        · have := h7 z lam hlam.le (hslater z hz)
          change g ⬝ᵥ (z - x) + ep ≤ 0
          linarith
        · rintro rfl
          have := h7 a lam hlam.le (hslater a ha)
          rw [zero_dotProduct] at this
          linarith
        · have := h7 a lam hlam.le (hslater a ha)
          nlinarith)
    hmax Q₀ hQ
  obtain ⟨Q, E, info, h1, h2, h3, h4, u, hru, hu⟩ := hrun
  refine ⟨Q, E, info, h1, h2, h3, h4, ?_⟩
  obtain ⟨Q', res, h5, -, h6, -⟩ := lmiOmega_answer hF hB E.xc hru
  rw [hu] at h5
  simp only [Except.ok.injEq, Prod.mk.injEq] at h5
  exact h6.1 h5.2.symm

/-- **C73** (verdict).  Whatever the run returns is right: with `feasible = True` the centre left in the ellipsoid is
strictly feasible; with `nosoln` the initial ellipsoid contains no feasible point at all; with any other status than
`success`, notably `smallenough`, no point of it is feasible with margin `√tol`. -/
theorem C73_lmi_feas_verdict {F : Fin n → ℕ → ℕ → ℝ} {B : ℕ → ℕ → ℝ} (hF : ∀ q, SymOn (F q) m)
    (hB : SymOn B m) {E₀ : Ell n} (hE : E₀.WF) {o : Options ℝ} {Q₀ Q : CholExt ℝ} (hQ : Ready m Q₀) {E : Ell n}
    {info : CInfo} (h : cuttingPlaneFeas (fun x => liftOracle (lmiOmega F B m x)) (Ell.space (CholExt ℝ) n) o (Q₀, E₀) =
        .ok ((Q, E), info)) :
    (info.feasible = true → PDon (pencil F B E.xc) 0 m) ∧
    (info.status = .nosoln → ∀ z ∈ E₀.pts, ¬ PSDon (pencil F B z) 0 m) ∧
    (info.status ≠ .success → ∀ z ∈ E₀.pts, ∀ lam, 0 ≤ lam → o.tol ≤ lam ^ 2 → ¬ AtLeast lam (pencil F B z) m) := by
  have h1 := C70_feas_ell_verdict (Ω := lmiOmega F B m) (Ready m)
    {z | ∃ lam, 0 ≤ lam ∧ o.tol ≤ lam ^ 2 ∧ AtLeast lam (pencil F B z) m} hE (o := o) ?_ hQ h
  · obtain ⟨h1, -, h3⟩ := h1
    refine ⟨fun hf => ?_, ?_, fun hs z hz lam h0 ht hl => h1 hs z ⟨lam, h0, ht, hl⟩ hz⟩
    · obtain ⟨u, hu, h4⟩ := h3 hf
      obtain ⟨Q', res, h5, -, h6, -⟩ := lmiOmega_answer hF hB E.xc hu
      rw [h4] at h5
      simp only [Except.ok.injEq, Prod.mk.injEq] at h5
      exact h6.1 h5.2.symm
    · intro hs z hz hp
      refine (C04_feas_certificate (Inv := fun w => Ready m w.1 ∧ w.2.WF) (mem := fun w => w.2.pts) (sat := cutSet)
        {z | PSDon (pencil F B z) 0 m} ?_ ?_ ?_ ⟨hQ, hE⟩ h).2.2 hs z hp hz
      · have hS := C16_C17_C18_ell_soundSpace (n := n) (CholExt ℝ)
        exact ⟨fun c w w' st tsq hw hu => ⟨by rw [(space_update_ok hu).2]; exact hw.1, hS.inv c w w' st tsq hw.2 hu⟩,
          fun c w w' st tsq hw hu => hS.keep c w w' st tsq hw.2 hu,
          fun c w w' tsq hw hu => hS.nosoln c w w' tsq hw.2 hu⟩
      · intro x
        refine ⟨fun w w' a hq => ?_, fun w w' a hq => ?_, fun w w' a hw hq => ?_⟩
        · show w'.2.xc = w.2.xc; rw [(liftOracle_ok hq).2]
        · show w'.2.pts = w.2.pts; rw [(liftOracle_ok hq).2]
        · obtain ⟨hq1, hq2⟩ := liftOracle_ok hq
          obtain ⟨Q', res, h5, h6, -⟩ := lmiOmega_answer hF hB x hw.1
          rw [hq1] at h5
          simp only [Except.ok.injEq, Prod.mk.injEq] at h5
          exact ⟨h5.1 ▸ h6, by rw [hq2]; exact hw.2⟩
      · intro u u' c hu hq p hp
        obtain ⟨hq1, hq2⟩ := liftOracle_ok hq
        obtain ⟨Q', res, h5, -, -, h7⟩ := lmiOmega_answer hF hB ((Ell.space (CholExt ℝ) n).xc u) hu.1
        rw [hq1] at h5
        simp only [Except.ok.injEq, Prod.mk.injEq] at h5
        obtain ⟨ep, h8, -, h9, -⟩ := h7 c h5.2.symm
        obtain ⟨g, b⟩ := c
        dsimp only at h8 h9
        subst h8
        exact h9 p hp
  · intro x w w' r hw hq
    obtain ⟨Q', res, h5, h6, -, h7⟩ := lmiOmega_answer hF hB x hw
    rw [hq] at h5
    simp only [Except.ok.injEq, Prod.mk.injEq] at h5
    obtain ⟨rfl, rfl⟩ := h5
    refine ⟨h6, fun c hc => ?_⟩
    obtain ⟨ep, h8, h9, -, h10⟩ := h7 c hc
    obtain ⟨g, b⟩ := c
    dsimp only at h8 h10
    subst h8
    refine ⟨h9, fun p ⟨lam, h0, ht, hl⟩ => ?_⟩
    have := h10 p lam h0 hl
    refine ⟨?_, ?_⟩
    · change g ⬝ᵥ (p - x) + ep ≤ 0; linarith
    · change o.tol ≤ (g ⬝ᵥ (p - x)) ^ 2; nlinarith

/-- `F_0 = I`, `F_1` the exchange matrix, `B = -I`: feasible iff `-1 - z_0 > |z_1|`. -/
def exLmiF : Fin 2 → ℕ → ℕ → ℝ := fun q i j => if q = 0 then (if i = j then 1 else 0) else (if i = j then 0 else 1)
def exLmiB : ℕ → ℕ → ℝ := fun i j => if i = j then -1 else 0

/-- C73 applies to it: `ell(16, 0)`, default options, fresh oracle; at most `12·ln 8 + 1 < 26` iterations. -/
example : ∃ Q E info, cuttingPlaneFeas (fun x => liftOracle (lmiOmega exLmiF exLmiB 2 x)) (Ell.space (CholExt ℝ) 2)
      ⟨2000, 1 / 10 ^ 8⟩ (CholExt.init 2, ⟨true, false, 0, 1, 4 ^ 2⟩) = .ok ((Q, E), info) ∧ info.feasible = true ∧
      info.status = .success ∧ (info.numIters : ℝ) ≤ 2 * (2 : ℕ) * (((2 : ℕ) : ℝ) + 1) * Real.log (4 / (1 / 2)) + 1 ∧
      PDon (pencil exLmiF exLmiB E.xc) 0 2 := by
  refine C73_lmi_feas_converges (a := ![-3, 0]) (x₀ := 0) (r := 1 / 2) (lam := 1) le_rfl ?_ ?_ (by norm_num) ?_ ?_
    one_pos ?_ (by norm_num) ?_ (ready_init 2)
  · intro q i j _ _; simp only [exLmiF, eq_comm]
  · intro i j _ _; simp only [exLmiB, eq_comm]
  · unfold Ell.init c1? pyDiv; norm_num
  · intro x hx
    simp only [euclBall, Set.mem_ofPred_eq, Fin.sum_univ_two, cons_val_zero, cons_val_one,
      Pi.zero_apply] at hx ⊢
    nlinarith [sq_nonneg (x 0 + 3), sq_nonneg (x 1), sq_nonneg (x 0 - 3)]
  · intro z hz y
    simp only [euclBall, Set.mem_ofPred_eq, Fin.sum_univ_two, cons_val_zero, cons_val_one] at hz
    have h0 : z 0 ≤ -5 / 2 := by nlinarith [sq_nonneg (z 1)]
    have h1 : z 1 ≤ 1 / 2 := by nlinarith [sq_nonneg (z 0 - -3)]
    have h2 : -1 / 2 ≤ z 1 := by nlinarith [sq_nonneg (z 0 - -3)]
    have e : quadOn (pencil exLmiF exLmiB z) 0 2 y =
        (-1 - z 0) * (y 0 ^ 2 + y 1 ^ 2) - 2 * z 1 * (y 0 * y 1) := by
      simp [quadOn, pencil, exLmiF, exLmiB, Finset.sum_range_succ]; ring
    rw [e]
    simp only [Finset.sum_range_succ, Finset.sum_range_zero]
    nlinarith [sq_nonneg (y 0 - y 1), sq_nonneg (y 0 + y 1), sq_nonneg (y 0), sq_nonneg (y 1),
      mul_nonneg (by linarith : (0 : ℝ) ≤ 1 / 2 - z 1) (sq_nonneg (y 0 + y 1)),
      mul_nonneg (by linarith : (0 : ℝ) ≤ z 1 + 1 / 2) (sq_nonneg (y 0 - y 1)),
      mul_nonneg (by linarith : (0 : ℝ) ≤ -5 / 2 - z 0) (add_nonneg (sq_nonneg (y 0)) (sq_nonneg (y 1)))]
  · have : Real.log (4 / (1 / 2)) ≤ 4 / (1 / 2) - 1 := Real.log_le_sub_one_of_pos (by norm_num)
    norm_num at this ⊢
    linarith

/-! ### Profit maximisation -/

/-- `profit_oracle` as the `Omega` of `cutting_plane_dc`. -/
noncomputable def profitOmega (P : Profit) (y : Fin 2 → ℝ) (t : ℝ) (w : Unit) :
    Except PyErr (Unit × ((Fin 2 → ℝ) × Beta) × Option ℝ) :=
  (P.call y t).map fun r => (w, scalarCut r.1, r.2)

/-- Revenue `p A x1^α x2^β` and cost `v1 x1 + v2 x2`. -/
noncomputable def revenue (p A : ℝ) (a x : Fin 2 → ℝ) : ℝ := p * (A * x 0 ^ a 0 * x 1 ^ a 1)
def cost (v x : Fin 2 → ℝ) : ℝ := v 0 * x 0 + v 1 * x 1

section profit
variable {p A k : ℝ} {a v : Fin 2 → ℝ}

theorem profitOmega_answer (hpA : 0 < p * A) (hk : 0 < k) (hv : ∀ i, 0 < v i) (y : Fin 2 → ℝ) {t : ℝ} (ht : 0 ≤ t) (w : Unit) :
    ∃ c t1, profitOmega (Profit.init p A k a v) y t w = .ok ((), c, t1) ∧ 0 ≤ t1.getD t ∧ t ≤ t1.getD t ∧
      (∀ s, t1 = some s → s = profit p A a v (qty y) ∧ qty y 0 ≤ k) ∧ deepBeta c.2 ∧
      ∀ z δ, 0 ≤ δ → qty z 0 * Real.exp δ ≤ k → (t1.getD t + cost v (qty z)) * Real.exp δ ≤ revenue p A a (qty z) →
        z ∈ cutSet y c ∧ c.1 ⬝ᵥ (z - y) ≤ -δ := by
  obtain ⟨⟨g, b⟩, t1, h1, h2, h3, -, -, h6⟩ := profit_call (k := k) (a := a) hpA hv y ht
  have hle : t ≤ t1.getD t := by
    cases t1 with
    | none => exact le_rfl
    | some s => have := (h2 s).1 rfl; simp only [Option.getD_some]; linarith [this.1, this.2.2]
  refine ⟨scalarCut (g, b), t1, by simp [profitOmega, h1, Except.map], ht.trans hle, hle, fun s hs => ?_, h3,
    fun z δ h0 hz1 hz2 => ?_⟩
  · obtain ⟨r1, r2, -⟩ := (h2 s).1 hs
    exact ⟨r1, by rw [Real.le_log_iff_exp_le hk] at r2; exact r2⟩
  · have hz3 : z 0 + δ ≤ Real.log k := by
      rw [Real.le_log_iff_exp_le hk, Real.exp_add]; exact hz1
    have := h6 z δ hz3 hz2
    dsimp only at this h3
    refine ⟨?_, ?_⟩
    · change g ⬝ᵥ (z - y) + b ≤ 0; linarith
    · change g ⬝ᵥ (z - y) ≤ -δ; linarith

/-- **C74** (verdict).  `cutting_plane_dc(profit_oracle(...), ell, t0)` with `t0 ≥ 0`: the returned value is the initial
one or the profit at the returned point, which respects the limit; and if the run stopped by itself (any status but
`success`, notably `smallenough`), then in the initial ellipsoid no quantities within the limit by a factor
`e^δ` have a revenue exceeding `t +` cost by a factor `e^δ`, where `δ = √tol`. -/
theorem C74_profit_verdict (hpA : 0 < p * A) (hk : 0 < k) (hv : ∀ i, 0 < v i) {E₀ E : Ell 2} (hE : E₀.WF)
    {o : Options ℝ} {t0 t : ℝ} (ht0 : 0 ≤ t0) {xb : Option (Fin 2 → ℝ)} {info : CInfo} {w : Unit}
    (h : cuttingPlaneDc (fun y t => liftOracle (profitOmega (Profit.init p A k a v) y t)) (Ell.space Unit 2) t0 o
      ((), E₀) = .ok ((w, E), xb, t, info)) :
    ((xb = none ∧ t = t0) ∨ ∃ y, xb = some y ∧ t = profit p A a v (qty y) ∧ qty y 0 ≤ k) ∧
    (info.status ≠ .success → ∀ z ∈ E₀.pts, ∀ δ, 0 ≤ δ → o.tol ≤ δ ^ 2 → qty z 0 * Real.exp δ ≤ k →
      revenue p A a (qty z) < (t + cost v (qty z)) * Real.exp δ) := by
  have key := C71_dc_ell_verdict (Ω := profitOmega (Profit.init p A k a v)) (fun _ t => 0 ≤ t)
    (fun t => {z | ∃ δ, 0 ≤ δ ∧ o.tol ≤ δ ^ 2 ∧ qty z 0 * Real.exp δ ≤ k ∧
      (t + cost v (qty z)) * Real.exp δ ≤ revenue p A a (qty z)}) hE (o := o) ?_ ht0 h
  · obtain ⟨h1, -, -, h4⟩ := key
    refine ⟨?_, fun hs z hz δ h0 hd hk' => ?_⟩
    · rcases h4 with h4 | ⟨x, s, u, u', c, hx, hs, hq⟩
      · exact .inl h4
      · obtain ⟨c', t1, e1, -, -, e4, -⟩ := profitOmega_answer (k := k) (a := a) hpA hk hv x hs u
        rw [hq] at e1
        simp only [Except.ok.injEq, Prod.mk.injEq] at e1
        exact .inr ⟨x, hx, e4 t e1.2.2.symm⟩
    · by_contra hcon
      exact h1 hs z ⟨δ, h0, hd, hk', not_lt.1 hcon⟩ hz
  · intro x t w w' c t1 ht hq
    obtain ⟨c', t1', e1, e2, e3, -, e5, e6⟩ := profitOmega_answer (k := k) (a := a) hpA hk hv x ht w
    rw [hq] at e1
    simp only [Except.ok.injEq, Prod.mk.injEq] at e1
    obtain ⟨-, rfl, rfl⟩ := e1
    refine ⟨e2, ?_, e5, ?_⟩
    · rintro z ⟨δ, h0, hd, h1, h2⟩
      refine ⟨δ, h0, hd, h1, le_trans ?_ h2⟩
      exact mul_le_mul_of_nonneg_right (by linarith) (Real.exp_pos δ).le
    · rintro z ⟨δ, h0, hd, h1, h2⟩
      obtain ⟨h3, h4⟩ := e6 z δ h0 h1 h2
      exact ⟨h3, by nlinarith⟩

/-- **C74** (convergence).  If in some disc of radius `r` (logarithms of the quantities) inside the initial disc all
points respect the limit by a factor `e^δ` and earn `revenue·e^(-δ) - cost ≥ τ`, `tol ≤ δ²`, `δ > 0`, then a run of
`cutting_plane_dc` with `max_it > 12·ln(R/r)` returns a value larger than `τ`; indeed such a value
is reported within the first `12·ln(R/r) + 1` oracle calls. -/
theorem C74_profit_converges (hpA : 0 < p * A) (hk : 0 < k) (hv : ∀ i, 0 < v i) {E₀ : Ell 2} {x₀ c : Fin 2 → ℝ}
    {R r δ τ : ℝ} (hr : 0 < r) (hinit : Ell.init (.scalar (R ^ 2)) x₀ = .ok E₀) (hball : euclBall c r ⊆ euclBall x₀ R)
    (hδ : 0 < δ) (hlim : ∀ z ∈ euclBall c r, qty z 0 * Real.exp δ ≤ k)
    (hprof : ∀ z ∈ euclBall c r, τ ≤ revenue p A a (qty z) * Real.exp (-δ) - cost v (qty z))
    {o : Options ℝ} (htol : o.tol ≤ δ ^ 2) (hmax : 12 * Real.log (R / r) < o.maxIt) {t0 : ℝ} (ht0 : 0 ≤ t0) :
    (∀ w E xb t info, cuttingPlaneDc (fun y t => liftOracle (profitOmega (Profit.init p A k a v) y t))
      (Ell.space Unit 2) t0 o ((), E₀) = .ok ((w, E), xb, t, info) → τ < t) ∧
    ∃ (j : ℕ) (l : _) (u : _) (u' : _) (cut : _) (t1 : _), (j : ℝ) ≤ 12 * Real.log (R / r) ∧
      DcRounds (fun y t => liftOracle (profitOmega (Profit.init p A k a v) y t)) (Ell.space Unit 2) o.tol t0 ((), E₀) j l u ∧
      profitOmega (Profit.init p A k a v) u.2.xc (bestT t0 l) u.1 = .ok (u', cut, t1) ∧ τ < t1.getD (bestT t0 l) := by
  obtain ⟨hwf, hpts, hB⟩ := init_bound (r := r) le_rfl hinit
  have h12 : 2 * ((2 : ℕ) : ℝ) * (((2 : ℕ) : ℝ) + 1) * Real.log (R / r) = 12 * Real.log (R / r) := by push_cast; ring
  rw [h12] at hB
  have hc : c ∈ euclBall c r := by
    change ∑ i, (c i - c i) ^ 2 ≤ r ^ 2; simp; positivity
  have key := C72_dc_ell_converges (Ω := profitOmega (Profit.init p A k a v)) (fun _ t => 0 ≤ t) (fun t => t ≤ τ) hwf hr
    (by rw [hpts]; exact hball) (o := o) (fun x t w ht => by
      obtain ⟨c', t1, e1, e2, e3, -, e5, e6⟩ := profitOmega_answer (k := k) (a := a) hpA hk hv x ht w
      refine ⟨(), c', t1, e1, e2, fun h => e3.trans h, fun h => ?_⟩
      have hz : ∀ z ∈ euclBall c r, z ∈ cutSet x c' ∧ c'.1 ⬝ᵥ (z - x) ≤ -δ := by
        intro z hz
        refine e6 z δ hδ.le (hlim z hz) ?_
        have h1 := hprof z hz
        have h2 : t1.getD t + cost v (qty z) ≤ revenue p A a (qty z) * Real.exp (-δ) := by linarith
        have h3 := mul_le_mul_of_nonneg_right h2 (Real.exp_pos δ).le
        rwa [mul_assoc, ← Real.exp_add, neg_add_cancel, Real.exp_zero, mul_one] at h3
      refine ⟨fun z h => (hz z h).1, e5, ?_, c, hc, ?_⟩
      · intro h0
        have := (hz c hc).2
        rw [h0, zero_dotProduct] at this
        linarith
      · have := (hz c hc).2
        nlinarith) (by rw [hB]; exact hmax) (w₀ := ()) (t0 := t0) ht0
  obtain ⟨h1, j, l, u, u', cut, t1, h2, h3, h4, h5⟩ := key
  rw [hB] at h2
  exact ⟨fun w E xb t info h => not_le.1 (h1 w E xb t info h), j, l, u, u', cut, t1, h2, h3, h4, not_le.1 h5⟩

/-- C74 applies: `p A = 100`, `α = (1/2, 1/4)`, `v = (1, 1)`, `k = 3`, `ell(16, 0)`, default options, `t0 = 0`: every
run that returns has found a profit larger than 11. -/
example (w : Unit) (E : Ell 2) (xb : Option (Fin 2 → ℝ)) (t : ℝ) (info : CInfo)
    (h : cuttingPlaneDc (fun y t => liftOracle (profitOmega (Profit.init 100 1 3 ![1 / 2, 1 / 4] ![1, 1]) y t))
      (Ell.space Unit 2) 0 ⟨2000, 1 / 10 ^ 8⟩ ((), ⟨true, false, 0, 1, 4 ^ 2⟩) = .ok ((w, E), xb, t, info)) : 11 < t := by
  have he2 : Real.exp 2 < 7.4 := by
    have h1 := Real.exp_one_lt_d9
    have h0 := Real.exp_pos 1
    have : Real.exp 2 = Real.exp 1 * Real.exp 1 := by rw [← Real.exp_add]; norm_num
    rw [this]; nlinarith
  have hbd : ∀ z ∈ euclBall (n := 2) ![-1, -1] 1, -2 ≤ z 0 ∧ z 0 ≤ 0 ∧ -2 ≤ z 1 ∧ z 1 ≤ 0 := by
    intro z hz
    simp only [euclBall, Set.mem_ofPred_eq, Fin.sum_univ_two, cons_val_zero, cons_val_one] at hz
    refine ⟨?_, ?_, ?_, ?_⟩ <;> nlinarith [sq_nonneg (z 0 - -1), sq_nonneg (z 1 - -1)]
  refine (C74_profit_converges (c := ![-1, -1]) (x₀ := 0) (R := 4) (r := 1) (δ := 1 / 10) (τ := 11) (by norm_num)
    (by norm_num) ?_ one_pos ?_ ?_ (by norm_num) ?_ ?_ (by norm_num) ?_ le_rfl).1 w E xb t info h
  · intro i; fin_cases i <;> norm_num
  · unfold Ell.init c1? pyDiv; norm_num
  · intro z hz
    obtain ⟨h1, h2, h3, h4⟩ := hbd z hz
    simp only [euclBall, Set.mem_ofPred_eq, Fin.sum_univ_two, Pi.zero_apply]
    nlinarith
  · intro z hz
    obtain ⟨h1, h2, h3, h4⟩ := hbd z hz
    rw [qty, ← Real.exp_add]
    refine le_trans (Real.exp_le_exp.2 (by linarith : z 0 + 1 / 10 ≤ 1)) ?_
    linarith [Real.exp_one_lt_d9]
  · intro z hz
    obtain ⟨h1, h2, h3, h4⟩ := hbd z hz
    have hc0 : Real.exp (z 0) ≤ 1 := by rw [Real.exp_le_one_iff]; exact h2
    have hc1 : Real.exp (z 1) ≤ 1 := by rw [Real.exp_le_one_iff]; exact h4
    have hr : 13 ≤ revenue 100 1 ![1 / 2, 1 / 4] (qty z) * Real.exp (-(1 / 10)) := by
      have := cobb_eq (p := 100) (A := 1) (by norm_num) ![1 / 2, 1 / 4] z
      rw [revenue, ← this, ← Real.exp_add]
      have h5 : Real.log 100 - 2 ≤ Real.log (100 * 1) + ![1 / 2, 1 / 4] ⬝ᵥ z + -(1 / 10) := by
        simp only [dotProduct, Fin.sum_univ_two, cons_val_zero, cons_val_one, mul_one]
        linarith
      refine le_trans ?_ (Real.exp_le_exp.2 h5)
      rw [Real.exp_sub, Real.exp_log (by norm_num), le_div_iff₀ (Real.exp_pos _)]
      linarith
    simp only [cost, qty, cons_val_zero, cons_val_one, one_mul] at hr ⊢
    linarith
  · have : Real.log (4 / 1) ≤ 4 / 1 - 1 := Real.log_le_sub_one_of_pos (by norm_num)
    norm_num at this ⊢
    linarith

end profit

/-! ### Least-squares (spectral norm) covariance fitting -/

section lsq
variable {k : ℕ} {F : Fin k → ℕ → ℕ → ℝ} {F0 : ℕ → ℕ → ℝ}

/-- `lsq_oracle` as the `Omega` of `cutting_plane_dc`; the vector has `k + 1` entries. -/
noncomputable def lsqOmega (F : Fin k → ℕ → ℕ → ℝ) (F0 : ℕ → ℕ → ℝ) (m : ℕ) (x : Fin (k + 1) → ℝ) (t : WithTop ℝ)
    (o : LsqOracle ℝ) : Except PyErr (LsqOracle ℝ × ((Fin (k + 1) → ℝ) × Beta) × Option (WithTop ℝ)) :=
  (lsqCall F F0 m x t o).map fun r => (r.1, scalarCut r.2.1, r.2.2)

/-- `z = (y, s)` satisfies `Σ y_q F_q ⪰ lam·I` and `s·I - (F0 - Σ y_q F_q)'(F0 - Σ y_q F_q) ⪰ lam·I`. -/
def LsqSlack (F : Fin k → ℕ → ℕ → ℝ) (F0 : ℕ → ℕ → ℝ) (m : ℕ) (lam : ℝ) (z : Fin (k + 1) → ℝ) : Prop :=
  AtLeast lam (combo F (Fin.init z)) m ∧ AtLeast lam (tiMinusGram m (z (Fin.last k)) (pencil F F0 (Fin.init z))) m

theorem lsqOmega_answer (hF : ∀ q, SymOn (F q) m) (x : Fin (k + 1) → ℝ) (t : WithTop ℝ) {o : LsqOracle ℝ}
    (ho : Ready m o.lmi0 ∧ Ready m o.qmi.Q) :
    ∃ o' c t1, lsqOmega F F0 m x t o = .ok (o', c, t1) ∧ (Ready m o'.lmi0 ∧ Ready m o'.qmi.Q) ∧ t1.getD t ≤ t ∧
      (∀ s, t1 = some s → s = ((x (Fin.last k) : ℝ) : WithTop ℝ) ∧ PDon (combo F (Fin.init x)) 0 m ∧
        PDon (tiMinusGram m (x (Fin.last k)) (pencil F F0 (Fin.init x))) 0 m) ∧ deepBeta c.2 ∧
      ∀ z lam, 0 ≤ lam → LsqSlack F F0 m lam z → ((z (Fin.last k) + lam : ℝ) : WithTop ℝ) ≤ t1.getD t →
        z ∈ cutSet x c ∧ c.1 ⬝ᵥ (z - x) ≤ -lam := by
  obtain ⟨o', g, b, t1, h1, h2, h3, h4, h5, h6, -, h8⟩ := C39_lsq F F0 m hF x t ho.1 ho.2
  refine ⟨o', scalarCut (g, b), t1, by simp [lsqOmega, h1, Except.map], ⟨h2, h3⟩, ?_, fun s hs => ?_, h4,
    fun z lam hl hz1 hz2 => ?_⟩
  · rcases h5 with rfl | rfl
    · exact (h6.1 (by simp)).2.2
    · exact le_rfl
  · obtain ⟨p1, p2, -⟩ := h6.1 (by simp [hs])
    rcases h5 with h5 | h5
    · rw [hs, Option.some.injEq] at h5
      exact ⟨h5, p1, p2⟩
    · rw [hs] at h5; simp at h5
  · have := h8 z lam hl hz1.1 hz1.2 hz2
    have e : ∑ q, g q * (z q - x q) = g ⬝ᵥ (z - x) := rfl
    rw [e] at this
    refine ⟨?_, ?_⟩
    · change g ⬝ᵥ (z - x) + b ≤ 0; linarith
    · change g ⬝ᵥ (z - x) ≤ -lam; linarith

/-- **C75** (verdict).  `cutting_plane_dc(lsq_oracle(F, F0), ell, t0)`, `t0` possibly `inf`, symmetric `F_q`, the oracle in any earlier state: the
returned pair is the initial one, or the value is the last entry `s` of the returned point, which is strictly feasible
(`Σ y_q F_q` positive definite, `s` above the squared spectral norm of `F0 - Σ y_q F_q`).  If the run stopped by itself
(any status but `success`), no point of the initial ellipsoid has slack `√tol` in both constraints and a value below
`t - √tol`. -/
theorem C75_lsq_verdict (hF : ∀ q, SymOn (F q) m) {E₀ E : Ell (k + 1)} (hE : E₀.WF)
    {o : Options ℝ} {t0 t : WithTop ℝ} {xb : Option (Fin (k + 1) → ℝ)} {info : CInfo} {w₀ w : LsqOracle ℝ}
    (hw : Ready m w₀.lmi0 ∧ Ready m w₀.qmi.Q)
    (h : cuttingPlaneDc (fun x t => liftOracle (lsqOmega F F0 m x t)) (Ell.space (LsqOracle ℝ) (k + 1)) t0 o
      (w₀, E₀) = .ok ((w, E), xb, t, info)) :
    ((xb = none ∧ t = t0) ∨ ∃ x, xb = some x ∧ t = ((x (Fin.last k) : ℝ) : WithTop ℝ) ∧ PDon (combo F (Fin.init x)) 0 m ∧
      PDon (tiMinusGram m (x (Fin.last k)) (pencil F F0 (Fin.init x))) 0 m) ∧
    (info.status ≠ .success → ∀ z ∈ E₀.pts, ∀ lam, 0 ≤ lam → o.tol ≤ lam ^ 2 → LsqSlack F F0 m lam z →
      t < ((z (Fin.last k) + lam : ℝ) : WithTop ℝ)) := by
  have key := C71_dc_ell_verdict (Ω := lsqOmega F F0 m) (fun o _ => Ready m o.lmi0 ∧ Ready m o.qmi.Q)
    (fun t => {z | ∃ lam, 0 ≤ lam ∧ o.tol ≤ lam ^ 2 ∧ LsqSlack F F0 m lam z ∧ ((z (Fin.last k) + lam : ℝ) : WithTop ℝ) ≤ t})
    hE (o := o) ?_ hw h
  · obtain ⟨h1, -, -, h4⟩ := key
    refine ⟨?_, fun hs z hz lam h0 hd hk' => ?_⟩
    · rcases h4 with h4 | ⟨x, s, u, u', c, hx, hs, hq⟩
      · exact .inl h4
      · obtain ⟨o', c', t1, e1, -, -, e4, -⟩ := lsqOmega_answer (F0 := F0) hF x s hs
        rw [hq] at e1
        simp only [Except.ok.injEq, Prod.mk.injEq] at e1
        exact .inr ⟨x, hx, e4 t e1.2.2.symm⟩
    · by_contra hcon
      exact h1 hs z ⟨lam, h0, hd, hk', not_lt.1 hcon⟩ hz
  · intro x t w w' c t1 ht hq
    obtain ⟨o', c', t1', e1, e2, e3, -, e5, e6⟩ := lsqOmega_answer (F0 := F0) hF x t ht
    rw [hq] at e1
    simp only [Except.ok.injEq, Prod.mk.injEq] at e1
    obtain ⟨rfl, rfl, rfl⟩ := e1
    refine ⟨e2, ?_, e5, ?_⟩
    · rintro z ⟨lam, h0, hd, h1, h2⟩
      exact ⟨lam, h0, hd, h1, h2.trans e3⟩
    · rintro z ⟨lam, h0, hd, h1, h2⟩
      obtain ⟨h3, h4⟩ := e6 z lam h0 h1 h2
      exact ⟨h3, by nlinarith⟩

/-- **C75** (convergence).  If a ball of radius `r` inside the initial ball consists of points with slack `lam > 0` in
both constraints and value at most `τ - lam`, and `tol ≤ lam²`, then a run with
`max_it > 2n(n+1)·ln(R/r)`, `n = k + 1`, returns a value below `τ`; such a value is reported within
the first `2n(n+1)·ln(R/r) + 1` oracle calls. -/
theorem C75_lsq_converges (hk : 1 ≤ k) (hF : ∀ q, SymOn (F q) m) {E₀ : Ell (k + 1)} {x₀ c : Fin (k + 1) → ℝ}
    {R r lam τ : ℝ} (hr : 0 < r) (hinit : Ell.init (.scalar (R ^ 2)) x₀ = .ok E₀) (hball : euclBall c r ⊆ euclBall x₀ R)
    (hlam : 0 < lam) (hslack : ∀ z ∈ euclBall c r, LsqSlack F F0 m lam z ∧ z (Fin.last k) + lam ≤ τ)
    {o : Options ℝ} (htol : o.tol ≤ lam ^ 2)
    (hmax : 2 * ((k + 1 : ℕ) : ℝ) * (((k + 1 : ℕ) : ℝ) + 1) * Real.log (R / r) < o.maxIt) {w₀ : LsqOracle ℝ}
    (hw : Ready m w₀.lmi0 ∧ Ready m w₀.qmi.Q) (t0 : WithTop ℝ) :
    (∀ w E xb t info, cuttingPlaneDc (fun x t => liftOracle (lsqOmega F F0 m x t))
      (Ell.space (LsqOracle ℝ) (k + 1)) t0 o (w₀, E₀) = .ok ((w, E), xb, t, info) → t < ((τ : ℝ) : WithTop ℝ)) ∧
    ∃ (j : ℕ) (l : _) (u : _) (u' : _) (cut : _) (t1 : _),
      (j : ℝ) ≤ 2 * ((k + 1 : ℕ) : ℝ) * (((k + 1 : ℕ) : ℝ) + 1) * Real.log (R / r) ∧
      DcRounds (fun x t => liftOracle (lsqOmega F F0 m x t)) (Ell.space (LsqOracle ℝ) (k + 1)) o.tol t0 (w₀, E₀) j l u ∧
      lsqOmega F F0 m u.2.xc (bestT t0 l) u.1 = .ok (u', cut, t1) ∧ t1.getD (bestT t0 l) < ((τ : ℝ) : WithTop ℝ) := by
  obtain ⟨hwf, hpts, hB⟩ := init_bound (r := r) (by omega) hinit
  have hc : c ∈ euclBall c r := by
    change ∑ i, (c i - c i) ^ 2 ≤ r ^ 2; simp; positivity
  have key := C72_dc_ell_converges (Ω := lsqOmega F F0 m) (fun o _ => Ready m o.lmi0 ∧ Ready m o.qmi.Q)
    (fun t => ((τ : ℝ) : WithTop ℝ) ≤ t) hwf hr
    (by rw [hpts]; exact hball) (o := o) (fun x t w ht => by
      obtain ⟨o', c', t1, e1, e2, e3, -, e5, e6⟩ := lsqOmega_answer (F0 := F0) hF x t ht
      refine ⟨o', c', t1, e1, e2, fun h => h.trans e3, fun h => ?_⟩
      have hz : ∀ z ∈ euclBall c r, z ∈ cutSet x c' ∧ c'.1 ⬝ᵥ (z - x) ≤ -lam :=
        fun z hz => e6 z lam hlam.le (hslack z hz).1 ((WithTop.coe_le_coe.2 (hslack z hz).2).trans h)
      refine ⟨fun z h => (hz z h).1, e5, ?_, c, hc, ?_⟩
      · intro h0
        have := (hz c hc).2
        rw [h0, zero_dotProduct] at this
        linarith
      · have := (hz c hc).2
        nlinarith) (by rw [hB]; exact hmax) (w₀ := w₀) (t0 := t0) hw
  obtain ⟨h1, j, l, u, u', cut, t1, h2, h3, h4, h5⟩ := key
  rw [hB] at h2
  exact ⟨fun w E xb t info h => not_le.1 (h1 w E xb t info h), j, l, u, u', cut, t1, h2, h3, h4, not_le.1 h5⟩

end lsq

/-- C75 applies: `k = 1`, `F_1 = [[1]]`, `F0 = [[2]]`: minimise `s` with `y ≥ 0`, `s ≥ (2 - y)²`; `ell(16, 0)`, default
options, `t0 = inf`.  Every run that returns has found a value below 2. -/
example (w : LsqOracle ℝ) (E : Ell 2) (xb : Option (Fin 2 → ℝ)) (t : WithTop ℝ) (info : CInfo)
    (h : cuttingPlaneDc (fun x t => liftOracle (lsqOmega (fun _ : Fin 1 => fun _ _ => 1) (fun _ _ => 2) 1 x t))
      (Ell.space (LsqOracle ℝ) 2) ⊤ ⟨2000, 1 / 10 ^ 8⟩
      (⟨⟨⟨0, 0, fun _ _ => 0⟩, CholExt.init 1⟩, CholExt.init 1⟩, ⟨true, false, 0, 1, 4 ^ 2⟩) =
        .ok ((w, E), xb, t, info)) : t < ((2 : ℝ) : WithTop ℝ) := by
  have hbd : ∀ z ∈ euclBall (n := 2) ![2, 1] (1 / 2), 3 / 2 ≤ z 0 ∧ z 0 ≤ 5 / 2 ∧ 1 / 2 ≤ z 1 ∧ z 1 ≤ 3 / 2 := by
    intro z hz
    simp only [euclBall, Set.mem_ofPred_eq, Fin.sum_univ_two, cons_val_zero, cons_val_one] at hz
    refine ⟨?_, ?_, ?_, ?_⟩ <;> nlinarith [sq_nonneg (z 0 - 2), sq_nonneg (z 1 - 1)]
  refine (C75_lsq_converges (c := ![2, 1]) (x₀ := 0) (R := 4) (r := 1 / 2) (lam := 1 / 4) (τ := 2) le_rfl
    (fun q i j _ _ => rfl) (by norm_num) ?_ ?_ (by norm_num) ?_ (by norm_num) ?_ ⟨ready_init 1, ready_init 1⟩ ⊤).1
    w E xb t info h
  · unfold Ell.init c1? pyDiv; norm_num
  · intro (z : Fin 2 → ℝ) hz
    obtain ⟨h1, h2, h3, h4⟩ := hbd z hz
    change ∑ i : Fin 2, (z i - 0) ^ 2 ≤ 4 ^ 2
    rw [Fin.sum_univ_two]
    nlinarith
  · intro (z : Fin 2 → ℝ) hz
    obtain ⟨h1, h2, h3, h4⟩ := hbd z hz
    have hq : (z 0 - 2) ^ 2 + (z 1 - 1) ^ 2 ≤ (1 / 2) ^ 2 := by
      have := hz
      change ∑ i : Fin 2, (z i - ![(2 : ℝ), 1] i) ^ 2 ≤ (1 / 2) ^ 2 at this
      simpa only [Fin.sum_univ_two, cons_val_zero, cons_val_one] using this
    refine ⟨⟨fun y => ?_, fun y => ?_⟩, ?_⟩
    · simp [quadOn, combo, Fin.init]
      nlinarith [sq_nonneg (y 0)]
    · simp [quadOn, tiMinusGram, pencil, Fin.init]
      have h5 : 1 / 4 ≤ z 1 - (2 - z 0) * (2 - z 0) := by nlinarith
      nlinarith [sq_nonneg (y 0)]
    · show z 1 + 1 / 4 ≤ 2
      linarith
  · have : Real.log (4 / (1 / 2)) ≤ 4 / (1 / 2) - 1 := Real.log_le_sub_one_of_pos (by norm_num)
    norm_num at this ⊢
    linarith

end Verif
