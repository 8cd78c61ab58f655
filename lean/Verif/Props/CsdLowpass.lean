import Verif.Model.CsdLowpass
import Verif.Props.CsdFixed
import Verif.Props.Lowpass
import Verif.Props.Spectral

/-! # C51: `csdlowpass_oracle` -/
namespace Verif
open Matrix CsdSpec
variable {n : ℕ}

theorem seqFin_ok {β : Type _} : ∀ {n : ℕ} (f : Fin n → Except PyErr β) (g : Fin n → β),
    (∀ i, f i = .ok (g i)) → seqFin f = .ok g
  | 0, f, g, _ => by
    simp only [seqFin]
    congr 1
    funext i
    exact i.elim0
  | n + 1, f, g, h => by
    simp only [seqFin, h 0]
    rw [seqFin_ok (fun i => f i.succ) (fun i => g i.succ) fun i => h i.succ]
    simp only
    congr 1
    exact Fin.cons_self_tail g

/-- A number that a signed-digit string with at most `nnz` nonzero digits can write, close to `h`. -/
def CsdApprox (nnz : ℕ) (h q : ℝ) : Prop :=
  ∃ s : List Char, Denotes s q ∧ weight s ≤ nnz ∧ (|h - q| ≤ |h| / 2 ^ nnz ∨ |h - q| ≤ 1 / 10 ^ 100)

theorem csdTap_spec (nnz : ℕ) (hnz : 1 ≤ nnz) (h : ℝ) : ∃ q, csdTap nnz h = .ok q ∧ CsdApprox nnz h q := by
  obtain ⟨t, ht⟩ := C63_csdfixed_terminates h (nnz : ℤ)
  have ht := ht _ le_rfl
  obtain ⟨hw, ⟨q, hd, hq, he⟩, -⟩ := C61_C62_csdfixed h nnz hnz _ t ht
  exact ⟨q, by simp only [csdTap, ht, hq], t, hd, hw, he⟩

/-- The inequality of a re-based cut. -/
theorem cutSet_shift (q r : Fin n → ℝ) (g : Fin n → ℝ) (b : Beta) (z : Fin n → ℝ) :
    z ∈ cutSet r (g, b.shift (g ⬝ᵥ (q - r))) ↔ z + (2 : ℝ) • (q - r) ∈ cutSet q (g, b) := by
  have e : ∀ c : ℝ, g ⬝ᵥ (z - r) + (c + g ⬝ᵥ (q - r)) = g ⬝ᵥ (z + (2 : ℝ) • (q - r) - q) + c := by
    intro c
    simp only [dotProduct_sub, dotProduct_add, dotProduct_smul, smul_eq_mul]
    ring
  cases b with
  | scalar b => simp only [cutSet, Beta.shift, Set.mem_ofPred_eq, e]
  | seq bs =>
    rcases bs with _ | ⟨b0, _ | ⟨b1, bs⟩⟩
    · simp only [cutSet, Beta.shift, List.map_nil, Set.mem_ofPred_eq]
    · simp only [cutSet, Beta.shift, List.map_cons, List.map_nil, Set.mem_ofPred_eq, e]
    · simp only [cutSet, Beta.shift, List.map_cons, Set.mem_ofPred_eq, e]

variable [NeZero n]

/-- Everything about the second half of a call. -/
theorem csdlowpass_answer (r : Fin n → ℝ) {S : ℝ} (hS : 0 ≤ S) (retry : Bool) {o : CsdLowpass n}
    {q : Fin n → ℝ} (hq : o.rcsd = some q) (hI : o.lowpass.Inv) (hLU : o.lowpass.Lpsq ≤ o.lowpass.Upsq)
    (hN : 0 < o.lowpass.As.N) :
    ∃ o' g b t1, o.answer r S retry = .ok (o', (g, Beta.shift b (g ⬝ᵥ (q - r))), q, t1, o'.lowpass.moreAlt && !retry) ∧
      o'.nnz = o.nnz ∧ o'.rcsd = some q ∧ o'.lowpass.Inv ∧ o.lowpass.SameData o'.lowpass ∧
      (∀ s, t1 = some s ↔ o.lowpass.Meets S q ∧ (∀ k, o.lowpass.As.row k ⬝ᵥ q ≤ s) ∧
        ∃ k, o.lowpass.As.row k ⬝ᵥ q = s) ∧
      (∀ z, o.lowpass.Meets (t1.getD S) z → z ∈ cutSet q (g, b)) := by
  obtain ⟨lp, ⟨g, b⟩, t1, h1, h2, h3, -, h4, h5, -⟩ := lowpass_call hI hLU hN q hS
  exact ⟨⟨o.nnz, lp, o.rcsd⟩, g, b, t1, by simp only [CsdLowpass.answer, hq, h1], rfl, hq, h2, h3, h4, h5⟩

/-- **C51** (evaluation point and value).  On a fresh query (`retry = False`) at a point `r` that violates the
specification, the answer is the cut of the wrapped oracle at `r`, no value, and the stored point is kept.  At
a point that meets it, the evaluation point is the autocorrelation of taps with at most `nnz` nonzero signed
digits each, close to the taps `spectral_fact(r)`; it is stored.  With `retry = True` the stored point is used and
kept.  A value is reported exactly when the evaluation point meets the specification, and is its largest
stopband response. -/
theorem C51_csdlowpass_point (sf : (Fin n → ℝ) → Fin n → ℝ) (r : Fin n → ℝ) {S : ℝ} (hS : 0 ≤ S) (retry : Bool)
    (o : CsdLowpass n) (nnz : ℕ) (hnz : 1 ≤ nnz) (hon : o.nnz = nnz) (hI : o.lowpass.Inv)
    (hLU : o.lowpass.Lpsq ≤ o.lowpass.Upsq) (hN : 0 < o.lowpass.As.N) (hr : retry = true → o.rcsd.isSome) :
    ∃ o' cut q t1 more, CsdLowpass.call sf r S retry o = .ok (o', cut, q, t1, more) ∧
      o'.nnz = o.nnz ∧ o'.lowpass.Inv ∧ o.lowpass.SameData o'.lowpass ∧
      (retry = true → o.rcsd = some q ∧ o'.rcsd = some q ∧ more = false) ∧
      (retry = false → ¬ o.lowpass.Meets S r → q = r ∧ t1 = none ∧ more = true ∧ o'.rcsd = o.rcsd ∧
        r ∉ cutSet r cut ∧ ∀ z, o.lowpass.Meets S z → z ∈ cutSet r cut) ∧
      (retry = false → o.lowpass.Meets S r → o'.rcsd = some q ∧
        ∃ taps : Fin n → ℝ, (∀ i, CsdApprox nnz (sf r i) (taps i)) ∧ q = inverseSpectralFact taps) ∧
      (∀ s, t1 = some s ↔ o.lowpass.Meets S q ∧ (∀ k, o.lowpass.As.row k ⬝ᵥ q ≤ s) ∧
        ∃ k, o.lowpass.As.row k ⬝ᵥ q = s) := by
  cases retry with
  | true =>
    obtain ⟨q, hq⟩ := Option.isSome_iff_exists.1 (hr rfl)
    obtain ⟨o', g, b, t1, h1, h2, h3, h4, h5, h6, -⟩ := csdlowpass_answer r hS true hq hI hLU hN
    refine ⟨o', _, q, t1, _, h1, h2, h4, h5, fun _ => ⟨hq, h3, by simp⟩, by simp, by simp, h6⟩
  | false =>
    obtain ⟨lp, cut, t0, h1, h2, h3, -, h4, h5, h6, -⟩ := lowpass_call hI hLU hN r hS
    obtain ⟨lp', cut', t0', h1', h4', -, h4''⟩ := C48_lowpass_value hI hLU hN r hS
    rw [h1] at h1'
    simp only [Except.ok.injEq, Prod.mk.injEq] at h1'
    obtain ⟨rfl, rfl, rfl⟩ := h1'
    cases t0 with
    | none =>
      have hnm : ¬ o.lowpass.Meets S r := fun h => by simpa using h4''.2 h
      refine ⟨⟨o.nnz, lp, o.rcsd⟩, cut, r, none, true, ?_, rfl, h2, h3, by simp,
        fun _ _ => ⟨rfl, rfl, rfl, rfl, h6 rfl, h5⟩, fun _ h => absurd h hnm, fun s => ⟨by simp, fun h => absurd h.1 hnm⟩⟩
      simp only [CsdLowpass.call, CsdLowpass.prepare, h1, Bool.false_eq_true, if_false]
    | some s0 =>
      have hm : o.lowpass.Meets S r := h4''.1 rfl
      choose taps htaps happ using csdTap_spec nnz hnz
      have hseq := seqFin_ok (fun i => csdTap o.nnz (sf r i)) (fun i => taps (sf r i))
        fun i => by rw [hon]; exact htaps _
      obtain ⟨d1, d2, d3, d4, d5⟩ := h3
      obtain ⟨o', g, b, t1, a1, a2, a3, a4, a5, a6, -⟩ := csdlowpass_answer r hS false
        (o := ⟨o.nnz, lp, some (inverseSpectralFact fun i => taps (sf r i))⟩) rfl h2 (by rw [d4, d5]; exact hLU)
        (by rw [d2]; exact hN)
      refine ⟨o', (g, b.shift (g ⬝ᵥ ((inverseSpectralFact fun i => taps (sf r i)) - r))), inverseSpectralFact fun i => taps (sf r i), t1,
        o'.lowpass.moreAlt && !false, ?_, a2, a4, ?_, by simp, fun _ h => absurd hm h,
        fun _ _ => ⟨a3, fun i => taps (sf r i), fun i => happ _, rfl⟩, ?_⟩
      · simp only [CsdLowpass.call, CsdLowpass.prepare, h1, Bool.false_eq_true, if_false, hseq]
        exact a1
      · obtain ⟨e1, e2, e3, e4, e5⟩ := a5
        exact ⟨e1.trans d1, e2.trans d2, e3.trans d3, e4.trans d4, e5.trans d5⟩
      · have hb : ∀ z, lp.Meets S z ↔ o.lowpass.Meets S z := by
          intro z; unfold Lowpass.Meets; rw [d1, d2, d3, d4, d5]
        intro s
        rw [a6 s, hb]
        simp only
        rw [d2]

/-- **C51** (what the returned cut says).  When an answer comes from the evaluation point `q`, the wrapped oracle
guarantees the cut `(g, b)` placed at `q` for every better point; the returned cut, placed at `r`, is that cut moved
by `2(r - q)`.  Hence it keeps every better point if `g'(q - r) = 0`. -/
theorem C51_csdlowpass_cut (sf : (Fin n → ℝ) → Fin n → ℝ) (r : Fin n → ℝ) {S : ℝ} (hS : 0 ≤ S) (retry : Bool)
    (o : CsdLowpass n) (nnz : ℕ) (hnz : 1 ≤ nnz) (hon : o.nnz = nnz) (hI : o.lowpass.Inv)
    (hLU : o.lowpass.Lpsq ≤ o.lowpass.Upsq) (hN : 0 < o.lowpass.As.N) (hr : retry = true → o.rcsd.isSome)
    (hfeas : retry = false → o.lowpass.Meets S r) :
    ∃ o' g β q t1 more b, CsdLowpass.call sf r S retry o = .ok (o', (g, β), q, t1, more) ∧
      (∀ z, o.lowpass.Meets (t1.getD S) z → z ∈ cutSet q (g, b)) ∧
      (∀ z, z ∈ cutSet r (g, β) ↔ z + (2 : ℝ) • (q - r) ∈ cutSet q (g, b)) ∧
      (g ⬝ᵥ (q - r) = 0 → ∀ z, o.lowpass.Meets (t1.getD S) z → z ∈ cutSet r (g, β)) := by
  have fin : ∀ (g : Fin n → ℝ) (b : Beta) (q : Fin n → ℝ) (t : ℝ),
      (∀ z, o.lowpass.Meets t z → z ∈ cutSet q (g, b)) → g ⬝ᵥ (q - r) = 0 →
      ∀ z, o.lowpass.Meets t z → z ∈ cutSet r (g, b.shift (g ⬝ᵥ (q - r))) := by
    intro g b q t h h0 z hz
    have e : ∀ c : ℝ, g ⬝ᵥ (z - q) + c = g ⬝ᵥ (z - r) + c := by
      intro c
      have : g ⬝ᵥ (z - q) = g ⬝ᵥ (z - r) - g ⬝ᵥ (q - r) := by simp only [dotProduct_sub]; ring
      rw [this, h0, sub_zero]
    have h := h z hz
    have hs : b.shift (g ⬝ᵥ (q - r)) = b := by
      rw [h0]
      cases b <;> simp [Beta.shift]
    rw [hs]
    cases b with
    | scalar b => simpa only [cutSet, Set.mem_ofPred_eq, e] using h
    | seq bs =>
      rcases bs with _ | ⟨b0, _ | ⟨b1, bs⟩⟩
      · trivial
      · simpa only [cutSet, Set.mem_ofPred_eq, e] using h
      · simpa only [cutSet, Set.mem_ofPred_eq, e] using h
  cases retry with
  | true =>
    obtain ⟨q, hq⟩ := Option.isSome_iff_exists.1 (hr rfl)
    obtain ⟨o', g, b, t1, h1, h2, h3, h4, h5, h6, h7⟩ := csdlowpass_answer r hS true hq hI hLU hN
    exact ⟨o', g, _, q, t1, _, b, h1, h7, cutSet_shift q r g b, fin g b q _ h7⟩
  | false =>
    obtain ⟨lp, cut, t0, h1, h2, h3, -, h4, h5, h6, -⟩ := lowpass_call hI hLU hN r hS
    obtain ⟨lp', cut', t0', h1', h4', -, h4''⟩ := C48_lowpass_value hI hLU hN r hS
    rw [h1] at h1'
    simp only [Except.ok.injEq, Prod.mk.injEq] at h1'
    obtain ⟨rfl, rfl, rfl⟩ := h1'
    obtain ⟨s0, rfl⟩ := Option.isSome_iff_exists.1 (h4''.2 (hfeas rfl))
    choose taps htaps happ using csdTap_spec nnz hnz
    have hseq := seqFin_ok (fun i => csdTap o.nnz (sf r i)) (fun i => taps (sf r i))
      fun i => by rw [hon]; exact htaps _
    obtain ⟨d1, d2, d3, d4, d5⟩ := h3
    have hb : ∀ S z, lp.Meets S z ↔ o.lowpass.Meets S z := by
      intro S z; unfold Lowpass.Meets; rw [d1, d2, d3, d4, d5]
    obtain ⟨o', g, b, t1, a1, a2, a3, a4, a5, a6, a7⟩ := csdlowpass_answer r hS false
      (o := ⟨o.nnz, lp, some (inverseSpectralFact fun i => taps (sf r i))⟩) rfl h2 (by rw [d4, d5]; exact hLU)
      (by rw [d2]; exact hN)
    have a7' : ∀ z, o.lowpass.Meets (t1.getD S) z → z ∈ cutSet (inverseSpectralFact fun i => taps (sf r i)) (g, b) :=
      fun z hz => a7 z ((hb _ z).2 hz)
    refine ⟨o', g, b.shift (g ⬝ᵥ ((inverseSpectralFact fun i => taps (sf r i)) - r)), inverseSpectralFact fun i => taps (sf r i), t1, o'.lowpass.moreAlt && !false, b, ?_, a7', cutSet_shift _ r g b, fin g b _ _ a7'⟩
    simp only [CsdLowpass.call, CsdLowpass.prepare, h1, Bool.false_eq_true, if_false, hseq]
    exact a1

/-! ### The defect on a concrete run -/

/-- One tap, one stopband row `z ≤ Spsq`. -/
noncomputable def exCsdLp : CsdLowpass 1 :=
  ⟨1, { Ap := ⟨0, fun i => i.elim0⟩, As := ⟨1, fun _ => ![1]⟩, Anr := ⟨0, fun i => i.elim0⟩, Lpsq := 0, Upsq := 1 }, none⟩

theorem exCsdLp_tap : csdTap 1 (5 / 8) = .ok (1 / 2) := by
  have hlen : csdLen |(5 / 8 : ℝ)| = 0 := csdLen_small (by norm_num [abs_of_pos])
  have habs : |(5 / 8 : ℝ)| = 5 / 8 := abs_of_pos (by norm_num)
  have hd : csdDigit (5 / 8 : ℝ) (1 / 2) = 1 := if_pos (by norm_num)
  have e : (2 : ℝ) ^ ((0 : ℤ) - 1) = 1 / 2 := by norm_num
  have h1 : fixedLoop 1 0 (5 / 8 : ℝ) (1 / 2) 1 ['0'] = some ['0', '.', '+'] := by
    have ht : (tiny : ℝ) < 5 / 8 := by have := tiny_lt_half (α := ℝ); linarith
    simp only [fixedLoop]
    rw [if_pos (.inr ⟨by norm_num, by rw [habs]; exact ht⟩), hd, if_neg (by norm_num)]
    simp [digitChar]
  have h2 : toCsdFixed (fixedRounds (5 / 8 : ℝ)) (5 / 8 : ℝ) 1 = some ['0', '.', '+'] := by
    unfold toCsdFixed
    rw [if_neg (by norm_num)]
    simp only [hlen, e]
    rw [if_pos (by norm_num [abs_of_pos])]
    exact fixedLoop_mono 1 _ (by unfold fixedRounds; omega) _ _ _ _ _ _ h1
  simp only [csdTap, h2]
  rw [show ['0', '.', '+'] = ['0'] ++ '.' :: ['+'] from rfl, toDecimal_point ['0'] ['+'] (by decide) (by decide)]
  simp [intVal, fracVal, digVal]

/-- **C51** (the defect).  With the exact spectral factor `sqrt r` of a one-tap filter, one nonzero digit,
`Spsq = 1/2` and `r = 25/64`, the point `q = 1/4` of value `1/4` is found, but the returned cut removes *every*
point that meets the specification at the new level, among them `q` itself. -/
theorem C51_csdlowpass_cut_wrong : ∃ o' cut,
    CsdLowpass.call (fun r _ => Real.sqrt (r 0)) ![25 / 64] (1 / 2) false exCsdLp =
      .ok (o', cut, ![1 / 4], some (1 / 4), false) ∧
    exCsdLp.lowpass.Meets (1 / 4) ![1 / 4] ∧
    ∀ z, exCsdLp.lowpass.Meets (1 / 4) z → z ∉ cutSet ![25 / 64] cut := by
  have hI : exCsdLp.lowpass.Inv := ⟨le_rfl, Nat.zero_le _, le_rfl⟩
  have hMeets : ∀ S z, exCsdLp.lowpass.Meets S z ↔ 0 ≤ z 0 ∧ z 0 ≤ S := by
    intro S z
    have hrow : ∀ k, exCsdLp.lowpass.As.row k ⬝ᵥ z = z 0 := by
      intro k; simp [exCsdLp, dotProduct]
    constructor
    · intro h; have := h.stop (0 : Fin 1); simpa [exCsdLp, dotProduct] using this
    · intro h
      refine ⟨fun k => k.elim0, fun k => ?_, fun k => k.elim0, h.1⟩
      have := hrow k
      unfold exCsdLp at this ⊢
      rw [this]; exact h
  have hsq : Real.sqrt (25 / 64) = 5 / 8 := by
    rw [show (25 / 64 : ℝ) = (5 / 8) ^ 2 by norm_num]; exact Real.sqrt_sq (by norm_num)
  have hseq : seqFin (fun i : Fin 1 => csdTap 1 (Real.sqrt ((![25 / 64] : Fin 1 → ℝ) 0))) = .ok ![1 / 2] := by
    apply seqFin_ok
    intro i
    rw [cons_val_zero, hsq, exCsdLp_tap]
    simp
  have hinv : inverseSpectralFact (![1 / 2] : Fin 1 → ℝ) = ![1 / 4] := by
    funext i
    fin_cases i
    simp [inverseSpectralFact, lagDot, List.ofFn_succ]
    norm_num
  -- the two inner calls, computed
  have hcall : ∀ v : ℝ, 0 ≤ v → v ≤ 1 / 2 → Lowpass.call ![v] (1 / 2) exCsdLp.lowpass =
      .ok ({ exCsdLp.lowpass with moreAlt := false }, (![1], .seq [0, v]), some v) := by
    intro v h0 h1
    have hdot : (![1] : Fin 1 → ℝ) ⬝ᵥ ![v] = v := by simp [dotProduct]
    simp only [Lowpass.call, exCsdLp, scanOrder, List.range'_zero, List.range_zero, List.append_nil, passScan,
      Lowpass.call2, List.range', stopScan, Band.get, zero_lt_one, dite_true, hdot, not_lt.2 h1, if_false, not_lt.2 h0,
      Lowpass.call3, nonnegScan, Lowpass.finish, Nat.sub_zero, WithBot.bot_lt_coe, if_true, cons_val_zero]
    rfl
  have h1 := hcall (25 / 64) (by norm_num) (by norm_num)
  have h2 : Lowpass.call ![1 / 4] (1 / 2) { exCsdLp.lowpass with moreAlt := false } =
      .ok ({ exCsdLp.lowpass with moreAlt := false }, (![1], .seq [0, 1 / 4]), some (1 / 4)) :=
    hcall (1 / 4) (by norm_num) (by norm_num)
  refine ⟨⟨1, { exCsdLp.lowpass with moreAlt := false }, some ![1 / 4]⟩,
    (![1], Beta.shift (.seq [0, 1 / 4]) ((![1] : Fin 1 → ℝ) ⬝ᵥ (![1 / 4] - ![25 / 64]))), ?_, (hMeets _ _).2 ?_, fun z hz hc => ?_⟩
  · have hn : exCsdLp.nnz = 1 := rfl
    simp only [CsdLowpass.call, CsdLowpass.prepare, h1, Bool.false_eq_true, if_false, hn, hseq, hinv, CsdLowpass.answer, h2,
      Bool.false_and]
  · norm_num
  · obtain ⟨hz0, hz1⟩ := (hMeets _ _).1 hz
    simp only [Beta.shift, List.map_cons, List.map_nil, cutSet, Set.mem_ofPred_eq, dotProduct, Fin.sum_univ_one,
      Pi.sub_apply, cons_val_zero] at hc
    linarith [hc.2]

/-- Non-vacuity: C51 applies to the same object. -/
example := C51_csdlowpass_point (fun r _ => Real.sqrt (r 0)) ![25 / 64] (S := 1 / 2) (by norm_num) false exCsdLp 1 le_rfl rfl
  ⟨le_rfl, Nat.zero_le _, le_rfl⟩ (by norm_num [exCsdLp]) (by norm_num [exCsdLp]) (by simp)

end Verif
