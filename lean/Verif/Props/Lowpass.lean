import Verif.Proofs.Lowpass
import Verif.Props.EllVolume

/-! # C48-C50: `lowpass_oracle` -/
namespace Verif
open Matrix
variable {n : ℕ} [NeZero n]

/-- The round-robin counters are within range. -/
structure Lowpass.Inv (o : Lowpass n) : Prop where
  ap : o.iAp ≤ o.Ap.N
  as : o.iAs ≤ o.As.N
  anr : o.iAnr ≤ o.Anr.N

/-- Same matrices and bounds. -/
def Lowpass.SameData (o o' : Lowpass n) : Prop :=
  o'.Ap = o.Ap ∧ o'.As = o.As ∧ o'.Anr = o.Anr ∧ o'.Lpsq = o.Lpsq ∧ o'.Upsq = o.Upsq

/-- `z` meets the specification of the object `o` at stopband level `S`. -/
def Lowpass.Meets (o : Lowpass n) (S : ℝ) (z : Fin n → ℝ) : Prop :=
  MeetsSpec o.Ap.row o.As.row o.Anr.row o.Lpsq o.Upsq S z

/-- How the counters move: at most one of them, to one past the first violated row of its scan. -/
inductive Lowpass.Moves (o : Lowpass n) (x : Fin n → ℝ) (S : ℝ) : ℕ → ℕ → ℕ → Prop
  | pass {k} : FirstBad (passOK o.Ap o.Lpsq o.Upsq x) (scanOrder o.iAp o.Ap.N) k →
      Moves o x S (k + 1) o.iAs o.iAnr
  | stop {k} : (∀ j, passOK o.Ap o.Lpsq o.Upsq x j) → FirstBad (passOK o.As 0 S x) (scanOrder o.iAs o.As.N) k →
      Moves o x S o.iAp (k + 1) o.iAnr
  | nonneg {k} : (∀ j, passOK o.Ap o.Lpsq o.Upsq x j) → (∀ j, passOK o.As 0 S x j) →
      FirstBad (nonnegOK o.Anr x) (scanOrder o.iAnr o.Anr.N) k → Moves o x S o.iAp o.iAs (k + 1)
  | none : (∀ j, passOK o.Ap o.Lpsq o.Upsq x j) → (∀ j, passOK o.As 0 S x j) → (∀ j, nonnegOK o.Anr x j) →
      Moves o x S o.iAp o.iAs o.iAnr

/-- Everything about one call. -/
theorem lowpass_call {o : Lowpass n} (hI : o.Inv) (hLU : o.Lpsq ≤ o.Upsq) (hN : 0 < o.As.N) (x : Fin n → ℝ) {S : ℝ} (hS : 0 ≤ S) :
    ∃ o' cut t1, Lowpass.call x S o = .ok (o', cut, t1) ∧ o'.Inv ∧ o.SameData o' ∧ o.Moves x S o'.iAp o'.iAs o'.iAnr ∧
      (∀ s, t1 = some s ↔ o.Meets S x ∧ (∀ k, o.As.row k ⬝ᵥ x ≤ s) ∧ ∃ k, o.As.row k ⬝ᵥ x = s) ∧
      (∀ z, o.Meets (t1.getD S) z → z ∈ cutSet x cut) ∧
      (t1 = none → x ∉ cutSet x cut) ∧
      (o'.moreAlt = false ↔ (∀ j, passOK o.Ap o.Lpsq o.Upsq x j) ∧ (∀ j, passOK o.As 0 S x j) ∧ ∀ j, nonnegOK o.Anr x j) ∧
      (t1 ≠ none → ∃ k, cut.1 = o.As.row k) ∧ Ell.deepBeta cut.2 ∧
      ∀ z δ, MeetsSpecBy o.Ap.row o.As.row o.Anr.row o.Lpsq o.Upsq (t1.getD S) δ z → cut.1 ⬝ᵥ (z - x) ≤ -δ := by
  have hpassall : ∀ (A : Band n) (L U : ℝ) (i : ℕ), i ≤ A.N → (∀ k ∈ scanOrder i A.N, passOK A L U x k) → ∀ j, passOK A L U x j :=
    fun A L U i hi h j hj => h j ((mem_scanOrder hi).2 hj) hj
  -- a cut whose set excludes `x`
  have hdeep : ∀ cut : LpCut n, (∃ b0 b1, cut.2 = .seq [b0, b1] ∧ 0 < b0 ∧ b0 ≤ b1) → x ∉ cutSet x cut := by
    rintro ⟨g, b⟩ ⟨b0, b1, rfl, h0, -⟩ hx
    simp only [cutSet, Set.mem_ofPred_eq, sub_self, dotProduct_zero] at hx
    linarith [hx.1]
  have hdb : ∀ cut : LpCut n, (∃ b0 b1, cut.2 = .seq [b0, b1] ∧ 0 < b0 ∧ b0 ≤ b1) → Ell.deepBeta cut.2 := by
    rintro ⟨g, b⟩ ⟨b0, b1, rfl, h0, -⟩
    exact h0.le
  obtain ⟨r, p1, p2, p3⟩ := passScan_spec o.Ap o.Lpsq o.Upsq hLU x (scanOrder o.iAp o.Ap.N)
    fun k hk => (mem_scanOrder hI.ap).1 hk
  cases r with
  | some kc =>
    obtain ⟨k, cut⟩ := kc
    obtain ⟨q1, q2, hk, q3, q4, q5⟩ := p3 k cut rfl
    refine ⟨⟨true, o.iAnr, o.iAs, k + 1, o.Ap, o.As, o.Anr, o.Lpsq, o.Upsq⟩, cut, none, ?_, ⟨hk, hI.as, hI.anr⟩,
      ⟨rfl, rfl, rfl, rfl, rfl⟩, .pass q1, fun s => ?_, fun z hz => (q4 z).2 (hz.pass _), fun _ => hdeep cut q2, ?_, by simp, hdb cut q2,
      fun z δ hz => q5 z δ (hz.pass _).1 (hz.pass _).2⟩
    · simp only [Lowpass.call, p1]
    · refine ⟨fun h => by simp at h, fun h => absurd (fun h' => h.1.pass ⟨k, h'⟩) q1.mem.2⟩
    · simp only [Bool.true_eq_false, false_iff]
      exact fun h => q1.mem.2 (h.1 k)
  | none =>
  have pall := hpassall _ _ _ _ hI.ap (p2 rfl)
  obtain ⟨r, s1, s2, s3⟩ := stopScan_spec o.As S hS x (scanOrder o.iAs o.As.N) [] ⊥ 0
    (fun k hk => (mem_scanOrder hI.as).1 hk) ⟨by simp, .inl rfl, fun _ => rfl⟩
  cases r with
  | inl kc =>
    obtain ⟨k, cut⟩ := kc
    obtain ⟨q1, q2, hk, q3, q4, q5⟩ := s3 k cut rfl
    refine ⟨⟨true, o.iAnr, k + 1, o.iAp, o.Ap, o.As, o.Anr, o.Lpsq, o.Upsq⟩, cut, none, ?_, ⟨hI.ap, hk, hI.anr⟩,
      ⟨rfl, rfl, rfl, rfl, rfl⟩, .stop pall q1, fun s => ?_, fun z hz => (q4 z).2 (hz.stop _), fun _ => hdeep cut q2, ?_, by simp, hdb cut q2,
      fun z δ hz => q5 z δ (hz.stop _).1 (hz.stop _).2⟩
    · simp only [Lowpass.call, p1, Lowpass.call2, s1]
    · refine ⟨fun h => by simp at h, fun h => absurd (fun h' => h.1.stop ⟨k, h'⟩) q1.mem.2⟩
    · simp only [Bool.true_eq_false, false_iff]
      exact fun h => q1.mem.2 (h.2.1 k)
  | inr fi =>
  obtain ⟨fmax, imax⟩ := fi
  obtain ⟨s4, s5⟩ := s2 fmax imax rfl
  have sall := hpassall _ _ _ _ hI.as s4
  obtain ⟨r, t1, t2, t3⟩ := nonnegScan_spec o.Anr x (scanOrder o.iAnr o.Anr.N)
    fun k hk => (mem_scanOrder hI.anr).1 hk
  cases r with
  | some kc =>
    obtain ⟨k, cut⟩ := kc
    obtain ⟨q1, ⟨b0, q2, q2'⟩, hk, q3, q4, q5⟩ := t3 k cut rfl
    refine ⟨⟨true, k + 1, o.iAs, o.iAp, o.Ap, o.As, o.Anr, o.Lpsq, o.Upsq⟩, cut, none, ?_, ⟨hI.ap, hI.as, hk⟩,
      ⟨rfl, rfl, rfl, rfl, rfl⟩, .nonneg pall sall q1, fun s => ?_, fun z hz => (q4 z).2 (hz.nonneg _), fun _ hx => ?_, ?_, by simp,
      by rw [q2]; exact q2'.le, fun z δ hz => q5 z δ (hz.nonneg _)⟩
    · simp only [Lowpass.call, p1, Lowpass.call2, s1, Lowpass.call3, t1]
    · refine ⟨fun h => by simp at h, fun h => absurd (fun h' => h.1.nonneg ⟨k, h'⟩) q1.mem.2⟩
    · exact q1.mem.2 fun _ => (q4 x).1 hx
    · simp only [Bool.true_eq_false, false_iff]
      exact fun h => q1.mem.2 (h.2.2 k)
  | none =>
  have nall : ∀ j, nonnegOK o.Anr x j := fun j hj => t2 rfl j ((mem_scanOrder hI.anr).2 hj) hj
  set o1 : Lowpass n := ⟨false, o.iAnr, o.iAs, o.iAp, o.Ap, o.As, o.Anr, o.Lpsq, o.Upsq⟩ with ho1
  have hcall : Lowpass.call x S o = Lowpass.finish o1 x fmax imax := by
    simp only [Lowpass.call, p1, Lowpass.call2, s1, Lowpass.call3, t1, Lowpass.finish, ho1]
  by_cases hx0 : x 0 < 0
  · refine ⟨o1, (fun i => if i = 0 then -1 else 0, .scalar (-x 0)), none, ?_, ⟨hI.ap, hI.as, hI.anr⟩,
      ⟨rfl, rfl, rfl, rfl, rfl⟩, .none pall sall nall, fun s => ?_, fun z hz => ?_, fun _ hx => ?_, ?_, by simp,
      (neg_pos.2 hx0).le, fun z δ hz => ?_⟩
    · rw [hcall]; exact if_pos hx0
    · exact ⟨fun h => by simp at h, fun h => absurd h.1.first (not_le.2 hx0)⟩
    · have := hz.first
      simp only [cutSet, Set.mem_ofPred_eq, dotProduct, ite_mul, zero_mul, Finset.sum_ite_eq', Finset.mem_univ, if_true,
        Pi.sub_apply]
      linarith
    · simp only [cutSet, Set.mem_ofPred_eq, sub_self, dotProduct_zero] at hx
      linarith
    · simp only [ho1, true_iff]; exact ⟨pall, sall, nall⟩
    · have := hz.first
      simp only [dotProduct, ite_mul, zero_mul, Finset.sum_ite_eq', Finset.mem_univ, if_true, Pi.sub_apply]
      linarith
  · rcases s5.att with hb | ⟨hi, hf⟩
    · have := s5.bot hb
      simp only [List.nil_append] at this
      have := (mem_scanOrder hI.as (k := 0)).2 hN
      simp_all
    · have hmeets : o.Meets S x := ⟨fun k => pall k k.2, fun k => sall k k.2, fun k => nall k k.2, not_lt.1 hx0⟩
      have hub : ∀ k, o.As.row k ⬝ᵥ x ≤ o.As.row ⟨imax, hi⟩ ⬝ᵥ x := by
        intro k
        have := s5.ub k (by simpa using (mem_scanOrder hI.as).2 k.2) k.2
        rw [hf, WithBot.coe_le_coe] at this
        exact this
      refine ⟨o1, (o.As.row ⟨imax, hi⟩, .seq [0, o.As.row ⟨imax, hi⟩ ⬝ᵥ x]), some (o.As.row ⟨imax, hi⟩ ⬝ᵥ x), ?_,
        ⟨hI.ap, hI.as, hI.anr⟩, ⟨rfl, rfl, rfl, rfl, rfl⟩, .none pall sall nall, fun s => ?_, fun z hz => ?_, by simp, ?_,
        fun _ => ⟨⟨imax, hi⟩, rfl⟩, le_rfl, fun z δ hz => ?_⟩
      · rw [hcall]
        have hg : o.As.get imax = .ok (o.As.row ⟨imax, hi⟩) := dif_pos hi
        refine (if_neg hx0).trans ?_
        subst hf
        simp only [ho1, hg]
      · rw [Option.some.injEq]
        constructor
        · rintro rfl
          exact ⟨hmeets, hub, _, rfl⟩
        · rintro ⟨-, h1, k, rfl⟩
          exact le_antisymm (h1 _) (hub k)
      · have := hz.stop ⟨imax, hi⟩
        simp only [Option.getD_some] at this
        simp only [cutSet, Set.mem_ofPred_eq, dotProduct_sub]
        constructor <;> linarith [this.1, this.2]
      · simp only [ho1, true_iff]; exact ⟨pall, sall, nall⟩
      · have := (hz.stop ⟨imax, hi⟩).2
        simp only [Option.getD_some] at this
        simp only [dotProduct_sub]
        linarith

/-- **C48**: whatever the counters are, `lowpass_oracle(x, Spsq)` reports a value exactly when `x` meets the whole
specification at level `Spsq`; the value is the largest stopband response, hence at most `Spsq` and at least 0. -/
theorem C48_lowpass_value {o : Lowpass n} (hI : o.Inv) (hLU : o.Lpsq ≤ o.Upsq) (hN : 0 < o.As.N) (x : Fin n → ℝ) {S : ℝ} (hS : 0 ≤ S) :
    ∃ o' cut t1, Lowpass.call x S o = .ok (o', cut, t1) ∧
      (∀ s, t1 = some s ↔ o.Meets S x ∧ (∀ k, o.As.row k ⬝ᵥ x ≤ s) ∧ ∃ k, o.As.row k ⬝ᵥ x = s) ∧
      (∀ s, t1 = some s → 0 ≤ s ∧ s ≤ S ∧ o.Meets s x) ∧ (t1.isSome ↔ o.Meets S x) := by
  obtain ⟨o', cut, t1, h1, -, -, -, h2, -⟩ := lowpass_call hI hLU hN x hS
  refine ⟨o', cut, t1, h1, h2, fun s h => ?_, ?_⟩
  · obtain ⟨a, b, k, rfl⟩ := (h2 s).1 h
    exact ⟨(a.stop k).1, (a.stop k).2, ⟨a.pass, fun j => ⟨(a.stop j).1, b j⟩, a.nonneg, a.first⟩⟩
  · refine ⟨fun h => ?_, fun h => ?_⟩
    · obtain ⟨s, hs⟩ := Option.isSome_iff_exists.1 h
      exact ((h2 s).1 hs).1
    · have : Nonempty (Fin o.As.N) := ⟨⟨0, hN⟩⟩
      obtain ⟨k, hk⟩ := Finite.exists_max fun k => o.As.row k ⬝ᵥ x
      rw [(h2 _).2 ⟨h, hk, k, rfl⟩]; rfl

/-- **C49**: every cut is satisfied, on both sides, by every `z` that meets the specification at the best-so-far
level after the call; a cut returned without a value excludes the queried point. -/
theorem C49_lowpass_cut {o : Lowpass n} (hI : o.Inv) (hLU : o.Lpsq ≤ o.Upsq) (hN : 0 < o.As.N) (x : Fin n → ℝ) {S : ℝ} (hS : 0 ≤ S) :
    ∃ o' cut t1, Lowpass.call x S o = .ok (o', cut, t1) ∧
      (∀ z, o.Meets (t1.getD S) z → z ∈ cutSet x cut) ∧ (t1 = none → x ∉ cutSet x cut) := by
  obtain ⟨o', cut, t1, h1, -, -, -, -, h2, h3, -⟩ := lowpass_call hI hLU hN x hS
  exact ⟨o', cut, t1, h1, h2, h3⟩

/-- **C50** (counters): the counters stay in range along every call, each scan visits every row exactly once, and a
counter only moves to one past the first violated row of its scan; `more_alt` is cleared exactly when no row is
violated. -/
theorem C50_lowpass_round_robin {o : Lowpass n} (hI : o.Inv) (hLU : o.Lpsq ≤ o.Upsq) (hN : 0 < o.As.N) (x : Fin n → ℝ) {S : ℝ}
    (hS : 0 ≤ S) :
    ∃ o' cut t1, Lowpass.call x S o = .ok (o', cut, t1) ∧ o'.Inv ∧ o.SameData o' ∧ o.Moves x S o'.iAp o'.iAs o'.iAnr ∧
      (o'.moreAlt = false ↔ (∀ j, passOK o.Ap o.Lpsq o.Upsq x j) ∧ (∀ j, passOK o.As 0 S x j) ∧ ∀ j, nonnegOK o.Anr x j) ∧
      (scanOrder o.iAp o.Ap.N).Perm (List.range o.Ap.N) ∧ (scanOrder o.iAs o.As.N).Perm (List.range o.As.N) ∧
      (scanOrder o.iAnr o.Anr.N).Perm (List.range o.Anr.N) := by
  obtain ⟨o', cut, t1, h1, h2, h3, h4, -, -, -, h5, -⟩ := lowpass_call hI hLU hN x hS
  exact ⟨o', cut, t1, h1, h2, h3, h4, h5, scanOrder_perm hI.ap, scanOrder_perm hI.as, scanOrder_perm hI.anr⟩

/-- Rows the scan from `i` still has to visit before `k`. -/
def cycDist (i k N : ℕ) : ℕ := if i ≤ k then k - i else N - i + k

omit [NeZero n] in
theorem FirstBad.dist {ok : ℕ → Prop} {i j k N : ℕ} (hi : i ≤ N) (hk : k < N) (hbad : ¬ ok k)
    (h : FirstBad ok (scanOrder i N) j) : j = k ∨ cycDist (j + 1) k N < cycDist i k N := by
  obtain ⟨pre, post, he, hpre, -⟩ := h
  by_cases hjk : j = k
  · exact .inl hjk
  right
  -- position of `k` in the scan is after that of `j`
  have hget : ∀ m, m < N → (scanOrder i N)[m]? = some (if m < N - i then i + m else m - (N - i)) := by
    intro m hm
    simp only [scanOrder]
    by_cases h : m < N - i
    · rw [List.getElem?_append_left (by simpa using h), if_pos h]; simp [h]
    · rw [List.getElem?_append_right (by simpa using not_lt.1 h), if_neg h]
      simp only [List.length_range']
      rw [List.getElem?_range (by omega)]
  have hlen : (scanOrder i N).length = N := by simp [scanOrder]; omega
  have hl : pre.length < N := by rw [← hlen, he]; simp
  have hj : j = if pre.length < N - i then i + pre.length else pre.length - (N - i) := by
    have := hget _ hl
    rw [he] at this
    simpa using this
  -- the index of k
  set mk := if i ≤ k then k - i else N - i + k with hmk
  have hmk' : mk < N := by rw [hmk]; split <;> omega
  have hkk : (scanOrder i N)[mk]? = some k := by
    rw [hget mk hmk']
    congr 1
    rw [hmk]; split <;> rename_i hik
    · rw [if_pos (by omega)]; omega
    · rw [if_neg (by omega)]; omega
  have hlt : pre.length < mk := by
    rcases lt_trichotomy pre.length mk with h | h | h
    · exact h
    · exfalso; rw [← h, he] at hkk; simp at hkk; exact hjk hkk
    · exfalso
      rw [he, List.getElem?_append_left h] at hkk
      exact hbad (hpre k (List.mem_of_getElem? hkk))
  simp only [cycDist]
  rw [← hmk]
  split at hj <;> split <;> (rw [hmk] at hlt ⊢; split at hlt) <;> (try split) <;> omega

/-- Runs of calls: the queries with the objects after each. -/
inductive LpRun : Lowpass n → List ((Fin n → ℝ) × ℝ) → List (Lowpass n) → Prop
  | nil (o) : LpRun o [] []
  | cons {o o' x S cut t1 qs os} : Lowpass.call x S o = .ok (o', cut, t1) → LpRun o' qs os → LpRun o ((x, S) :: qs) (o' :: os)

/-- **C50** (fairness): if passband row `k` is violated at each of `N` consecutive queries, it is the row cut in one
of them: no violated row is starved. -/
theorem C50_lowpass_fair {k : ℕ} : ∀ {qs : List ((Fin n → ℝ) × ℝ)} {o : Lowpass n} {os : List (Lowpass n)}, o.Inv →
    o.Lpsq ≤ o.Upsq → 0 < o.As.N → (hk : k < o.Ap.N) → LpRun o qs os →
    (∀ q ∈ qs, 0 ≤ q.2 ∧ ¬ (o.Lpsq ≤ o.Ap.row ⟨k, hk⟩ ⬝ᵥ q.1 ∧ o.Ap.row ⟨k, hk⟩ ⬝ᵥ q.1 ≤ o.Upsq)) →
    cycDist o.iAp k o.Ap.N < qs.length → ∃ o' ∈ os, o'.iAp = k + 1 := by
  intro qs
  induction qs with
  | nil => intro o os _ _ _ _ _ _ h; simp at h
  | cons q qs ih =>
    intro o os hI hLU hN hk hrun hq hd
    cases hrun with
    | @cons _ o' x S cut t1 _ os hcall hrun =>
      have hq0 := hq (x, S) List.mem_cons_self
      obtain ⟨o1, cut1, t2, h1, h2, ⟨d1, d2, d3, d4, d5⟩, h4, -⟩ := lowpass_call hI hLU hN x hq0.1
      rw [hcall] at h1
      simp only [Except.ok.injEq, Prod.mk.injEq] at h1
      obtain ⟨rfl, -, -⟩ := h1
      have hbad : ¬ passOK o.Ap o.Lpsq o.Upsq x k := fun h => hq0.2 (h hk)
      have hfb : ∃ j, o'.iAp = j + 1 ∧ FirstBad (passOK o.Ap o.Lpsq o.Upsq x) (scanOrder o.iAp o.Ap.N) j := by
        generalize ha : o'.iAp = a at h4
        generalize o'.iAs = b at h4
        generalize o'.iAnr = c at h4
        cases h4 with
        | pass h => exact ⟨_, rfl, h⟩
        | stop h => exact absurd (h k) hbad
        | nonneg h => exact absurd (h k) hbad
        | none h => exact absurd (h k) hbad
      obtain ⟨j, hj, hfb⟩ := hfb
      rcases hfb.dist hI.ap hk hbad with rfl | hlt
      · exact ⟨o', List.mem_cons_self, hj⟩
      · have hk' : k < o'.Ap.N := by rw [d1]; exact hk
        have hrow : o'.Ap.row ⟨k, hk'⟩ = o.Ap.row ⟨k, hk⟩ := by
          have : ∀ (A B : Band n) (e : A = B) (hA : k < A.N) (hB : k < B.N), A.row ⟨k, hA⟩ = B.row ⟨k, hB⟩ := by
            rintro A B rfl _ _; rfl
          exact this _ _ d1 _ _
        obtain ⟨o'', hm, he⟩ := ih h2 (by rw [d4, d5]; exact hLU) (by rw [d2]; exact hN) hk' hrun
          (fun q hq' => by rw [d4, d5, hrow]; exact hq q (List.mem_cons_of_mem _ hq')) (by
            rw [hj, d1]; simp only [List.length_cons] at hd; omega)
        exact ⟨o'', List.mem_cons_of_mem _ hm, he⟩

/-- The distance is below `N`, so `N` queries are enough. -/
theorem C50_cycDist_lt {i k N : ℕ} (hi : i ≤ N) (hk : k < N) : cycDist i k N < N := by
  unfold cycDist; split <;> omega

/-- **C50** (data replaced).  The position in the passband survives an assignment to `self.Ap`.  If the new matrix has fewer rows than the old
position and no row is violated, the call raises `IndexError`. -/
theorem C50_stale_position {o : Lowpass n} (h : o.Ap.N < o.iAp) {x : Fin n → ℝ} (hx : ∀ j, passOK o.Ap o.Lpsq o.Upsq x j) (S : ℝ) :
    Lowpass.call x S o = .error .indexError := by
  have key : ∀ l : List ℕ, (∃ k ∈ l, o.Ap.N ≤ k) → passScan o.Ap o.Lpsq o.Upsq x l = .error .indexError := by
    intro l
    induction l with
    | nil => rintro ⟨k, hk, -⟩; simp at hk
    | cons k l ih =>
      rintro ⟨k', hk', hN⟩
      unfold passScan Band.get
      by_cases hk : k < o.Ap.N
      · simp only [hk, dif_pos]
        obtain ⟨h1, h2⟩ := hx k hk
        rw [if_neg (not_lt.2 h2), if_neg (not_lt.2 h1)]
        refine ih ⟨k', ?_, hN⟩
        rcases List.mem_cons.1 hk' with rfl | h3
        · exact absurd hk (not_lt.2 hN)
        · exact h3
      · simp only [hk, dif_neg, not_false_eq_true]
  unfold Lowpass.call
  dsimp only
  rw [key _ ⟨o.Ap.N, ?_, le_rfl⟩]
  unfold scanOrder
  rw [List.mem_append, List.mem_range]
  exact .inr h

/-! ### Concrete case: one passband row `(1,2)`, two stopband rows `(1,-1)`, `(1,0)`, one other row -/

noncomputable def exLp : Lowpass 2 where
  Ap := ⟨1, ![![1, 2]]⟩
  As := ⟨2, ![![1, -1], ![1, 0]]⟩
  Anr := ⟨1, ![![1, 1]]⟩
  Lpsq := 2
  Upsq := 4

theorem exLp_inv : exLp.Inv := ⟨Nat.zero_le _, Nat.zero_le _, Nat.zero_le _⟩

/-- A point meeting the specification; the reported value is the larger stopband response, `3/2`. -/
example : ∃ o' cut, Lowpass.call ![3 / 2, 1 / 2] 2 exLp = .ok (o', cut, some (3 / 2)) := by
  obtain ⟨o', cut, t1, h1, h2, -⟩ := C48_lowpass_value exLp_inv (by norm_num [exLp]) (by simp [exLp]) ![3 / 2, 1 / 2]
    (S := 2) (by norm_num)
  have : t1 = some (3 / 2) := by
    refine (h2 _).2 ⟨⟨fun k => ?_, fun k => ?_, fun k => ?_, by simp; norm_num⟩, fun k => ?_, ⟨(1 : Fin 2), ?_⟩⟩
    · revert k; simp only [exLp]; intro k; fin_cases k; simp; norm_num
    · revert k; simp only [exLp]; intro k; fin_cases k <;> simp <;> norm_num
    · revert k; simp only [exLp]; intro k; fin_cases k; simp; norm_num
    · revert k; simp only [exLp]; intro k; fin_cases k <;> simp
    · simp [exLp]
  exact ⟨o', cut, this ▸ h1⟩

/-- Two queries violating the passband row: it is cut. -/
example : ∃ o' cut t1, Lowpass.call ![0, 0] 2 exLp = .ok (o', cut, t1) ∧ o'.iAp = 1 := by
  obtain ⟨o', cut, t1, h1, -, -, h4, -⟩ := C50_lowpass_round_robin exLp_inv (by norm_num [exLp]) (by simp [exLp]) ![0, 0]
    (S := 2) (by norm_num)
  obtain ⟨o'', hm, he⟩ := C50_lowpass_fair (k := 0) exLp_inv (by norm_num [exLp]) (by simp [exLp]) (by simp [exLp])
    (.cons h1 (.nil o')) (by simp [exLp]) (by simp [cycDist, exLp])
  simp only [List.mem_singleton] at hm
  exact ⟨o', cut, t1, h1, hm ▸ he⟩

/-- Concrete: `exLp` after a cut of its only passband row, then with the passband removed. -/
example (S : ℝ) : Lowpass.call ![0, 0] S { exLp with iAp := 1, Ap := ⟨0, fun i => i.elim0⟩ } = .error .indexError :=
  C50_stale_position (by simp) (fun j hj => absurd hj (Nat.not_lt_zero j)) S

end Verif
