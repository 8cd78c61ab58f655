import Verif.Model.FirOracle2
import Verif.Props.Lowpass

/-! # C145: the Matlab class `FIR_oracle2` and its port `lowpass_oracle` -/
namespace Verif
open Matrix
variable {n : ℕ}

/-- The specification at stopband level `S`; that of `lowpass_oracle` without `z[0] ≥ 0`. -/
structure FirOracle2.Meets (o : FirOracle2 n) (S : ℝ) (z : Fin n → ℝ) : Prop where
  pass : ∀ k, o.Lpsq ≤ o.Ap.row k ⬝ᵥ z ∧ o.Ap.row k ⬝ᵥ z ≤ o.Upsq
  stop : ∀ k, 0 ≤ o.As.row k ⬝ᵥ z ∧ o.As.row k ⬝ᵥ z ≤ S
  nonneg : ∀ k, 0 ≤ o.Anr.row k ⬝ᵥ z

namespace FirOracle2

theorem passLoop_none {A : Band n} {L U : ℝ} {x : Fin n → ℝ} : ∀ {ks : List (Fin A.N)}, passLoop A L U x ks = none → ∀ k ∈ ks, L ≤ A.row k ⬝ᵥ x ∧ A.row k ⬝ᵥ x ≤ U
  | [], _, k, hk => by simp at hk
  | j :: ks, h, k, hk => by
    simp only [passLoop] at h
    split_ifs at h with h1 h2
    rcases List.mem_cons.1 hk with rfl | hk
    · exact ⟨not_lt.1 h2, not_lt.1 h1⟩
    · exact passLoop_none h k hk

theorem passLoop_some {A : Band n} {L U : ℝ} {x : Fin n → ℝ} {cut : LpCut n} : ∀ {ks : List (Fin A.N)}, passLoop A L U x ks = some cut →
    x ∉ cutSet x cut ∧ (∃ k, ¬ (L ≤ A.row k ⬝ᵥ x ∧ A.row k ⬝ᵥ x ≤ U)) ∧ ∀ z, (∀ k, L ≤ A.row k ⬝ᵥ z ∧ A.row k ⬝ᵥ z ≤ U) → z ∈ cutSet x cut
  | [], h => by simp [passLoop] at h
  | j :: ks, h => by
    simp only [passLoop] at h
    split_ifs at h with h1 h2
    · obtain rfl := Option.some.inj h
      refine ⟨fun hx => ?_, ⟨j, fun hk => absurd h1 (not_lt.2 hk.2)⟩, fun z hz => ?_⟩
      · simp only [cutSet, Set.mem_ofPred_eq, sub_self, dotProduct_zero] at hx
        linarith [hx.1]
      · simp only [cutSet, Set.mem_ofPred_eq, dotProduct_sub]
        constructor <;> linarith [(hz j).1, (hz j).2]
    · obtain rfl := Option.some.inj h
      refine ⟨fun hx => ?_, ⟨j, fun hk => absurd h2 (not_lt.2 hk.1)⟩, fun z hz => ?_⟩
      · simp only [cutSet, Set.mem_ofPred_eq, sub_self, dotProduct_zero] at hx
        linarith [hx.1]
      · simp only [cutSet, Set.mem_ofPred_eq, dotProduct_sub, neg_dotProduct]
        constructor <;> linarith [(hz j).1, (hz j).2]
    · exact passLoop_some h

/-- The stopband loop is a passband loop with bounds 0 and `Spsq`. -/
theorem stopLoop_eq {A : Band n} {S : ℝ} {x : Fin n → ℝ} : ∀ ks : List (Fin A.N), stopLoop A S x ks = passLoop A 0 S x ks
  | [] => rfl
  | k :: ks => by simp only [stopLoop, passLoop, sub_zero, add_zero, stopLoop_eq ks]

theorem nonnegLoop_none {A : Band n} {x : Fin n → ℝ} : ∀ {ks : List (Fin A.N)}, nonnegLoop A x ks = none → ∀ k ∈ ks, 0 ≤ A.row k ⬝ᵥ x
  | [], _, k, hk => by simp at hk
  | j :: ks, h, k, hk => by
    simp only [nonnegLoop] at h
    split_ifs at h with h1
    rcases List.mem_cons.1 hk with rfl | hk
    · exact not_lt.1 h1
    · exact nonnegLoop_none h k hk

theorem nonnegLoop_some {A : Band n} {x : Fin n → ℝ} {cut : LpCut n} : ∀ {ks : List (Fin A.N)}, nonnegLoop A x ks = some cut →
    x ∉ cutSet x cut ∧ (∃ k, A.row k ⬝ᵥ x < 0) ∧ ∀ z, (∀ k, 0 ≤ A.row k ⬝ᵥ z) → z ∈ cutSet x cut
  | [], h => by simp [nonnegLoop] at h
  | j :: ks, h => by
    simp only [nonnegLoop] at h
    split_ifs at h with h1
    · obtain rfl := Option.some.inj h
      refine ⟨fun hx => ?_, ⟨j, h1⟩, fun z hz => ?_⟩
      · simp only [cutSet, Set.mem_ofPred_eq, sub_self, dotProduct_zero] at hx
        linarith
      · simp only [cutSet, Set.mem_ofPred_eq, dotProduct_sub, neg_dotProduct]
        linarith [hz j]
    · exact nonnegLoop_some h

theorem firstMax_none {N : ℕ} {w : Fin N → ℝ} : ∀ {ks : List (Fin N)}, firstMax w ks = none → ks = []
  | [], _ => rfl
  | k :: ks, h => by
    simp only [firstMax] at h
    split at h
    · simp at h
    · split_ifs at h

/-- `firstMax` on a sorted list is the first of the largest entries. -/
theorem firstMax_some {N : ℕ} {w : Fin N → ℝ} : ∀ {ks : List (Fin N)} {k : Fin N}, ks.Pairwise (· < ·) → firstMax w ks = some k →
    k ∈ ks ∧ (∀ j ∈ ks, w j ≤ w k) ∧ ∀ j ∈ ks, j < k → w j < w k
  | [], k, _, h => by simp [firstMax] at h
  | i :: ks, k, hs, h => by
    rw [List.pairwise_cons] at hs
    simp only [firstMax] at h
    split at h
    · rename_i h'
      obtain rfl := firstMax_none h'
      obtain rfl := Option.some.inj h
      simp
    · rename_i j h'
      obtain ⟨a1, a2, a3⟩ := firstMax_some hs.2 h'
      split_ifs at h with h1
      · obtain rfl := Option.some.inj h
        refine ⟨List.mem_cons_of_mem _ a1, fun l hl => ?_, fun l hl hlt => ?_⟩
        · rcases List.mem_cons.1 hl with rfl | hl
          · exact h1.le
          · exact a2 l hl
        · rcases List.mem_cons.1 hl with rfl | hl
          · exact h1
          · exact a3 l hl hlt
      · obtain rfl := Option.some.inj h
        refine ⟨List.mem_cons_self, fun l hl => ?_, fun l hl hlt => ?_⟩
        · rcases List.mem_cons.1 hl with rfl | hl
          · exact le_rfl
          · exact (a2 l hl).trans (not_lt.1 h1)
        · rcases List.mem_cons.1 hl with rfl | hl
          · exact absurd hlt (lt_irrefl _)
          · exact absurd (hs.1 l hl) (not_lt.2 hlt.le)

end FirOracle2

open FirOracle2

/-- **C145** (a call).  `evaluate` lowers the level exactly at the points that meet the specification, to the largest stopband response, with a central cut from the first row that attains it; elsewhere it keeps the level and
its cut excludes the point.  The cut keeps, on both sides, every point that meets the specification at the new level. -/
theorem C145_evaluate (o : FirOracle2 n) (hN : 0 < o.As.N) (x : Fin n → ℝ) (S : ℝ) :
    ∃ cut s, o.evaluate x S = .ok (cut, s) ∧
      (o.Meets S x ∧ 0 ≤ s ∧ s ≤ S ∧ (∃ k, cut = (o.As.row k, .seq [0, s]) ∧ o.As.row k ⬝ᵥ x = s ∧ (∀ j, o.As.row j ⬝ᵥ x ≤ s) ∧ ∀ j < k, o.As.row j ⬝ᵥ x < s) ∨
        ¬ o.Meets S x ∧ s = S ∧ x ∉ cutSet x cut) ∧
      ∀ z, o.Meets s z → z ∈ cutSet x cut := by
  unfold evaluate
  cases h1 : passLoop o.Ap o.Lpsq o.Upsq x (List.finRange _) with
  | some cut =>
    obtain ⟨a1, ⟨k, a2⟩, a3⟩ := passLoop_some h1
    exact ⟨cut, S, rfl, .inr ⟨fun h => a2 (h.pass k), rfl, a1⟩, fun z hz => a3 z hz.pass⟩
  | none =>
    cases h2 : stopLoop o.As S x (List.finRange _) with
    | some cut =>
      rw [stopLoop_eq] at h2
      obtain ⟨a1, ⟨k, a2⟩, a3⟩ := passLoop_some h2
      exact ⟨cut, S, rfl, .inr ⟨fun h => a2 (h.stop k), rfl, a1⟩, fun z hz => a3 z hz.stop⟩
    | none =>
      cases h3 : nonnegLoop o.Anr x (List.finRange _) with
      | some cut =>
        obtain ⟨a1, ⟨k, a2⟩, a3⟩ := nonnegLoop_some h3
        exact ⟨cut, S, rfl, .inr ⟨fun h => absurd a2 (not_lt.2 (h.nonneg k)), rfl, a1⟩, fun z hz => a3 z hz.nonneg⟩
      | none =>
        rw [stopLoop_eq] at h2
        have b2 := fun k => passLoop_none h2 k (List.mem_finRange k)
        cases h4 : firstMax (fun k => o.As.row k ⬝ᵥ x) (List.finRange _) with
        | none =>
          have := congrArg List.length (firstMax_none h4)
          simp at this
          omega
        | some k =>
          obtain ⟨-, c1, c2⟩ := firstMax_some (List.pairwise_lt_finRange _) h4
          refine ⟨_, _, rfl, .inl ⟨⟨fun k => passLoop_none h1 k (List.mem_finRange k), b2, fun k => nonnegLoop_none h3 k (List.mem_finRange k)⟩, (b2 k).1, (b2 k).2, k, rfl, rfl,
            fun j => c1 j (List.mem_finRange j), fun j => c2 j (List.mem_finRange j)⟩, fun z hz => ?_⟩
          simp only [cutSet, Set.mem_ofPred_eq, dotProduct_sub]
          constructor <;> linarith [(hz.stop k).1, (hz.stop k).2]

/-! ### The port -/

/-- The data of a `lowpass_oracle`. -/
def Lowpass.matlab (o : Lowpass n) : FirOracle2 n := ⟨o.Ap, o.As, o.Anr, o.Lpsq, o.Upsq⟩

theorem get_row (A : Band n) (k : Fin A.N) : A.get k = .ok (A.row k) := by simp [Band.get]

theorem passScan_loop (A : Band n) (L U : ℝ) (x : Fin n → ℝ) : ∀ ks : List (Fin A.N),
    (passLoop A L U x ks = none → passScan A L U x (ks.map Fin.val) = .ok none) ∧
    ∀ cut, passLoop A L U x ks = some cut → ∃ k, passScan A L U x (ks.map Fin.val) = .ok (some (k, cut))
  | [] => ⟨fun _ => rfl, fun cut h => by simp [passLoop] at h⟩
  | k :: ks => by
    simp only [passLoop, List.map_cons, passScan, get_row]
    split_ifs
    · exact ⟨by simp, fun cut h => ⟨k, by rw [Option.some.inj h]⟩⟩
    · exact ⟨by simp, fun cut h => ⟨k, by rw [Option.some.inj h]⟩⟩
    · exact passScan_loop A L U x ks

theorem nonnegScan_loop (A : Band n) (x : Fin n → ℝ) : ∀ ks : List (Fin A.N),
    (nonnegLoop A x ks = none → nonnegScan A x (ks.map Fin.val) = .ok none) ∧
    ∀ cut, nonnegLoop A x ks = some cut → ∃ k, nonnegScan A x (ks.map Fin.val) = .ok (some (k, cut))
  | [] => ⟨fun _ => rfl, fun cut h => by simp [nonnegLoop] at h⟩
  | k :: ks => by
    simp only [nonnegLoop, List.map_cons, nonnegScan, get_row]
    split_ifs
    · exact ⟨by simp, fun cut h => ⟨k, by rw [Option.some.inj h]⟩⟩
    · exact nonnegScan_loop A x ks

theorem stopScan_cut (A : Band n) (S : ℝ) (x : Fin n → ℝ) {cut : LpCut n} : ∀ (ks : List (Fin A.N)) (fmax : WithBot ℝ) (imax : ℕ), stopLoop A S x ks = some cut →
    ∃ k, stopScan A S x fmax imax (ks.map Fin.val) = .ok (.inl (k, cut))
  | [], _, _, h => by simp [stopLoop] at h
  | k :: ks, fmax, imax, h => by
    simp only [stopLoop] at h
    simp only [List.map_cons, stopScan, get_row]
    split_ifs at h with h1 h2
    · rw [if_pos h1]; exact ⟨k, by rw [Option.some.inj h]⟩
    · rw [if_neg h1, if_pos h2]; exact ⟨k, by rw [Option.some.inj h]⟩
    · rw [if_neg h1, if_neg h2]
      split_ifs
      · exact stopScan_cut A S x ks _ _ h
      · exact stopScan_cut A S x ks _ _ h

theorem stopScan_max (A : Band n) (S : ℝ) (x : Fin n → ℝ) : ∀ (ks : List (Fin A.N)) (fmax : WithBot ℝ) (imax : ℕ), stopLoop A S x ks = none →
    stopScan A S x fmax imax (ks.map Fin.val) = .ok (.inr (match firstMax (fun k => A.row k ⬝ᵥ x) ks with
      | none => (fmax, imax)
      | some j => if fmax < ((A.row j ⬝ᵥ x : ℝ) : WithBot ℝ) then (((A.row j ⬝ᵥ x : ℝ) : WithBot ℝ), (j : ℕ)) else (fmax, imax)))
  | [], _, _, _ => rfl
  | k :: ks, fmax, imax, h => by
    simp only [stopLoop] at h
    split_ifs at h with h1 h2
    simp only [List.map_cons, stopScan, get_row, if_neg h1, if_neg h2]
    by_cases hk : fmax < ((A.row k ⬝ᵥ x : ℝ) : WithBot ℝ)
    · rw [if_pos hk, stopScan_max A S x ks _ _ h]
      simp only [firstMax]
      cases firstMax (fun k => A.row k ⬝ᵥ x) ks with
      | none => simp only [if_pos hk]
      | some j =>
        simp only [WithBot.coe_lt_coe]
        by_cases hj : A.row k ⬝ᵥ x < A.row j ⬝ᵥ x
        · simp only [if_pos hj, if_pos (hk.trans (WithBot.coe_lt_coe.2 hj))]
        · simp only [if_neg hj, if_pos hk]
    · rw [if_neg hk, stopScan_max A S x ks _ _ h]
      simp only [firstMax]
      cases firstMax (fun k => A.row k ⬝ᵥ x) ks with
      | none => simp only [if_neg hk]
      | some j =>
        by_cases hj : A.row k ⬝ᵥ x < A.row j ⬝ᵥ x
        · simp only [if_pos hj]
        · simp only [if_neg hj, if_neg hk]
          rw [if_neg]
          exact fun h => hk (h.trans_le (WithBot.coe_le_coe.2 (not_lt.1 hj)))

theorem scanOrder_zero (N : ℕ) : scanOrder 0 N = (List.finRange N).map Fin.val := by
  rw [List.map_coe_finRange_eq_range, scanOrder]
  simp [List.range_eq_range']

variable [NeZero n]

/-- **C145** (a fresh object).  With its counters at 0 and `x[0] ≥ 0`, `lowpass_oracle` returns what `evaluate` returns: the same cut, and the level unless it is unchanged. -/
theorem C145_same {o : Lowpass n} (h0 : o.iAp = 0 ∧ o.iAs = 0 ∧ o.iAnr = 0) (hN : 0 < o.As.N) {x : Fin n → ℝ} (hx : 0 ≤ x 0) (S : ℝ) :
    ∃ o' cut t1, Lowpass.call x S o = .ok (o', cut, t1) ∧ o.matlab.evaluate x S = .ok (cut, t1.getD S) ∧ (t1.isSome ↔ o.matlab.Meets S x) := by
  obtain ⟨i1, i2, i3⟩ := h0
  obtain ⟨p1, p2⟩ := passScan_loop o.Ap o.Lpsq o.Upsq x (List.finRange _)
  obtain ⟨r1, r2⟩ := nonnegScan_loop o.Anr x (List.finRange _)
  unfold evaluate
  simp only [Lowpass.call, Lowpass.call2, Lowpass.call3, Lowpass.finish, i1, i2, i3, scanOrder_zero, Lowpass.matlab]
  cases h1 : passLoop o.Ap o.Lpsq o.Upsq x (List.finRange _) with
  | some cut =>
    obtain ⟨k, q1⟩ := p2 cut h1
    obtain ⟨-, ⟨j, a2⟩, -⟩ := passLoop_some h1
    simp only [q1]
    exact ⟨_, cut, none, rfl, rfl, by simp, fun h => absurd (h.pass j) a2⟩
  | none =>
    simp only [p1 h1]
    cases h2 : stopLoop o.As S x (List.finRange _) with
    | some cut =>
      obtain ⟨k, q1⟩ := stopScan_cut o.As S x _ ⊥ 0 h2
      rw [stopLoop_eq] at h2
      obtain ⟨-, ⟨j, a2⟩, -⟩ := passLoop_some h2
      simp only [q1]
      exact ⟨_, cut, none, rfl, rfl, by simp, fun h => absurd (h.stop j) a2⟩
    | none =>
      have q1 := stopScan_max o.As S x _ ⊥ 0 h2
      simp only [q1]
      cases h3 : nonnegLoop o.Anr x (List.finRange _) with
      | some cut =>
        obtain ⟨k, q2⟩ := r2 cut h3
        obtain ⟨-, ⟨j, a2⟩, -⟩ := nonnegLoop_some h3
        simp only [q2]
        exact ⟨_, cut, none, rfl, rfl, by simp, fun h => absurd a2 (not_lt.2 (h.nonneg j))⟩
      | none =>
        simp only [r1 h3, if_neg (not_lt.2 hx)]
        rw [stopLoop_eq] at h2
        cases h4 : firstMax (fun k => o.As.row k ⬝ᵥ x) (List.finRange _) with
        | none =>
          have := congrArg List.length (firstMax_none h4)
          simp at this
          omega
        | some k =>
          simp only [if_pos (WithBot.bot_lt_coe (o.As.row k ⬝ᵥ x)), get_row]
          exact ⟨_, _, _, rfl, rfl, fun _ => ⟨fun k => passLoop_none h1 k (List.mem_finRange k), fun k => passLoop_none h2 k (List.mem_finRange k),
            fun k => nonnegLoop_none h3 k (List.mem_finRange k)⟩, fun _ => rfl⟩

/-- **C145** (any object).  Whatever its counters, `lowpass_oracle` reports a level exactly where `evaluate` lowers it and `x[0] ≥ 0`, and it is the same level; the cut may come from another row. -/
theorem C145_any_state {o : Lowpass n} (hI : o.Inv) (hLU : o.Lpsq ≤ o.Upsq) (hN : 0 < o.As.N) (x : Fin n → ℝ) {S : ℝ} (hS : 0 ≤ S) :
    ∃ o' cut t1 cut' s, Lowpass.call x S o = .ok (o', cut, t1) ∧ o.matlab.evaluate x S = .ok (cut', s) ∧ (t1.isSome ↔ o.matlab.Meets S x ∧ 0 ≤ x 0) ∧ (t1.isSome → t1 = some s) := by
  obtain ⟨o', cut, t1, h1, h2, -, h3⟩ := C48_lowpass_value hI hLU hN x hS
  obtain ⟨cut', s, e1, e2, -⟩ := C145_evaluate o.matlab hN x S
  have hm : o.Meets S x ↔ o.matlab.Meets S x ∧ 0 ≤ x 0 := ⟨fun h => ⟨⟨h.pass, h.stop, h.nonneg⟩, h.first⟩, fun h => ⟨h.1.pass, h.1.stop, h.1.nonneg, h.2⟩⟩
  refine ⟨o', cut, t1, cut', s, h1, e1, h3.trans hm, fun h => ?_⟩
  have hx := h3.1 h
  rcases e2 with ⟨-, -, -, k, -, b1, b2, -⟩ | ⟨b1, -⟩
  · exact (h2 s).2 ⟨hx, b2, k, b1⟩
  · exact absurd (hm.1 hx).1 b1

/-! ### Concrete cases -/

/-- Without rows that force `x[0] ≥ 0` the two differ: `evaluate` accepts a point that `lowpass_oracle` cuts off. -/
theorem C145_first_entry : ∃ (o : Lowpass 2) (x : Fin 2 → ℝ), o.Inv ∧ (∃ cut, o.matlab.evaluate x 1 = .ok (cut, 0)) ∧
    ∃ o', Lowpass.call x 1 o = .ok (o', (fun i => if i = 0 then -1 else 0, .scalar 1), none) := by
  refine ⟨{ Ap := ⟨0, ![]⟩, As := ⟨1, ![![0, 1]]⟩, Anr := ⟨0, ![]⟩, Lpsq := 0, Upsq := 1 }, ![-1, 0], ⟨le_rfl, Nat.zero_le _, le_rfl⟩, ?_, ?_⟩
  · simp [evaluate, Lowpass.matlab, passLoop, stopLoop, nonnegLoop, firstMax, List.finRange_succ, (show ¬ (1 : ℝ) < 0 by norm_num)]
  · simp [Lowpass.call, Lowpass.call2, Lowpass.call3, Lowpass.finish, passScan, stopScan, nonnegScan, scanOrder, Band.get, (show ¬ (1 : ℝ) < 0 by norm_num)]

/-- The case of `Props/Lowpass.lean`: accepted, at level 3/2. -/
example : ∃ cut, exLp.matlab.evaluate ![3 / 2, 1 / 2] 2 = .ok (cut, 3 / 2) := by
  obtain ⟨cut, s, h1, h2, -⟩ := C145_evaluate exLp.matlab (by simp [Lowpass.matlab, exLp]) ![3 / 2, 1 / 2] 2
  rcases h2 with ⟨-, -, -, k, -, a1, a2, -⟩ | ⟨a1, -⟩
  · have h3 := a2 (1 : Fin 2)
    refine ⟨cut, ?_⟩
    rw [h1]
    revert k
    simp only [Lowpass.matlab, exLp] at h3 ⊢
    intro k hk
    fin_cases k <;> norm_num at hk h3 <;> (rw [← hk]; try linarith)
  · refine absurd ⟨fun k => ?_, fun k => ?_, fun k => ?_⟩ a1
    · revert k; simp only [Lowpass.matlab, exLp]; intro k; fin_cases k; simp; norm_num
    · revert k; simp only [Lowpass.matlab, exLp]; intro k; fin_cases k <;> simp <;> norm_num
    · revert k; simp only [Lowpass.matlab, exLp]; intro k; fin_cases k; simp; norm_num

/-- A fresh object at a point that violates the passband row: both return the cut `(-(1,2), [2, 4])`. -/
example : ∃ o' cut t1, Lowpass.call ![0, 0] 2 exLp = .ok (o', cut, t1) ∧ exLp.matlab.evaluate ![0, 0] 2 = .ok (cut, t1.getD 2) ∧ t1 = none := by
  obtain ⟨o', cut, t1, h1, h2, h3⟩ := C145_same (o := exLp) ⟨rfl, rfl, rfl⟩ (by simp [exLp]) (x := ![0, 0]) le_rfl 2
  refine ⟨o', cut, t1, h1, h2, ?_⟩
  cases t1 with
  | none => rfl
  | some s =>
    have := (h3.1 rfl).pass (0 : Fin 1)
    norm_num [Lowpass.matlab, exLp] at this

end Verif
