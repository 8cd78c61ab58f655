import Verif.Model.BsearchFloat
import Verif.Proofs.Bsearch
import Mathlib.Algebra.Order.Floor.Ring
import Mathlib.Data.Rat.Floor

/-! # C11-C13: `bsearch` -/
namespace Verif
section general
variable {W α : Type _} [Field α] [LinearOrder α] [IsStrictOrderedRing α]
variable {Ω : α → W → Except PyErr (W × Bool)} {conv : α → α} {lo up u : α} {o : Options α} {w w' : W}
  {log : List (BsEvent W α)} {info : CInfo}

omit [IsStrictOrderedRing α] in
/-- C11 (soundness of the answer, any conversion, any predicate, monotone or not): the returned bound is
the original upper bound or a value on which the predicate was evaluated and returned `True`; all
evaluations are genuine calls. -/
theorem C11_bsearch_answer
    (h : bsearch (logBs Ω) conv lo up o (w, []) = .ok ((w', log), u, info)) :
    u = up ∧ (∀ e ∈ log, ∀ w1 t w2, e ≠ .query w1 t true w2) ∨
    ∃ w1 w2, Event.query w1 u true w2 ∈ log ∧ Ω u w1 = .ok (w2, true) := by
  have key := bsearch_rule
    (I := fun _ log _ u => u = up ∧ (∀ e ∈ log, ∀ w1 t w2, e ≠ .query w1 t true w2) ∨
      ∃ w1 w2, Event.query w1 u true w2 ∈ log ∧ Ω u w1 = .ok (w2, true))
    (.inl ⟨rfl, by simp⟩) ?_ h
  · obtain ⟨k, l, hI, -⟩ := key
    exact hI
  · rintro k log l u w w1 b hI hn hq
    cases b with
    | true => exact .inr ⟨w, w1, by simp, by simpa using hq⟩
    | false =>
      rcases hI with ⟨rfl, h1⟩ | ⟨a, b, h1, h2⟩
      · refine .inl ⟨by simp, ?_⟩
        intro e he w1 t w2
        rcases List.mem_append.1 he with he | he
        · exact h1 e he w1 t w2
        · rw [List.mem_singleton.1 he]; simp
      · exact .inr ⟨a, b, by simp [h1], by simpa using h2⟩

/-- C11 (bracket).  `P` is the predicate the oracle decides.  If `P` is false at the lower and true at
the upper end then on exit there is a point `l` with `¬ P l`, `P u`, and `u - l` is the original width
divided by `2 ^ k`, `k` being the number of evaluations; on `smallenough` it is below `2 * tol`. -/
theorem C11_bsearch_bracket (P : α → Prop)
    (hP : ∀ t w w' b, Ω t w = .ok (w', b) → (b = true ↔ P t)) (hlo : ¬ P lo) (hup : P up)
    (h : bsearch (logBs Ω) id lo up o (w, []) = .ok ((w', log), u, info)) :
    P u ∧ ∃ l, ¬ P l ∧ u - l = (up - lo) / 2 ^ (log.countP Event.isQuery) ∧
      (info.status = .smallenough → u - l < 2 * o.tol) := by
  have key := bsearch_rule
    (I := fun _ log l u => P u ∧ ¬ P l ∧ u - l = (up - lo) / 2 ^ (log.countP Event.isQuery))
    ⟨hup, hlo, by simp⟩ ?_ h
  · obtain ⟨k, l, ⟨h1, h2, h3⟩, -, hc⟩ := key
    refine ⟨h1, l, h2, h3, fun hst => ?_⟩
    rcases hc with ⟨-, -, -, h⟩ | ⟨h, -⟩
    · linarith
    · rw [hst] at h; simp at h
  · rintro k log l u w w1 b ⟨h1, h2, h3⟩ hn hq
    have hb := hP _ _ _ _ hq
    simp only [id_eq] at hb ⊢
    have hc : List.countP Event.isQuery (log ++ [Event.query w (l + (u - l) / 2) b w1]) =
        List.countP Event.isQuery log + 1 := by simp [Event.isQuery]
    rw [hc, pow_succ, ← div_div, ← h3]
    cases b with
    | true =>
      refine ⟨by simpa using hb, by simpa using h2, ?_⟩
      simp
    | false =>
      refine ⟨by simpa using h1, by simpa using hb, ?_⟩
      simp only [Bool.false_eq_true, ↓reduceIte]; ring

/-- C11 (monotone predicates): on exit `smallenough` no point more than `2 * tol` below the result
satisfies the predicate: `u` is the threshold up to `2 * tol`. -/
theorem C11_bsearch_monotone (P : α → Prop) (hmono : ∀ a b, a ≤ b → P a → P b)
    (hP : ∀ t w w' b, Ω t w = .ok (w', b) → (b = true ↔ P t)) (hlo : ¬ P lo) (hup : P up)
    (h : bsearch (logBs Ω) id lo up o (w, []) = .ok ((w', log), u, info)) :
    P u ∧ ∀ x, P x → u - x < (up - lo) / 2 ^ (log.countP Event.isQuery) ∧
      (info.status = .smallenough → u - x < 2 * o.tol) := by
  obtain ⟨h1, l, h2, h3, h4⟩ := C11_bsearch_bracket P hP hlo hup h
  refine ⟨h1, fun x hx => ?_⟩
  have hlx : l < x := lt_of_not_ge fun hxl => h2 (hmono _ _ hxl hx)
  exact ⟨by linarith, fun hst => by have := h4 hst; linarith⟩

omit [IsStrictOrderedRing α] in
/-- C13.  `num_iters` is the number of evaluations on `smallenough` and one less than that when the
iteration limit is reached (then `max_it` evaluations were made); no other status occurs. -/
theorem C13_bsearch_count
    (h : bsearch (logBs Ω) conv lo up o (w, []) = .ok ((w', log), u, info)) :
    (info.feasible = true ↔ u ≠ up) ∧ (log.countP Event.isQuery : Int) ≤ o.maxIt ∧
    (info.status = .smallenough ∧ log.countP Event.isQuery = info.numIters ∧
        (info.numIters : Int) < o.maxIt ∨
     info.status = .success ∧ log.countP Event.isQuery = info.numIters + 1 ∧
        (info.numIters + 1 : Int) = o.maxIt) := by
  have key := bsearch_rule
    (I := fun k log _ _ => log.countP Event.isQuery = k) (by simp) ?_ h
  · obtain ⟨k, l, hI, hf, hc⟩ := key
    refine ⟨by simp [hf], ?_, ?_⟩
    · rcases hc with ⟨-, -, h, -⟩ | ⟨-, -, h⟩ <;> omega
    · rcases hc with ⟨h1, h2, h3, -⟩ | ⟨h1, h2, h3⟩
      · exact .inl ⟨h1, by omega, by omega⟩
      · exact .inr ⟨h1, by omega, by omega⟩
  · rintro k log l u w w1 b rfl hn hq
    simp [Event.isQuery]

/-- The interval halves in every round, so `bsearch` stops with `smallenough` as soon as
`max_it` exceeds the number of halvings needed. -/
theorem C13_bsearch_terminates (n : Nat) (hn : (up - lo) / 2 ^ n < 2 * o.tol)
    (ho : (n : Int) < o.maxIt)
    (h : bsearch (logBs Ω) id lo up o (w, []) = .ok ((w', log), u, info)) :
    info.status = .smallenough ∧ info.numIters ≤ n := by
  have key := bsearch_rule
    (I := fun k _ l u => u - l = (up - lo) / 2 ^ k ∧ k ≤ n) ⟨by simp, by omega⟩ ?_ h
  · obtain ⟨k, l, ⟨hI, hk⟩, -, hc⟩ := key
    rcases hc with ⟨h1, h2, -, -⟩ | ⟨-, -, h3⟩
    · exact ⟨h1, by omega⟩
    · omega
  · rintro k log l u w w1 b ⟨h1, h2⟩ hnt hq
    refine ⟨?_, ?_⟩
    · rw [pow_succ, ← div_div, ← h1]
      cases b
      · simp only [Bool.false_eq_true, ↓reduceIte, id_eq]; ring
      · simp
    · by_contra hcon
      have hkn : k = n := by omega
      subst hkn
      rw [h1] at hnt
      apply hnt
      linarith

omit [IsStrictOrderedRing α] in
/-- The empty range raises. -/
theorem C13_bsearch_empty_range (Ω : α → W → Except PyErr (W × Bool)) (ho : o.maxIt ≤ 0) :
    bsearch Ω conv lo up o w = .error .unboundLocal := by
  have : o.maxIt.toNat = 0 := by omega
  simp [bsearch, forRange, this, forLoop, readVar]

omit [IsStrictOrderedRing α] in
/-- Recording is transparent. -/
theorem C11_C13_recording_transparent (Ω : α → W → Except PyErr (W × Bool)) (conv : α → α)
    (lo up : α) (o : Options α) (w : W) :
    (bsearch (logBs Ω) conv lo up o (w, [])).map (fun r => (r.1.1, r.2)) =
      bsearch Ω conv lo up o w := bsearch_log_transparent Ω conv lo up o w

end general

section integer
variable {W : Type _}

theorem pyInt_mid (l u : ℤ) :
    ∃ t : ℤ, pyInt ((l : ℚ) + ((u : ℚ) - l) / 2) = t ∧ 2 * t ≤ l + u + 1 ∧ l + u ≤ 2 * t + 1 := by
  unfold pyInt
  split_ifs
  · refine ⟨_, rfl, ?_, ?_⟩
    · have := Int.floor_le ((l : ℚ) + ((u : ℚ) - l) / 2)
      have h2 : (2 * ⌊(l : ℚ) + ((u : ℚ) - l) / 2⌋ : ℚ) ≤ ((l + u : ℤ) : ℚ) := by
        push_cast; linarith
      have h3 : 2 * ⌊(l : ℚ) + ((u : ℚ) - l) / 2⌋ ≤ l + u := by exact_mod_cast h2
      omega
    · have := Int.lt_floor_add_one ((l : ℚ) + ((u : ℚ) - l) / 2)
      have h2 : ((l + u : ℤ) : ℚ) < (2 * ⌊(l : ℚ) + ((u : ℚ) - l) / 2⌋ + 2 : ℚ) := by
        push_cast; linarith
      have h3 : l + u < 2 * ⌊(l : ℚ) + ((u : ℚ) - l) / 2⌋ + 2 := by exact_mod_cast h2
      omega
  · refine ⟨_, rfl, ?_, ?_⟩
    · have := Int.ceil_lt_add_one ((l : ℚ) + ((u : ℚ) - l) / 2)
      have h2 : (2 * ⌈(l : ℚ) + ((u : ℚ) - l) / 2⌉ : ℚ) < ((l + u : ℤ) : ℚ) + 2 := by
        push_cast; linarith
      have h3 : 2 * ⌈(l : ℚ) + ((u : ℚ) - l) / 2⌉ < l + u + 2 := by exact_mod_cast h2
      omega
    · have := Int.le_ceil ((l : ℚ) + ((u : ℚ) - l) / 2)
      have h2 : ((l + u : ℤ) : ℚ) ≤ (2 * ⌈(l : ℚ) + ((u : ℚ) - l) / 2⌉ : ℚ) := by
        push_cast; linarith
      have h3 : l + u ≤ 2 * ⌈(l : ℚ) + ((u : ℚ) - l) / 2⌉ := by exact_mod_cast h2
      omega

variable {Ω : ℚ → W → Except PyErr (W × Bool)} {lo up : ℤ} {u : ℚ} {o : Options ℚ} {w w' : W}
  {log : List (BsEvent W ℚ)} {info : CInfo}

/-- C12.  Integer search (`T = int`, `tol ≤ 1/2`): every evaluation is at an integer of the original
interval; the result is an integer on which the predicate holds; and if `2 ^ max_it` is at least the
width then the integer just below it fails, i.e. for a monotone predicate it is the least one. -/
theorem C12_bsearch_int (P : ℤ → Prop)
    (hP : ∀ (t : ℤ) w w' b, Ω t w = .ok (w', b) → (b = true ↔ P t)) (hlo : ¬ P lo) (hup : P up)
    (hle : lo < up) (htol : o.tol ≤ 1 / 2)
    (h : bsearch (logBs Ω) pyInt lo up o (w, []) = .ok ((w', log), u, info)) :
    (∀ w1 t b w2, Event.query w1 t b w2 ∈ log → ∃ z : ℤ, t = z ∧ lo ≤ z ∧ z ≤ up) ∧
    ∃ z : ℤ, u = z ∧ P z ∧ lo < z ∧ z ≤ up ∧
      (up - lo ≤ 2 ^ o.maxIt.toNat → ¬ P (z - 1) ∧
        ((∀ a b, a ≤ b → P a → P b) → ∀ a, P a → z ≤ a)) := by
  have key := bsearch_rule
    (I := fun k (log : List (BsEvent W ℚ)) (l u : ℚ) => ((∀ w1 (t : ℚ) b w2, Event.query w1 t b w2 ∈ log →
        ∃ z : ℤ, t = z ∧ lo ≤ z ∧ z ≤ up) ∧
      ∃ li ui : ℤ, l = li ∧ u = ui ∧ ¬ P li ∧ P ui ∧ lo ≤ li ∧ li < ui ∧ ui ≤ up ∧
        (∀ m : ℕ, k ≤ m → up - lo ≤ 2 ^ m → ui - li ≤ 2 ^ (m - k))) ∧ True)
    ⟨⟨by simp, lo, up, rfl, rfl, hlo, hup, le_rfl, hle, le_rfl, by simp⟩, trivial⟩ ?_ h
  · obtain ⟨k, l, ⟨⟨hq, li, ui, hl, hu, h1, h2, h3, h4, h5, hw⟩, hkm⟩, -, hc⟩ := key
    refine ⟨hq, ui, hu, h2, by omega, h5, fun hwid => ?_⟩
    have hkk : (k : Int) = o.maxIt := by
      rcases hc with ⟨-, -, -, h⟩ | ⟨-, -, h⟩
      · exfalso
        rw [hl, hu] at h
        have : (1 : ℚ) ≤ (ui : ℚ) - li := by exact_mod_cast (by omega : (1 : ℤ) ≤ ui - li)
        linarith
      · exact h
    have hk2 : k = o.maxIt.toNat := by omega
    have hw' := hw k le_rfl (by rw [hk2]; exact hwid)
    simp only [Nat.sub_self, pow_zero] at hw'
    have : li = ui - 1 := by omega
    refine ⟨this ▸ h1, fun hm a ha => ?_⟩
    by_contra hcon
    exact h1 (hm a li (by omega) ha)
  · rintro k log l u w w1 b ⟨⟨hq, li, ui, rfl, rfl, h1, h2, h3, h4, h5, hw⟩, -⟩ hn hqq
    obtain ⟨t, ht, ht1, ht2⟩ := pyInt_mid li ui
    rw [ht] at hqq ⊢
    have hb := hP _ _ _ _ hqq
    refine ⟨⟨?_, ?_⟩, trivial⟩
    · intro w1' t' b' w2' hm
      rcases List.mem_append.1 hm with hm | hm
      · exact hq _ _ _ _ hm
      · simp only [List.mem_singleton, Event.query.injEq] at hm
        exact ⟨t, hm.2.1, by omega, by omega⟩
    · have hpow : ∀ m : ℕ, k + 1 ≤ m → up - lo ≤ 2 ^ m →
          ui - li ≤ 2 * 2 ^ (m - (k + 1)) := by
        intro m hm hm2
        have := hw m (by omega) hm2
        rwa [show m - k = (m - (k + 1)) + 1 by omega, pow_succ, mul_comm] at this
      cases b with
      | true =>
        have hPt : P t := hb.1 rfl
        have hne : li ≠ t := fun he => h1 (he ▸ hPt)
        refine ⟨li, t, by simp, by simp, h1, hPt, h3, by omega, by omega, fun m hm hm2 => ?_⟩
        have := hpow m hm hm2
        have hp : (0 : ℤ) < 2 ^ (m - (k + 1)) := by positivity
        omega
      | false =>
        have hPt : ¬ P t := fun hp => by simpa using hb.2 hp
        have hne : ui ≠ t := fun he => hPt (he ▸ h2)
        refine ⟨t, ui, by simp, by simp, hPt, h2, by omega, by omega, h5, fun m hm hm2 => ?_⟩
        have := hpow m hm hm2
        have hp : (0 : ℤ) < 2 ^ (m - (k + 1)) := by positivity
        omega

end integer

/-! ### Non-vacuity -/

/-- A predicate oracle over ℚ: `t ≥ 1/3`. -/
def exOmega (t : ℚ) (w : Unit) : Except PyErr (Unit × Bool) := .ok (w, decide (1 / 3 ≤ t))

example : bsearch exOmega id 0 1 ⟨10, 1 / 10⟩ () = .ok ((), 3 / 8, ⟨true, 3, .smallenough⟩) := by
  with_unfolding_all rfl

/-- Exhaustion: four evaluations, reported as three. -/
example : bsearch exOmega pyInt (-5 : ℤ) (4 : ℤ) ⟨4, 1 / 100⟩ () =
    .ok ((), 1, ⟨true, 3, .success⟩) := by
  with_unfolding_all rfl

end Verif
