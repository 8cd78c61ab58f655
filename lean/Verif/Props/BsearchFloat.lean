import Verif.Proofs.BsearchFloat
import Verif.Props.Bsearch

/-!
# C113: `bsearch` under floating-point rounding

`fl` is any rounding to a nearest number with `p` significant bits (`ieee 53` is the double format).
-/
namespace Verif
open FloatSpec

section float
variable {W : Type _} {p : ℕ} {fl : ℚ → ℚ} {Ω : ℚ → W → Except PyErr (W × Bool)} {lo up u : ℚ} {o : Options ℚ} {w w' : W}
  {log : List (BsEvent W ℚ)} {info : CInfo}

/-- C113.  With floats the search keeps the guarantees of C11: every evaluation is at a representable number of the interval, the result is
accepted, the other end of the final bracket is rejected, the bracket is halved up to rounding, and `smallenough` means that it is narrower
than `2 tol`. -/
theorem C113_float_bracket (hfl : Nearest p fl) (hp : 1 ≤ p) (hrl : Rep p lo) (hru : Rep p up) (hle : lo < up) (P : ℚ → Prop)
    (hP : ∀ t w w' b, Rep p t → Ω t w = .ok (w', b) → (b = true ↔ P t)) (hlo : ¬ P lo) (hup : P up)
    (h : bsearchF (tauF fl) (midF fl) (logBs Ω) lo up o (w, []) = .ok ((w', log), u, info)) :
    (∀ w1 t b w2, Event.query w1 t b w2 ∈ log → Rep p t ∧ lo ≤ t ∧ t ≤ up) ∧
    P u ∧ Rep p u ∧ ∃ l, Rep p l ∧ ¬ P l ∧ lo ≤ l ∧ l < u ∧ u ≤ up ∧
      u - l ≤ ((1 + 1 / 2 ^ p) / 2) ^ (log.countP Event.isQuery) * (up - lo) + 2 * max |lo| |up| / (2 ^ p - 1) ∧
      (Rep p o.tol → info.status = .smallenough → u - l < 2 * o.tol) := by
  have h2p : (2 : ℚ) ≤ 2 ^ p := by
    calc (2 : ℚ) = 2 ^ 1 := by norm_num
      _ ≤ 2 ^ p := pow_le_pow_right₀ (by norm_num) hp
  set M := max |lo| |up| with hM
  have hM0 : 0 ≤ M := (abs_nonneg _).trans (le_max_left _ _)
  have key := bsearchF_rule
    (I := fun _ log l u => (∀ w1 t b w2, Event.query w1 t b w2 ∈ log → Rep p t ∧ lo ≤ t ∧ t ≤ up) ∧
      P u ∧ Rep p u ∧ Rep p l ∧ ¬ P l ∧ lo ≤ l ∧ l < u ∧ u ≤ up ∧
      u - l ≤ ((1 + 1 / 2 ^ p) / 2) ^ (log.countP Event.isQuery) * (up - lo) + 2 * M / (2 ^ p - 1))
    ⟨by simp, hup, hru, hrl, hlo, le_rfl, hle, le_rfl, by
      have : 0 ≤ 2 * M / (2 ^ p - 1) := div_nonneg (by linarith) (by linarith)
      simpa using this⟩ ?_ h
  · obtain ⟨k, l, ⟨h0, h1, h2, h3, h4, h5, h6, h7, h8⟩, -, hc⟩ := key
    refine ⟨h0, h1, h2, l, h3, h4, h5, h6, h7, h8, fun ht hst => ?_⟩
    rcases hc with ⟨-, -, -, h⟩ | ⟨h, -⟩
    · exact tauF_small hfl ht h
    · rw [hst] at h; simp at h
  · rintro k log l u w w1 b ⟨h0, h1, h2, h3, h4, h5, h6, h7, h8⟩ hn hq
    obtain ⟨b1, b2⟩ := midF_bounds hfl h3 h2 h6.le
    have hlM : |l| ≤ M := by
      rw [abs_le]
      constructor
      · have := (neg_abs_le lo); have := le_max_left |lo| |up|; linarith
      · have := (le_abs_self up); have := le_max_right |lo| |up|; linarith
    have huM : |u| ≤ M := by
      rw [abs_le]
      constructor
      · have := (neg_abs_le lo); have := le_max_left |lo| |up|; linarith
      · have := (le_abs_self up); have := le_max_right |lo| |up|; linarith
    obtain ⟨n1, n2⟩ := midF_near hfl h6.le hlM huM
    set t := midF fl l (tauF fl u l) with ht
    have hrt : Rep p t := hfl.rep _
    have hb := hP _ _ _ _ hrt hq
    have hcnt : List.countP Event.isQuery (log ++ [Event.query w t b w1]) = List.countP Event.isQuery log + 1 := by
      simp [Event.isQuery]
    have hstep : (1 + 1 / 2 ^ p) / 2 * (u - l) + M / 2 ^ p ≤
        ((1 + 1 / 2 ^ p) / 2) ^ (log.countP Event.isQuery + 1) * (up - lo) + 2 * M / (2 ^ p - 1) := by
      have hq0 : (0 : ℚ) ≤ (1 + 1 / 2 ^ p) / 2 := by positivity
      have e1 := mul_le_mul_of_nonneg_left h8 hq0
      have e2 : (1 + 1 / 2 ^ p) / 2 * (2 * M / (2 ^ p - 1)) + M / 2 ^ p = 2 * M / (2 ^ p - 1) := by
        have : (2 : ℚ) ^ p - 1 ≠ 0 := by linarith
        field_simp
        ring
      rw [pow_succ]
      linarith
    refine ⟨?_, ?_⟩
    · intro w1' t' b' w2' hm
      rcases List.mem_append.1 hm with hm | hm
      · exact h0 _ _ _ _ hm
      · simp only [List.mem_singleton, Event.query.injEq] at hm
        obtain ⟨-, rfl, -⟩ := hm
        exact ⟨hrt, by linarith, by linarith⟩
    · rw [hcnt]
      cases b with
      | true =>
        have hPt : P t := hb.1 rfl
        have hne : l ≠ t := fun (he : l = t) => h4 (he ▸ hPt)
        exact ⟨hPt, hrt, h3, h4, h5, lt_of_le_of_ne b1 hne, by simpa using b2.trans h7, by simpa using n1.trans hstep⟩
      | false =>
        have hPt : ¬ P t := fun hp => by simpa using hb.2 hp
        have hne : t ≠ u := fun (he : t = u) => hPt (he ▸ h1)
        exact ⟨h1, h2, hrt, hPt, h5.trans b1, lt_of_le_of_ne b2 hne, h7, by simpa using n2.trans hstep⟩

/-- C113.  A tolerance above the rounding error of the larger end is reached, in the number of rounds that exact halving would need up to
rounding. -/
theorem C113_float_terminates (hfl : Nearest p fl) (hp : 1 ≤ p) (hrl : Rep p lo) (hru : Rep p up) (hle : lo ≤ up) (n : ℕ)
    (hn : (1 + 1 / 2 ^ p) * (((1 + 1 / 2 ^ p) / 2) ^ n * (up - lo) + 2 * max |lo| |up| / (2 ^ p - 1)) < 2 * o.tol) (ho : (n : ℤ) < o.maxIt)
    (h : bsearchF (tauF fl) (midF fl) (logBs Ω) lo up o (w, []) = .ok ((w', log), u, info)) :
    info.status = .smallenough ∧ info.numIters ≤ n := by
  have h2p : (2 : ℚ) ≤ 2 ^ p := by
    calc (2 : ℚ) = 2 ^ 1 := by norm_num
      _ ≤ 2 ^ p := pow_le_pow_right₀ (by norm_num) hp
  set M := max |lo| |up| with hM
  have hM0 : 0 ≤ M := (abs_nonneg _).trans (le_max_left _ _)
  -- a bracket after `n` rounds is small enough
  have hfin : ∀ l u, l ≤ u → u - l ≤ ((1 + 1 / 2 ^ p) / 2) ^ n * (up - lo) + 2 * M / (2 ^ p - 1) → tauF fl u l < o.tol := by
    intro l u hlu hw
    rw [tauF_eq hfl]
    have h1 := hfl.err (u - l)
    rw [abs_of_nonneg (by linarith : 0 ≤ u - l), abs_le] at h1
    have h2 : (1 + 1 / 2 ^ p) * (u - l) ≤ (1 + 1 / 2 ^ p) * (((1 + 1 / 2 ^ p) / 2) ^ n * (up - lo) + 2 * M / (2 ^ p - 1)) :=
      mul_le_mul_of_nonneg_left hw (by positivity)
    have h3 : (1 + 1 / 2 ^ p) * (u - l) = (u - l) + (u - l) / 2 ^ p := by ring
    linarith
  have key := bsearchF_rule
    (I := fun k _ l u => Rep p u ∧ Rep p l ∧ lo ≤ l ∧ l ≤ u ∧ u ≤ up ∧ k ≤ n ∧
      u - l ≤ ((1 + 1 / 2 ^ p) / 2) ^ k * (up - lo) + 2 * M / (2 ^ p - 1))
    ⟨hru, hrl, le_rfl, hle, le_rfl, by omega, by
      have : 0 ≤ 2 * M / (2 ^ p - 1) := div_nonneg (by linarith) (by linarith)
      simpa using this⟩ ?_ h
  · obtain ⟨k, l, ⟨-, -, -, -, -, hk, -⟩, -, hc⟩ := key
    rcases hc with ⟨c1, c2, -, -⟩ | ⟨-, -, c3⟩
    · exact ⟨c1, by omega⟩
    · omega
  · rintro k log l u w w1 b ⟨h2, h3, h5, h6, h7, hk, h8⟩ hnt hq
    obtain ⟨b1, b2⟩ := midF_bounds hfl h3 h2 h6
    have hlM : |l| ≤ M := by
      rw [abs_le]
      constructor
      · have := (neg_abs_le lo); have := le_max_left |lo| |up|; linarith
      · have := (le_abs_self up); have := le_max_right |lo| |up|; linarith
    have huM : |u| ≤ M := by
      rw [abs_le]
      constructor
      · have := (neg_abs_le lo); have := le_max_left |lo| |up|; linarith
      · have := (le_abs_self up); have := le_max_right |lo| |up|; linarith
    obtain ⟨n1, n2⟩ := midF_near hfl h6 hlM huM
    have hkn : k < n := by
      by_contra hc
      obtain rfl : k = n := by omega
      exact hnt (hfin l u h6 h8)
    set t := midF fl l (tauF fl u l) with ht
    have hrt : Rep p t := hfl.rep _
    have hstep : (1 + 1 / 2 ^ p) / 2 * (u - l) + M / 2 ^ p ≤ ((1 + 1 / 2 ^ p) / 2) ^ (k + 1) * (up - lo) + 2 * M / (2 ^ p - 1) := by
      have hq0 : (0 : ℚ) ≤ (1 + 1 / 2 ^ p) / 2 := by positivity
      have e1 := mul_le_mul_of_nonneg_left h8 hq0
      have e2 : (1 + 1 / 2 ^ p) / 2 * (2 * M / (2 ^ p - 1)) + M / 2 ^ p = 2 * M / (2 ^ p - 1) := by
        have : (2 : ℚ) ^ p - 1 ≠ 0 := by linarith
        field_simp
        ring
      rw [pow_succ]
      linarith
    cases b with
    | true => exact ⟨hrt, h3, h5, b1, b2.trans h7, by omega, n1.trans hstep⟩
    | false => exact ⟨h2, hrt, h5.trans b1, b2, h7, by omega, n2.trans hstep⟩

/-- C113.  The search stops moving only when no number is left in the bracket: if some representable number lies strictly between the ends,
the next point does too; if none does, the next point is one of the ends. -/
theorem C113_float_progress (hfl : Nearest p fl) (hp : 3 ≤ p) {l u : ℚ} (hl : Rep p l) (hu : Rep p u) (h : l < u) :
    ((∃ r, Rep p r ∧ l < r ∧ r < u) ↔ l < midF fl l (tauF fl u l) ∧ midF fl l (tauF fl u l) < u) ∧
    ((¬ ∃ r, Rep p r ∧ l < r ∧ r < u) → midF fl l (tauF fl u l) = l ∨ midF fl l (tauF fl u l) = u) := by
  refine ⟨⟨fun ⟨r, h1, h2, h3⟩ => midF_strict hfl hp hl hu h1 h2 h3, fun ⟨h1, h2⟩ => ⟨_, hfl.rep _, h1, h2⟩⟩, fun hno => ?_⟩
  obtain ⟨h1, h2⟩ := midF_bounds hfl hl hu h.le
  by_contra hc
  push Not at hc
  exact hno ⟨_, hfl.rep _, lt_of_le_of_ne h1 (Ne.symm hc.1), lt_of_le_of_ne h2 hc.2⟩

/-- C113.  A tolerance below the spacing of the floats at the lower end is never reached: the search evaluates the oracle `max_it` times and
reports `success`. -/
theorem C113_float_never_small (hfl : Nearest p fl) (hp : 1 ≤ p) (hrl : Rep p lo) (hru : Rep p up) (hle : lo < up) (h0 : 0 < lo)
    (htol : 2 * o.tol ≤ lo / 2 ^ p) (P : ℚ → Prop)
    (hP : ∀ t w w' b, Rep p t → Ω t w = .ok (w', b) → (b = true ↔ P t)) (hlo : ¬ P lo) (hup : P up)
    (h : bsearchF (tauF fl) (midF fl) (logBs Ω) lo up o (w, []) = .ok ((w', log), u, info)) :
    info.status = .success ∧ (log.countP Event.isQuery : ℤ) = o.maxIt ∧ (info.numIters : ℤ) = o.maxIt - 1 := by
  have key := bsearchF_rule
    (I := fun k log l u => P u ∧ Rep p u ∧ Rep p l ∧ ¬ P l ∧ lo ≤ l ∧ l < u ∧ log.countP Event.isQuery = k)
    ⟨hup, hru, hrl, hlo, le_rfl, hle, by simp⟩ ?_ h
  · obtain ⟨k, l, ⟨h1, h2, h3, h4, h5, h6, h7⟩, -, hc⟩ := key
    rcases hc with ⟨-, -, -, h⟩ | ⟨c1, c2, c3⟩
    · exfalso
      have := tauF_lower hfl hp h3 h2 (h0.trans_le h5) h6
      have h8 : lo / 2 ^ p ≤ l / 2 ^ p := div_le_div_of_nonneg_right h5 (by positivity)
      linarith
    · exact ⟨c1, by omega, by omega⟩
  · rintro k log l u w w1 b ⟨h1, h2, h3, h4, h5, h6, h7⟩ hn hq
    obtain ⟨b1, b2⟩ := midF_bounds hfl h3 h2 h6.le
    set t := midF fl l (tauF fl u l) with ht
    have hrt : Rep p t := hfl.rep _
    have hb := hP _ _ _ _ hrt hq
    have hcnt : List.countP Event.isQuery (log ++ [Event.query w t b w1]) = k + 1 := by
      simp [Event.isQuery, h7]
    cases b with
    | true =>
      have hPt : P t := hb.1 rfl
      exact ⟨hPt, hrt, h3, h4, h5, lt_of_le_of_ne b1 fun (he : l = t) => h4 (he ▸ hPt), hcnt⟩
    | false =>
      have hPt : ¬ P t := fun hp => by simpa using hb.2 hp
      exact ⟨h1, h2, hrt, hPt, h5.trans b1, lt_of_le_of_ne b2 fun (he : t = u) => hPt (he ▸ h1), hcnt⟩

/-- C113.  For a monotone predicate on a positive interval, a search of at least `n + p + 1` rounds, where `(7/8) ^ n up ≤ 2 lo`, returns the
least representable number that is accepted. -/
theorem C113_float_least (hfl : Nearest p fl) (hp : 4 ≤ p) (hrl : Rep p lo) (hru : Rep p up) (hle : lo < up) (h0 : 0 < lo) (P : ℚ → Prop)
    (hmono : ∀ a b, a ≤ b → P a → P b)
    (hP : ∀ t w w' b, Rep p t → Ω t w = .ok (w', b) → (b = true ↔ P t)) (hlo : ¬ P lo) (hup : P up)
    (h : bsearchF (tauF fl) (midF fl) (logBs Ω) lo up o (w, []) = .ok ((w', log), u, info))
    (n : ℕ) (hn : (7 / 8) ^ n * up ≤ 2 * lo) (hk : n + p + 1 ≤ log.countP Event.isQuery) :
    P u ∧ Rep p u ∧ ∀ x, Rep p x → P x → u ≤ x := by
  have h16 : (16 : ℚ) ≤ 2 ^ p := by
    calc (16 : ℚ) = 2 ^ 4 := by norm_num
      _ ≤ 2 ^ p := pow_le_pow_right₀ (by norm_num) hp
  -- entering the phase in which the ends are within a factor of two
  have enter : ∀ k l u, Rep p l → 0 < l → l < u → u ≤ 2 * l → k ≤ n → ∃ (e : ℤ) (j : ℕ),
      j ≤ p ∧ k ≤ n + j ∧ u ≤ 2 * l ∧ (2 : ℚ) ^ p * 2 ^ e ≤ 2 * l ∧ u ≤ 2 ^ p * 2 ^ (e + 1) ∧ u - l < 2 * 2 ^ e + 2 ^ p * 2 ^ e / 2 ^ j := by
    intro k l u hl hl0 hlu hul hkn
    obtain ⟨e, e1, e2⟩ := binade p hl0.ne'
    rw [abs_of_pos hl0] at e1 e2
    have hE : (0 : ℚ) < 2 ^ e := zpow_pos two_pos _
    refine ⟨e, 0, by omega, by omega, hul, e1, ?_, ?_⟩
    · rw [zpow_add_one₀ two_ne_zero]; linarith
    · rw [pow_zero, div_one]; linarith
  have key := bsearchF_rule
    (I := fun k log l u => (P u ∧ Rep p u ∧ Rep p l ∧ ¬ P l ∧ lo ≤ l ∧ l < u ∧ log.countP Event.isQuery = k) ∧
      ((k ≤ n ∧ l = lo ∧ u ≤ (7 / 8) ^ k * up ∧ 2 * l < u) ∨
       (∃ (e : ℤ) (j : ℕ), j ≤ p ∧ k ≤ n + j ∧ u ≤ 2 * l ∧ (2 : ℚ) ^ p * 2 ^ e ≤ 2 * l ∧ u ≤ 2 ^ p * 2 ^ (e + 1) ∧
          u - l < 2 * 2 ^ e + 2 ^ p * 2 ^ e / 2 ^ j) ∨
       ¬ ∃ r, Rep p r ∧ l < r ∧ r < u))
    ⟨⟨hup, hru, hrl, hlo, le_rfl, hle, by simp⟩, ?_⟩ ?_ h
  · obtain ⟨k, l, ⟨⟨h1, h2, h3, h4, h5, h6, h7⟩, hph⟩, -, -⟩ := key
    rw [h7] at hk
    refine ⟨h1, h2, fun x hx hPx => ?_⟩
    rcases hph with ⟨hkn, -⟩ | ⟨e, j, hj, hkj, -⟩ | hno
    · omega
    · omega
    · by_contra hc
      push Not at hc
      exact hno ⟨x, hx, lt_of_not_ge fun hxl => h4 (hmono _ _ hxl hPx), hc⟩
  · rcases le_or_gt up (2 * lo) with hc | hc
    · exact .inr (.inl (enter 0 lo up hrl h0 hle hc (by omega)))
    · exact .inl ⟨by omega, rfl, by simp, hc⟩
  · rintro k log l u w w1 b ⟨⟨h1, h2, h3, h4, h5, h6, h7⟩, hph⟩ hnt hq
    obtain ⟨b1, b2⟩ := midF_bounds hfl h3 h2 h6.le
    have hl0 : 0 < l := h0.trans_le h5
    have hstr : ∀ r, Rep p r → l < r → r < u → l < midF fl l (tauF fl u l) ∧ midF fl l (tauF fl u l) < u :=
      fun r r1 r2 r3 => midF_strict hfl (by omega) h3 h2 r1 r2 r3
    have hteq : midF fl l (tauF fl u l) = fl (l + fl (u - l) / 2) := by rw [tauF_eq hfl]; rfl
    set t := midF fl l (tauF fl u l) with ht
    have hrt : Rep p t := hfl.rep _
    have hb := hP _ _ _ _ hrt hq
    have hcnt : List.countP Event.isQuery (log ++ [Event.query w t b w1]) = k + 1 := by
      simp [Event.isQuery, h7]
    -- the new bracket
    set l' := (if b then l else t) with hl'
    set u' := (if b then t else u) with hu'
    have hnew : P u' ∧ Rep p u' ∧ Rep p l' ∧ ¬ P l' ∧ l ≤ l' ∧ l' < u' ∧ u' ≤ u := by
      cases b with
      | true =>
        have hPt : P t := hb.1 rfl
        exact ⟨hPt, hrt, h3, h4, le_rfl, lt_of_le_of_ne b1 fun (he : l = t) => h4 (he ▸ hPt), b2⟩
      | false =>
        have hPt : ¬ P t := fun hp => by simpa using hb.2 hp
        exact ⟨h1, h2, hrt, hPt, b1, lt_of_le_of_ne b2 fun (he : t = u) => hPt (he ▸ h1), le_rfl⟩
    obtain ⟨n1, n2, n3, n4, n5, n6, n7⟩ := hnew
    refine ⟨⟨n1, n2, n3, n4, h5.trans n5, n6, hcnt⟩, ?_⟩
    rcases hph with ⟨hkn, hll, hu8, hlu⟩ | ⟨e, j, hj, hkj, hul, hle2, hue, hw⟩ | hno
    · -- far apart
      have hkn' : k < n := by
        by_contra hc
        obtain rfl : k = n := by omega
        rw [hll] at hlu
        linarith
      have hu0 : 0 < u := by linarith
      rcases le_or_gt u' (2 * l') with hc | hc
      · exact .inr (.inl (enter (k + 1) l' u' n3 (by linarith) n6 hc (by omega)))
      · left
        cases b with
        | false =>
          exfalso
          have c1 := hfl.sub_le h2 hl0
          have c2 := hfl.rounding.mono (show u / 2 ≤ l + fl (u - l) / 2 by linarith)
          rw [hfl.rounding.exact _ h2.half, ← hteq] at c2
          simp only [hl', hu', Bool.false_eq_true, if_false] at hc
          linarith
        | true =>
          refine ⟨by omega, by simpa [hl'] using hll, ?_, hc⟩
          simp only [hu', if_true]
          have c1 := hfl.err (u - l)
          rw [abs_of_pos (by linarith : 0 < u - l), abs_le] at c1
          have c2 : (u - l) / 2 ^ p ≤ (u - l) / 16 := div_le_div_of_nonneg_left (by linarith) (by norm_num) h16
          have c4 : 0 ≤ fl (u - l) := by
            have := hfl.rounding.mono (show 0 ≤ u - l by linarith)
            rwa [hfl.rounding.exact 0 rep_zero] at this
          have c3 := hfl.err (l + fl (u - l) / 2)
          have c5 : 0 ≤ l + fl (u - l) / 2 := by linarith
          rw [abs_of_nonneg c5, abs_le, ← hteq] at c3
          have c6 : (l + fl (u - l) / 2) / 2 ^ p ≤ (l + fl (u - l) / 2) / 16 := div_le_div_of_nonneg_left c5 (by norm_num) h16
          rw [pow_succ]
          linarith
    · -- within a factor of two
      have hE : (0 : ℚ) < 2 ^ e := zpow_pos two_pos _
      have hex : Rep p (u - l) := Rep.sub h3 h2 h6.le (by rw [abs_of_pos hl0]; linarith) (by rw [abs_of_pos (by linarith)]; linarith)
      have hm : t = fl ((l + u) / 2) := by
        rw [hteq, hfl.rounding.exact _ hex]; congr 1; ring
      have herr := hfl.abs_err (x := (l + u) / 2) (e := e + 1) (by rw [abs_of_pos (by linarith)]; linarith)
      rw [← hm, zpow_add_one₀ two_ne_zero] at herr
      have herr2 : |t - (l + u) / 2| ≤ 2 ^ e := by linarith
      rw [abs_le] at herr2
      rcases Nat.lt_or_ge j p with hjp | hjp
      · refine .inr (.inl ⟨e, j + 1, by omega, by omega, by linarith, by linarith, by linarith, ?_⟩)
        have hhalf : u' - l' ≤ (u - l) / 2 + 2 ^ e := by
          cases b <;> simp only [hl', hu', Bool.false_eq_true, if_false, if_true] <;> linarith
        have : (2 : ℚ) ^ p * 2 ^ e / 2 ^ (j + 1) = 2 ^ p * 2 ^ e / 2 ^ j / 2 := by rw [pow_succ, div_div]
        rw [this]
        linarith
      · obtain rfl : j = p := by omega
        right; right
        rintro ⟨r, r1, r2, r3⟩
        obtain ⟨a, ha⟩ := h3.multiple (by omega) (e := e) (by rwa [abs_of_pos hl0])
        obtain ⟨b', hb'⟩ := h2.multiple (by omega) (e := e) (by rw [abs_of_pos (by linarith)]; linarith)
        obtain ⟨c, hc⟩ := r1.multiple (by omega) (e := e) (by rw [abs_of_pos (by linarith)]; linarith)
        obtain ⟨d, hd⟩ := hrt.multiple (by omega) (e := e) (by rw [abs_of_pos (by linarith)]; linarith)
        obtain ⟨s1, s2⟩ := hstr r r1 (by linarith) (by linarith)
        have hw3 : u - l < 3 * 2 ^ e := by
          have : (2 : ℚ) ^ j * 2 ^ e / 2 ^ j = 2 ^ e := by field_simp
          rw [this] at hw
          linarith
        have q1 : b' - a < 3 := by
          have : ((b' : ℚ) - a) < 3 := by
            refine lt_of_mul_lt_mul_right (a := (2 : ℚ) ^ e) ?_ hE.le
            rw [sub_mul, ← ha, ← hb']; exact hw3
          exact_mod_cast this
        have q2 : a < d := by
          rw [ha, hd] at s1; exact_mod_cast lt_of_mul_lt_mul_right s1 hE.le
        have q3 : d < b' := by
          rw [hb', hd] at s2; exact_mod_cast lt_of_mul_lt_mul_right s2 hE.le
        cases b with
        | true =>
          simp only [hl', hu', if_true] at r2 r3
          rw [ha, hc] at r2
          rw [hd, hc] at r3
          have q4 : a < c := by exact_mod_cast lt_of_mul_lt_mul_right r2 hE.le
          have q5 : c < d := by exact_mod_cast lt_of_mul_lt_mul_right r3 hE.le
          omega
        | false =>
          simp only [hl', hu', Bool.false_eq_true, if_false] at r2 r3
          rw [hd, hc] at r2
          rw [hb', hc] at r3
          have q4 : d < c := by exact_mod_cast lt_of_mul_lt_mul_right r2 hE.le
          have q5 : c < b' := by exact_mod_cast lt_of_mul_lt_mul_right r3 hE.le
          omega
    · right; right
      rintro ⟨r, r1, r2, r3⟩
      exact hno ⟨r, r1, by linarith, by linarith⟩

end float

section int
variable {W : Type _} {p : ℕ} {fl : ℚ → ℚ} {Ω : ℚ → W → Except PyErr (W × Bool)} {lo up : ℤ} {o : Options ℚ} {w : W}

/-- C113.  Integer search goes through floats (`(upper - lower) / 2` is a float).  Up to `2 ^ (p - 1)` nothing is rounded, so C12 holds for
the code as it runs. -/
theorem C113_int_exact (hfl : Rounding p fl) (hp : 1 ≤ p) (h1 : |lo| ≤ 2 ^ (p - 1)) (h2 : |up| ≤ 2 ^ (p - 1)) (hle : lo ≤ up)
    (Ω : ℚ → W → Except PyErr (W × Bool)) (o : Options ℚ) (w : W) :
    bsearchF (tauI fl) (midI fl) Ω lo up o w = bsearch Ω pyInt lo up o w := by
  obtain ⟨q, rfl⟩ : ∃ q, p = q + 1 := ⟨p - 1, by omega⟩
  simp only [Nat.add_sub_cancel] at h1 h2
  have hpow : (2 : ℤ) ^ (q + 1) = 2 * 2 ^ q := by rw [pow_succ, mul_comm]
  have hq0 : (0 : ℤ) < 2 ^ q := by positivity
  have hb : ∀ i (s t : BsSt W ℚ), (s = t ∧ ∃ l u : ℤ, s.lower = l ∧ s.upper = u ∧ lo ≤ l ∧ l ≤ u ∧ u ≤ up) →
      RelE (RelStep fun (a b : BsSt W ℚ) => a = b ∧ ∃ l u : ℤ, a.lower = l ∧ a.upper = u ∧ lo ≤ l ∧ l ≤ u ∧ u ≤ up)
        (bsearchBodyF (tauI fl) (midI fl) Ω o.tol i s) (bsearchBody Ω pyInt o.tol i t) := by
    rintro i ⟨w, _, _, st⟩ _ ⟨rfl, l, u, rfl, rfl, g1, g2, g3⟩
    rw [abs_le] at h1 h2
    have e1 : tauI fl (u : ℚ) l = ((u : ℚ) - l) / 2 := by
      unfold tauI
      refine hfl.exact _ ⟨u - l, -1, ?_, by push_cast; rw [zpow_neg_one]; ring⟩
      rw [hpow, abs_le]; constructor <;> omega
    have e2 : midI fl (l : ℚ) (((u : ℚ) - l) / 2) = pyInt ((l : ℚ) + ((u : ℚ) - l) / 2) := by
      unfold midI
      rw [hfl.exact _ (rep_int (z := l) (by rw [hpow, abs_le]; constructor <;> omega))]
      rw [hfl.exact _ ⟨l + u, -1, ?_, by push_cast; rw [zpow_neg_one]; ring⟩]
      rw [hpow, abs_le]; constructor <;> omega
    obtain ⟨t, ht, t1, t2⟩ := pyInt_mid l u
    simp only [bsearchBodyF, bsearchBody, e1, e2]
    split_ifs
    · exact ⟨rfl, l, u, rfl, rfl, g1, g2, g3⟩
    · cases hq : Ω (pyInt ((l : ℚ) + ((u : ℚ) - l) / 2)) w with
      | error e => exact rfl
      | ok r =>
        obtain ⟨w1, b⟩ := r
        cases b
        · exact ⟨rfl, t, u, ht, rfl, by omega, by omega, g3⟩
        · exact ⟨rfl, l, t, rfl, ht, g1, by omega, by omega⟩
  have hsim := forLoop_sim _ hb o.maxIt.toNat 0 none ⟨w, lo, up, .success⟩ ⟨w, lo, up, .success⟩ ⟨rfl, lo, up, rfl, rfl, le_rfl, hle, le_rfl⟩
  unfold bsearchF bsearch forRange
  revert hsim
  cases forLoop (bsearchBodyF (tauI fl) (midI fl) Ω o.tol) o.maxIt.toNat 0 none ⟨w, lo, up, .success⟩ <;>
    cases forLoop (bsearchBody Ω pyInt o.tol) o.maxIt.toNat 0 none ⟨w, lo, up, .success⟩ <;> intro hsim
  · simp only [RelE] at hsim; subst hsim; rfl
  · exact hsim.elim
  · exact hsim.elim
  · rename_i a b
    obtain ⟨a1, a2⟩ := a
    obtain ⟨b1, b2⟩ := b
    obtain ⟨⟨h1, -⟩, h2⟩ := hsim
    simp only at h1 h2
    subst h1 h2
    rfl

/-- The predicate `t > 2 ^ p`. -/
def aboveOmega (p : ℕ) (t : ℚ) (w : Unit) : Except PyErr (Unit × Bool) := .ok (w, decide ((2 : ℚ) ^ p < t))

/-- C113 (defect).  Above `2 ^ p` the integer search goes wrong: on `[2 ^ p, 2 ^ p + 2]` with the predicate `t > 2 ^ p` it evaluates the
predicate at `2 ^ p` over and over and returns `2 ^ p + 2`, although `2 ^ p + 1` is accepted. -/
theorem C113_int_wrong (hp : 2 ≤ p) (ho : 0 < o.maxIt) (ht : o.tol ≤ 1) :
    bsearchF (tauI (ieee p)) (midI (ieee p)) (aboveOmega p) (2 ^ p : ℤ) (2 ^ p + 2 : ℤ) o () =
      .ok ((), (2 ^ p + 2 : ℤ), ⟨false, (o.maxIt - 1).toNat, .success⟩) ∧
    aboveOmega p ((2 ^ p + 1 : ℤ) : ℚ) () = .ok ((), true) := by
  refine ⟨?_, by simp [aboveOmega]⟩
  have hr := ieee_rounding (α := ℚ) (p := p) (by omega)
  have e1 : tauI (ieee p) ((2 ^ p + 2 : ℤ) : ℚ) ((2 ^ p : ℤ) : ℚ) = 1 := by
    unfold tauI
    have : (((2 ^ p + 2 : ℤ) : ℚ) - ((2 ^ p : ℤ) : ℚ)) / 2 = 1 := by push_cast; ring
    rw [this]
    exact hr.exact 1 (by simpa using rep_pow (p := p) 0)
  have e3 : ieee p ((2 : ℚ) ^ p + 1) = 2 ^ p := by
    obtain ⟨q, rfl⟩ : ∃ q, p = q + 2 := ⟨p - 2, by omega⟩
    have hpos : (0 : ℚ) < 2 ^ (q + 2) + 1 := by positivity
    have hlog : Int.log 2 |(2 : ℚ) ^ (q + 2) + 1| = (q + 2 : ℕ) := by
      rw [abs_of_pos hpos]
      refine le_antisymm ?_ ((Int.zpow_le_iff_le_log (by norm_num) hpos).1 ?_)
      · refine Int.lt_add_one_iff.1 ((Int.lt_zpow_iff_log_lt (by norm_num) hpos).1 ?_)
        have : ((2 : ℕ) : ℚ) ^ (((q + 2 : ℕ) : ℤ) + 1) = 2 * 2 ^ (q + 2) := by
          rw [zpow_add_one₀ (by norm_num), zpow_natCast]; push_cast; ring
        rw [this]
        have : (1 : ℚ) < 2 ^ (q + 2) := one_lt_pow₀ (by norm_num) (by omega)
        linarith
      · rw [zpow_natCast]; push_cast; linarith
    unfold ieee
    rw [if_neg hpos.ne']
    dsimp only
    rw [hlog, show ((q + 2 : ℕ) : ℤ) - (((q + 2 : ℕ) : ℤ) - 1) = 1 by omega, zpow_one]
    have hev : evenRound (((2 : ℚ) ^ (q + 2) + 1) / 2) = 2 ^ (q + 1) := by
      have hf : ⌊((2 : ℚ) ^ (q + 2) + 1) / 2⌋ = 2 ^ (q + 1) := by
        rw [Int.floor_eq_iff]
        push_cast
        constructor
        · rw [pow_succ 2 (q + 1)]; linarith
        · rw [pow_succ 2 (q + 1)]; linarith
      have hfr : Int.fract (((2 : ℚ) ^ (q + 2) + 1) / 2) = 1 / 2 := by
        unfold Int.fract
        rw [hf]
        push_cast
        rw [pow_succ 2 (q + 1)]
        ring
      unfold evenRound
      rw [hf, hfr, if_neg (lt_irrefl _), if_neg (lt_irrefl _), if_pos]
      exact ⟨2 ^ q, by rw [pow_succ]; ring⟩
    rw [hev]
    push_cast
    rw [pow_succ 2 (q + 1)]
  have e2 : midI (ieee p) ((2 ^ p : ℤ) : ℚ) 1 = ((2 ^ p : ℤ) : ℚ) := by
    unfold midI
    have h1 : ieee p ((2 ^ p : ℤ) : ℚ) = 2 ^ p := by
      rw [hr.exact _ (rep_int (by rw [abs_of_pos (by positivity)]))]; push_cast; rfl
    rw [h1, e3]
    unfold pyInt
    rw [if_pos (by positivity)]
    have : ((2 : ℚ) ^ p) = ((2 ^ p : ℤ) : ℚ) := by push_cast; rfl
    rw [this, Int.floor_intCast]
  have hbody : ∀ i, bsearchBodyF (tauI (ieee p)) (midI (ieee p)) (aboveOmega p) o.tol i
      ⟨(), ((2 ^ p : ℤ) : ℚ), ((2 ^ p + 2 : ℤ) : ℚ), .success⟩ = .ok (.cont ⟨(), ((2 ^ p : ℤ) : ℚ), ((2 ^ p + 2 : ℤ) : ℚ), .success⟩) := by
    intro i
    simp only [bsearchBodyF, e1, e2]
    rw [if_neg (not_lt.2 ht)]
    simp [aboveOmega]
  have hloop : ∀ r i last, forLoop (bsearchBodyF (tauI (ieee p)) (midI (ieee p)) (aboveOmega p) o.tol) (r + 1) i last
      ⟨(), ((2 ^ p : ℤ) : ℚ), ((2 ^ p + 2 : ℤ) : ℚ), .success⟩ =
      .ok (⟨(), ((2 ^ p : ℤ) : ℚ), ((2 ^ p + 2 : ℤ) : ℚ), .success⟩, some (i + r)) := by
    intro r
    induction r with
    | zero => intro i last; rw [forLoop, hbody]; rfl
    | succ r ih =>
      intro i last
      rw [forLoop, hbody]
      simp only [ih]
      congr 3; omega
  unfold bsearchF forRange
  obtain ⟨r, hr'⟩ : ∃ r, o.maxIt.toNat = r + 1 := ⟨o.maxIt.toNat - 1, by omega⟩
  rw [hr', hloop]
  have : (o.maxIt - 1).toNat = r := by omega
  simp [readVar, this]

end int

/-- A search whose oracle never raises returns. -/
theorem bsearchF_total {W : Type _} {half mid : ℚ → ℚ → ℚ} {Ω : ℚ → W → Except PyErr (W × Bool)} (hΩ : ∀ t w, ∃ w' b, Ω t w = .ok (w', b))
    (lo up : ℚ) (o : Options ℚ) (ho : 0 < o.maxIt) (w : W) : ∃ w' u info, bsearchF half mid Ω lo up o w = .ok (w', u, info) := by
  have hloop : ∀ r i last s, ∃ s' j, forLoop (bsearchBodyF half mid Ω o.tol) (r + 1) i last s = .ok (s', some j) := by
    intro r
    induction r with
    | zero =>
      intro i last s
      rw [forLoop]
      unfold bsearchBodyF
      dsimp only
      split_ifs
      · exact ⟨_, _, rfl⟩
      · obtain ⟨w', b, h⟩ := hΩ (mid s.lower (half s.upper s.lower)) s.w
        rw [h]
        cases b <;> exact ⟨_, _, rfl⟩
    | succ r ih =>
      intro i last s
      rw [forLoop]
      by_cases hc : half s.upper s.lower < o.tol
      · simp only [bsearchBodyF, if_pos hc]
        exact ⟨_, _, rfl⟩
      · obtain ⟨w', b, h⟩ := hΩ (mid s.lower (half s.upper s.lower)) s.w
        cases b <;> simp only [bsearchBodyF, if_neg hc, h] <;> exact ih _ _ _
  obtain ⟨s', j, h⟩ := hloop (o.maxIt.toNat - 1) 0 none ⟨w, lo, up, .success⟩
  rw [Nat.sub_add_cancel (by omega)] at h
  simp [bsearchF, forRange, h, readVar]

/-- Without rounding it is the search of C11. -/
example {W : Type _} (Ω : ℚ → W → Except PyErr (W × Bool)) (lo up : ℚ) (o : Options ℚ) (w : W) :
    bsearchF (tauF id) (midF id) Ω lo up o w = bsearch Ω id lo up o w := by
  have hb : bsearchBodyF (tauF id) (midF id) Ω o.tol = bsearchBody Ω id o.tol := by
    funext i s
    simp only [bsearchBodyF, bsearchBody, tauF, midF, id]
    by_cases hc : (s.upper - s.lower) / 2 < o.tol
    · rw [if_pos hc]; exact if_pos hc
    · rw [if_neg hc]
      refine Eq.trans (if_neg hc) ?_
      cases Ω (s.lower + (s.upper - s.lower) / 2) s.w with
      | error e => rfl
      | ok r => obtain ⟨w1, b⟩ := r; cases b <;> rfl
  unfold bsearchF bsearch
  rw [hb]
  cases forRange o.maxIt (bsearchBody Ω id o.tol) ⟨w, lo, up, .success⟩ with
  | error e => rfl
  | ok r => rfl

/-! ### Non-vacuity -/

/-- `t ≥ √2`. -/
def rootOmega (t : ℚ) (w : Unit) : Except PyErr (Unit × Bool) := .ok (w, decide (0 ≤ t ∧ 2 ≤ t * t))

theorem rootOmega_total : ∀ t w, ∃ w' b, logBs rootOmega t w = .ok (w', b) := by
  intro t w; exact ⟨_, _, rfl⟩

theorem rootOmega_answer : ∀ t w w' b, Rep 53 t → rootOmega t w = .ok (w', b) → (b = true ↔ 0 ≤ t ∧ 2 ≤ t * t) := by
  intro t w w' b _ h
  simp only [rootOmega, Except.ok.injEq, Prod.mk.injEq] at h
  rw [← h.2, decide_eq_true_iff]

/-- In double precision with tolerance 0, the search for `√2` on `[1, 2]` runs `max_it` rounds and returns the least double above `√2`. -/
example : ∃ w' log u info, bsearchF (tauF (ieee 53)) (midF (ieee 53)) (logBs rootOmega) 1 2 ⟨2000, 0⟩ ((), []) = .ok ((w', log), u, info) ∧
    info.status = .success ∧ 2 ≤ u * u ∧ ∀ x, Rep 53 x → 0 ≤ x → 2 ≤ x * x → u ≤ x := by
  obtain ⟨⟨w', log⟩, u, info, h⟩ := bsearchF_total (half := tauF (ieee 53)) (mid := midF (ieee 53)) rootOmega_total 1 2 ⟨2000, 0⟩ (by norm_num) ((), [])
  have hfl := ieee_nearest (α := ℚ) (p := 53) (by norm_num)
  have r1 : Rep 53 (1 : ℚ) := by simpa using rep_pow (α := ℚ) (p := 53) 0
  have r2 : Rep 53 (2 : ℚ) := by simpa using rep_pow (α := ℚ) (p := 53) 1
  obtain ⟨a1, a2, -⟩ := C113_float_never_small hfl (by norm_num) r1 r2 (by norm_num) (by norm_num) (by norm_num) _ rootOmega_answer
    (by norm_num) (by norm_num) h
  obtain ⟨b1, -, b3⟩ := C113_float_least hfl (by norm_num) r1 r2 (by norm_num) (by norm_num) (fun t => 0 ≤ t ∧ 2 ≤ t * t)
    (fun a b hab ha => ⟨ha.1.trans hab, ha.2.trans (mul_le_mul hab hab ha.1 (ha.1.trans hab))⟩) rootOmega_answer
    (by norm_num) (by norm_num) h 0 (by norm_num) (by simp only at a2; omega)
  exact ⟨w', log, u, info, h, a1, b1.2, fun x hx h0 h2 => b3 x hx ⟨h0, h2⟩⟩

/-- With the default options (`tol = 1e-8`, `max_it = 2000`) the same search stops after at most 27 rounds. -/
example : ∃ w' log u info, bsearchF (tauF (ieee 53)) (midF (ieee 53)) (logBs rootOmega) 1 2 ⟨2000, 1 / 10 ^ 8⟩ ((), []) = .ok ((w', log), u, info) ∧
    info.status = .smallenough ∧ info.numIters ≤ 27 := by
  obtain ⟨⟨w', log⟩, u, info, h⟩ := bsearchF_total (half := tauF (ieee 53)) (mid := midF (ieee 53)) rootOmega_total 1 2 ⟨2000, 1 / 10 ^ 8⟩ (by norm_num) ((), [])
  have hfl := ieee_nearest (α := ℚ) (p := 53) (by norm_num)
  have r1 : Rep 53 (1 : ℚ) := by simpa using rep_pow (α := ℚ) (p := 53) 0
  have r2 : Rep 53 (2 : ℚ) := by simpa using rep_pow (α := ℚ) (p := 53) 1
  exact ⟨w', log, u, info, h, C113_float_terminates hfl (by norm_num) r1 r2 (by norm_num) 27 (by norm_num) (by norm_num) h⟩

/-- With the default options a threshold between `2 ^ 28` and `2 ^ 29` is never resolved to the tolerance: all 2000 evaluations are made. -/
example : ∃ w' log u info, bsearchF (tauF (ieee 53)) (midF (ieee 53)) (logBs (aboveOmega 28)) (2 ^ 28) (2 ^ 29) ⟨2000, 1 / 10 ^ 8⟩ ((), []) =
    .ok ((w', log), u, info) ∧ info.status = .success ∧ log.countP Event.isQuery = 2000 := by
  obtain ⟨⟨w', log⟩, u, info, h⟩ := bsearchF_total (half := tauF (ieee 53)) (mid := midF (ieee 53)) (Ω := logBs (aboveOmega 28))
    (fun t w => ⟨_, _, rfl⟩) (2 ^ 28) (2 ^ 29) ⟨2000, 1 / 10 ^ 8⟩ (by norm_num) ((), [])
  have hfl := ieee_nearest (α := ℚ) (p := 53) (by norm_num)
  obtain ⟨a1, a2, -⟩ := C113_float_never_small hfl (by norm_num) (by exact_mod_cast rep_pow (α := ℚ) (p := 53) 28) (by exact_mod_cast rep_pow (α := ℚ) (p := 53) 29)
    (by norm_num) (by norm_num) (by norm_num) (fun t => (2 : ℚ) ^ 28 < t) (fun t w w' b _ h => by
      simp only [aboveOmega, Except.ok.injEq, Prod.mk.injEq] at h
      rw [← h.2, decide_eq_true_iff]) (by norm_num) (by norm_num) h
  exact ⟨w', log, u, info, h, a1, by simp only at a2; omega⟩

/-- `C113_int_wrong` in double precision. -/
example : bsearchF (tauI (ieee 53)) (midI (ieee 53)) (aboveOmega 53) (2 ^ 53 : ℤ) (2 ^ 53 + 2 : ℤ) ⟨2000, 1 / 10 ^ 8⟩ () =
    .ok ((), (2 ^ 53 + 2 : ℤ), ⟨false, 1999, .success⟩) :=
  (C113_int_wrong (p := 53) (o := ⟨2000, 1 / 10 ^ 8⟩) (by norm_num) (by norm_num) (by norm_num)).1

/-- `C113_int_exact` in double precision. -/
example : bsearchF (tauI (ieee 53)) (midI (ieee 53)) exOmega (-5 : ℤ) (4 : ℤ) ⟨4, 1 / 100⟩ () = .ok ((), 1, ⟨true, 3, .success⟩) := by
  rw [C113_int_exact (p := 53) (ieee_rounding (by norm_num)) (by norm_num) (by norm_num) (by norm_num) (by norm_num)]
  with_unfolding_all rfl

end Verif
