import Mathlib.Algebra.Order.Round
import Mathlib.Tactic.NormNum
import Verif.Model.BsearchFloat
import Verif.Proofs.Bsearch
import Verif.Proofs.Float

namespace Verif
namespace FloatSpec
variable {p : ℕ} {fl : ℚ → ℚ} {x l u : ℚ}

theorem Rep.half (h : Rep p x) : Rep p (x / 2) := by
  have := h.scale (-1)
  rwa [zpow_neg_one, ← div_eq_mul_inv] at this

/-- Differences of close numbers are exact (Sterbenz). -/
theorem Rep.sub (hl : Rep p l) (hu : Rep p u) (h0 : l ≤ u) (h1 : u - l ≤ |l|) (h2 : u - l ≤ |u|) : Rep p (u - l) := by
  obtain ⟨a, e, ha, rfl⟩ := hl
  obtain ⟨b, f, hb, rfl⟩ := hu
  have key : ∀ (z : ℤ) (g : ℤ) (c : ℤ), |c| ≤ 2 ^ p → 0 ≤ (z : ℚ) * 2 ^ g → (z : ℚ) * 2 ^ g ≤ |(c : ℚ) * 2 ^ g| → Rep p ((z : ℚ) * 2 ^ g) := by
    intro z g c hc h0 h
    have hE : (0 : ℚ) < 2 ^ g := zpow_pos two_pos _
    rw [abs_mul, abs_of_pos hE] at h
    have h3 := le_of_mul_le_mul_right h hE
    have h4 : z ≤ |c| := by exact_mod_cast h3
    have h5 : 0 ≤ (z : ℚ) := nonneg_of_mul_nonneg_left h0 hE
    have h6 : 0 ≤ z := by exact_mod_cast h5
    exact ⟨z, g, by rw [abs_of_nonneg h6]; omega, rfl⟩
  have hd : (0 : ℚ) ≤ (b : ℚ) * 2 ^ f - a * 2 ^ e := by linarith
  rcases le_total e f with h | h
  · obtain ⟨k, rfl⟩ := Int.le.dest h
    have e1 : (b : ℚ) * 2 ^ (e + (k : ℤ)) - a * 2 ^ e = ((b * 2 ^ k - a : ℤ) : ℚ) * 2 ^ e := by
      push_cast; rw [zpow_add₀ two_ne_zero, zpow_natCast]; ring
    rw [e1] at hd h1 ⊢
    exact key _ _ a ha hd h1
  · obtain ⟨k, rfl⟩ := Int.le.dest h
    have e1 : (b : ℚ) * 2 ^ f - a * 2 ^ (f + (k : ℤ)) = ((b - a * 2 ^ k : ℤ) : ℚ) * 2 ^ f := by
      push_cast; rw [zpow_add₀ two_ne_zero, zpow_natCast]; ring
    rw [e1] at hd h2 ⊢
    exact key _ _ b hb hd h2

/-! ### One round of the search -/

variable (hn : Nearest p fl)
include hn

theorem Nearest.rep (x : ℚ) : Rep p (fl x) := (hn x).1

theorem tauF_eq : tauF fl u l = fl (u - l) / 2 := hn.rounding.exact _ (hn.rep _).half

theorem Nearest.sub_le (hu : Rep p u) (h0 : 0 < l) : u - 2 * l ≤ fl (u - l) := by
  have h1 := (hn (u - l)).2 u hu
  have h2 := neg_abs_le (fl (u - l) - (u - l))
  rw [show u - (u - l) = l by ring, abs_of_pos h0] at h1
  linarith

/-- The half width and the next point of one round. -/
theorem midF_bounds (hl : Rep p l) (hu : Rep p u) (h : l ≤ u) :
    l ≤ midF fl l (tauF fl u l) ∧ midF fl l (tauF fl u l) ≤ u := by
  rw [tauF_eq hn]
  have hm := hn.rounding.mono
  have h0 : 0 ≤ fl (u - l) := by
    have := hm (show 0 ≤ u - l by linarith)
    rwa [hn.rounding.exact 0 rep_zero] at this
  have h1 : fl (u - l) ≤ 2 * (u - l) := by
    have := hn.err (u - l)
    rw [abs_of_nonneg (by linarith : 0 ≤ u - l)] at this
    have h2 : (u - l) / 2 ^ p ≤ (u - l) / 1 := div_le_div_of_nonneg_left (by linarith) one_pos (one_le_pow₀ (by norm_num))
    have := le_abs_self (fl (u - l) - (u - l))
    linarith
  unfold midF
  constructor
  · have := hm (show l ≤ l + fl (u - l) / 2 by linarith)
    rwa [hn.rounding.exact l hl] at this
  · have := hm (show l + fl (u - l) / 2 ≤ u by linarith)
    rwa [hn.rounding.exact u hu] at this

/-- The two parts of the bracket are at most half as wide, up to rounding. -/
theorem midF_near (h : l ≤ u) {M : ℚ} (hM : |l| ≤ M) (hM' : |u| ≤ M) :
    midF fl l (tauF fl u l) - l ≤ (1 + 1 / 2 ^ p) / 2 * (u - l) + M / 2 ^ p ∧
    u - midF fl l (tauF fl u l) ≤ (1 + 1 / 2 ^ p) / 2 * (u - l) + M / 2 ^ p := by
  rw [tauF_eq hn]
  unfold midF
  have hw : 0 ≤ u - l := by linarith
  have h1 := hn.err (u - l)
  rw [abs_of_nonneg hw, abs_le] at h1
  have h2 : (u - l) / 2 ^ p ≤ (u - l) / 1 := div_le_div_of_nonneg_left hw one_pos (one_le_pow₀ (by norm_num))
  have h3 := hn.err (l + fl (u - l) / 2)
  have h4 : |l + fl (u - l) / 2| ≤ M := by
    rw [abs_le] at hM hM' ⊢
    constructor <;> linarith
  have h5 : |l + fl (u - l) / 2| / 2 ^ p ≤ M / 2 ^ p := div_le_div_of_nonneg_right h4 (by positivity)
  rw [abs_le] at h3
  have e1 : (1 + 1 / 2 ^ p) / 2 * (u - l) = (u - l) / 2 + (u - l) / 2 ^ p / 2 := by ring
  rw [e1]
  constructor <;> linarith

/-- If any representable number lies strictly inside the bracket, so does the next point. -/
theorem midF_strict (hp : 3 ≤ p) (hl : Rep p l) (hu : Rep p u) {r : ℚ} (hr : Rep p r) (h1 : l < r) (h2 : r < u) :
    l < midF fl l (tauF fl u l) ∧ midF fl l (tauF fl u l) < u := by
  have hlu : l < u := h1.trans h2
  rw [tauF_eq hn]
  unfold midF
  by_cases hx : Rep p (u - l)
  · rw [hn.rounding.exact _ hx, show l + (u - l) / 2 = (l + u) / 2 by ring]
    have h3 := (hn ((l + u) / 2)).2 r hr
    have h4 : |r - (l + u) / 2| < (u - l) / 2 := by rw [abs_lt]; constructor <;> linarith
    have h5 := abs_lt.1 (h3.trans_lt h4)
    constructor <;> linarith
  · have h8 : (8 : ℚ) ≤ 2 ^ p := by
      calc (8 : ℚ) = 2 ^ 3 := by norm_num
        _ ≤ 2 ^ p := pow_le_pow_right₀ (by norm_num) hp
    have hw : 0 < u - l := by linarith
    have e1 := hn.err (u - l)
    rw [abs_of_pos hw, abs_le] at e1
    have b1 : (u - l) / 2 ^ p ≤ (u - l) / 8 := div_le_div_of_nonneg_left hw.le (by norm_num) h8
    have e2 := hn.err (l + fl (u - l) / 2)
    -- the width is more than one of the ends
    have h6 : |l| < u - l ∨ |u| < u - l := by
      by_contra hc
      push Not at hc
      exact hx (Rep.sub hl hu hlu.le hc.1 hc.2)
    have h7 : |l + fl (u - l) / 2| ≤ 2 * (u - l) := by
      rcases h6 with h | h <;> rw [abs_lt] at h <;> rw [abs_le] <;> constructor <;> linarith
    have b2 : |l + fl (u - l) / 2| / 2 ^ p ≤ 2 * (u - l) / 8 := by
      refine (div_le_div_of_nonneg_right h7 (by positivity)).trans ?_
      exact div_le_div_of_nonneg_left (by linarith) (by norm_num) h8
    rw [abs_le] at e2
    constructor <;> linarith

/-- Two different representable numbers are at least the spacing at the smaller one apart. -/
theorem tauF_lower (hp : 1 ≤ p) (hl : Rep p l) (hu : Rep p u) (h0 : 0 < l) (h : l < u) : l / 2 ^ p < 2 * tauF fl u l := by
  rw [tauF_eq hn]
  obtain ⟨e, h1, h2⟩ := binade p h0.ne'
  rw [abs_of_pos h0] at h1 h2
  obtain ⟨a, rfl⟩ := hl.multiple hp (e := e) (by rwa [abs_of_pos h0])
  obtain ⟨b, rfl⟩ := hu.multiple hp (e := e) (by rw [abs_of_pos (h0.trans h)]; linarith)
  have hE : (0 : ℚ) < 2 ^ e := zpow_pos two_pos _
  have h3 : (a : ℚ) < b := lt_of_mul_lt_mul_right h hE.le
  have h4 : (a : ℚ) + 1 ≤ b := by exact_mod_cast (by exact_mod_cast h3 : a < b)
  have h5 : (2 : ℚ) ^ e ≤ fl (b * 2 ^ e - a * 2 ^ e) := by
    have := hn.rounding.mono (show (2 : ℚ) ^ e ≤ b * 2 ^ e - a * 2 ^ e by nlinarith)
    rwa [hn.rounding.exact (2 ^ e) (rep_pow e)] at this
  have h6 : (a : ℚ) * 2 ^ e / 2 ^ p < 2 ^ e := by
    rw [div_lt_iff₀ (by positivity)]; linarith
  linarith

theorem tauF_small {tol : ℚ} (ht : Rep p tol) (h : tauF fl u l < tol) : u - l < 2 * tol := by
  rw [tauF_eq hn] at h
  by_contra hc
  push Not at hc
  have h1 := hn.rounding.mono hc
  have h2 : Rep p (2 * tol) := by
    have := ht.scale 1
    rwa [zpow_one, mul_comm] at this
  rw [hn.rounding.exact _ h2] at h1
  linarith

end FloatSpec

/-! ### The loop -/

variable {W : Type _} {half mid : ℚ → ℚ → ℚ}

theorem bsBodyF_ok {Ω : ℚ → W → Except PyErr (W × Bool)} {tol : ℚ} {i s r} (h : bsearchBodyF half mid Ω tol i s = .ok r) :
    (half s.upper s.lower < tol ∧ r = .brk { s with status := .smallenough }) ∨
    (¬ half s.upper s.lower < tol ∧ ∃ w1 b, Ω (mid s.lower (half s.upper s.lower)) s.w = .ok (w1, b) ∧
      r = .cont (if b then { s with w := w1, upper := mid s.lower (half s.upper s.lower) }
        else { s with w := w1, lower := mid s.lower (half s.upper s.lower) })) := by
  unfold bsearchBodyF at h
  dsimp only at h
  split_ifs at h with h1
  · exact .inl ⟨h1, by simpa using h.symm⟩
  · refine .inr ⟨h1, ?_⟩
    split at h
    · simp at h
    · rename_i w1 hq
      exact ⟨w1, true, hq, by simpa using h.symm⟩
    · rename_i w1 hq
      exact ⟨w1, false, hq, by simpa using h.symm⟩

theorem bsearchF_ok {Ω : ℚ → W → Except PyErr (W × Bool)} {lo up : ℚ} {o : Options ℚ}
    {w w' u info} (h : bsearchF half mid Ω lo up o w = .ok (w', u, info)) :
    ∃ s i, forRange o.maxIt (bsearchBodyF half mid Ω o.tol) ⟨w, lo, up, .success⟩ = .ok (s, some i) ∧
      w' = s.w ∧ u = s.upper ∧ info = ⟨decide (s.upper ≠ up), i, s.status⟩ := by
  unfold bsearchF at h
  split at h
  · simp at h
  · rename_i s last hf
    cases last with
    | none => simp [readVar] at h
    | some i =>
      simp only [readVar, Except.ok.injEq, Prod.mk.injEq] at h
      exact ⟨s, i, hf, h.1.symm, h.2.1.symm, h.2.2.symm⟩

/-- The invariant rule `bsearch_rule` for the rounded search. -/
theorem bsearchF_rule {Ω : ℚ → W → Except PyErr (W × Bool)} {lo up : ℚ} {o : Options ℚ}
    {w w' log u info} (I : Nat → List (BsEvent W ℚ) → ℚ → ℚ → Prop) (h0 : I 0 [] lo up)
    (hs : ∀ k log l u w w1 b, I k log l u → ¬ half u l < o.tol → Ω (mid l (half u l)) w = .ok (w1, b) →
      I (k + 1) (log ++ [.query w (mid l (half u l)) b w1]) (if b then l else mid l (half u l)) (if b then mid l (half u l) else u))
    (h : bsearchF half mid (logBs Ω) lo up o (w, []) = .ok ((w', log), u, info)) :
    ∃ k l, I k log l u ∧ info.feasible = decide (u ≠ up) ∧
      ((info.status = .smallenough ∧ info.numIters = k ∧ (k : Int) < o.maxIt ∧ half u l < o.tol) ∨
       (info.status = .success ∧ info.numIters + 1 = k ∧ (k : Int) = o.maxIt)) := by
  obtain ⟨s, i, hf, hw, rfl, rfl⟩ := bsearchF_ok h
  have key : ∀ {j s1}, Rounds (bsearchBodyF half mid (logBs Ω) o.tol) 0 ⟨(w, []), lo, up, .success⟩ j s1 →
      I j s1.w.2 s1.lower s1.upper ∧ s1.status = .success := by
    intro j s1 hr
    refine Rounds.inv (fun j s1 => I j s1.w.2 s1.lower s1.upper ∧ s1.status = .success)
      ⟨h0, rfl⟩ ?_ hr
    rintro j s s' ⟨hI, hst⟩ hb
    rcases bsBodyF_ok hb with ⟨_, he⟩ | ⟨hn, wl1, b, hq, he⟩
    · simp at he
    · simp only [Step.cont.injEq] at he
      obtain ⟨w1, hq', rfl⟩ := logCall_ok hq
      have := hs _ _ _ _ _ _ _ hI hn hq'
      subst he
      cases b <;> exact ⟨this, hst⟩
  have hlog : log = s.w.2 := by rw [← hw]
  subst hlog
  rcases forRange_ok hf with ⟨s1, hi, hr, hb⟩ | ⟨hi, hr⟩
  · obtain ⟨hI, hst⟩ := key hr
    rcases bsBodyF_ok hb with ⟨hn, he⟩ | ⟨_, wl1, b, hq, he⟩
    · simp only [Step.brk.injEq] at he
      subst he
      exact ⟨i, s1.lower, hI, rfl, .inl ⟨rfl, rfl, hi, hn⟩⟩
    · simp at he
  · obtain ⟨hI, hst⟩ := key hr
    exact ⟨i + 1, s.lower, hI, rfl, .inr ⟨hst, rfl, hi⟩⟩

end Verif
