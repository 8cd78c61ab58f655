import Verif.Props.LowpassSolve
import Verif.Props.EllFloatMore
import Verif.Model.LowpassFloat
import Verif.Spec.LowpassFloatSpec
import Verif.Proofs.AnySpace

/-! # C122: `lowpass_oracle` in floating point -/
namespace Verif
open Matrix FloatSpec
variable {n : ℕ} {fl : ℝ → ℝ} {dot : (Fin n → ℝ) → (Fin n → ℝ) → ℝ} {u γ : ℝ}

/-- The error of one dot product with `x`. -/
def rowErr (γ : ℝ) (x a : Fin n → ℝ) : ℝ := γ * ∑ i, |a i * x i|

theorem rowErr_neg (γ : ℝ) (x a : Fin n → ℝ) : rowErr γ x (-a) = rowErr γ x a := by
  unfold rowErr
  simp only [Pi.neg_apply, neg_mul, abs_neg]

theorem rowErr_nonneg (hγ : 0 ≤ γ) (x a : Fin n → ℝ) : 0 ≤ rowErr γ x a :=
  mul_nonneg hγ (Finset.sum_nonneg fun _ _ => abs_nonneg _)

theorem passScanF_spec (fl : ℝ → ℝ) (dot : (Fin n → ℝ) → (Fin n → ℝ) → ℝ) (A : Band n) (L U : ℝ) (x : Fin n → ℝ) :
    ∀ ks : List ℕ, (∀ k ∈ ks, k < A.N) → ∃ r, passScanF fl dot A L U x ks = .ok r ∧
      (r = none → ∀ k ∈ ks, ∀ hk : k < A.N, L ≤ dot (A.row ⟨k, hk⟩) x ∧ dot (A.row ⟨k, hk⟩) x ≤ U) ∧
      ∀ k cut, r = some (k, cut) → ∃ hk : k < A.N,
        (U < dot (A.row ⟨k, hk⟩) x ∧ cut = (A.row ⟨k, hk⟩, .seq [fl (dot (A.row ⟨k, hk⟩) x - U), fl (dot (A.row ⟨k, hk⟩) x - L)])) ∨
        (dot (A.row ⟨k, hk⟩) x < L ∧
          cut = (-A.row ⟨k, hk⟩, .seq [fl (-dot (A.row ⟨k, hk⟩) x + L), fl (-dot (A.row ⟨k, hk⟩) x + U)]))
  | [], _ => ⟨none, rfl, by simp, by simp⟩
  | k :: ks, hks => by
    have hk : k < A.N := hks k (by simp)
    obtain ⟨r, h1, h2, h3⟩ := passScanF_spec fl dot A L U x ks fun j hj => hks j (by simp [hj])
    have hg : A.get k = .ok (A.row ⟨k, hk⟩) := dif_pos hk
    unfold passScanF
    simp only [hg]
    split_ifs with c1 c2
    · exact ⟨_, rfl, by simp, fun j cut h => by
        simp only [Option.some.injEq, Prod.mk.injEq] at h
        obtain ⟨rfl, rfl⟩ := h
        exact ⟨hk, .inl ⟨c1, rfl⟩⟩⟩
    · exact ⟨_, rfl, by simp, fun j cut h => by
        simp only [Option.some.injEq, Prod.mk.injEq] at h
        obtain ⟨rfl, rfl⟩ := h
        exact ⟨hk, .inr ⟨c2, rfl⟩⟩⟩
    · refine ⟨r, h1, fun hr j hj hjN => ?_, h3⟩
      rcases List.mem_cons.1 hj with rfl | hj
      · exact ⟨not_lt.1 c2, not_lt.1 c1⟩
      · exact h2 hr j hj hjN

theorem nonnegScanF_spec (dot : (Fin n → ℝ) → (Fin n → ℝ) → ℝ) (A : Band n) (x : Fin n → ℝ) :
    ∀ ks : List ℕ, (∀ k ∈ ks, k < A.N) → ∃ r, nonnegScanF dot A x ks = .ok r ∧
      (r = none → ∀ k ∈ ks, ∀ hk : k < A.N, 0 ≤ dot (A.row ⟨k, hk⟩) x) ∧
      ∀ k cut, r = some (k, cut) → ∃ hk : k < A.N, dot (A.row ⟨k, hk⟩) x < 0 ∧
        cut = (-A.row ⟨k, hk⟩, .scalar (-dot (A.row ⟨k, hk⟩) x))
  | [], _ => ⟨none, rfl, by simp, by simp⟩
  | k :: ks, hks => by
    have hk : k < A.N := hks k (by simp)
    obtain ⟨r, h1, h2, h3⟩ := nonnegScanF_spec dot A x ks fun j hj => hks j (by simp [hj])
    have hg : A.get k = .ok (A.row ⟨k, hk⟩) := dif_pos hk
    unfold nonnegScanF
    simp only [hg]
    split_ifs with c1
    · exact ⟨_, rfl, by simp, fun j cut h => by
        simp only [Option.some.injEq, Prod.mk.injEq] at h
        obtain ⟨rfl, rfl⟩ := h
        exact ⟨hk, c1, rfl⟩⟩
    · refine ⟨r, h1, fun hr j hj hjN => ?_, h3⟩
      rcases List.mem_cons.1 hj with rfl | hj
      · exact not_lt.1 c1
      · exact h2 hr j hj hjN

theorem stopScanF_spec (fl : ℝ → ℝ) (dot : (Fin n → ℝ) → (Fin n → ℝ) → ℝ) (A : Band n) (S : ℝ) (x : Fin n → ℝ) :
    ∀ (ks : List ℕ) (fmax : WithBot ℝ) (imax : ℕ), (∀ k ∈ ks, k < A.N) → ∃ r, stopScanF fl dot A S x fmax imax ks = .ok r ∧
      (∀ f i, r = .inr (f, i) → fmax ≤ f ∧
        (∀ k ∈ ks, ∀ hk : k < A.N, 0 ≤ dot (A.row ⟨k, hk⟩) x ∧ dot (A.row ⟨k, hk⟩) x ≤ S ∧
          ((dot (A.row ⟨k, hk⟩) x : ℝ) : WithBot ℝ) ≤ f) ∧
        ((f = fmax ∧ i = imax) ∨ ∃ hi : i < A.N, f = ((dot (A.row ⟨i, hi⟩) x : ℝ) : WithBot ℝ) ∧ dot (A.row ⟨i, hi⟩) x ≤ S)) ∧
      ∀ k cut, r = .inl (k, cut) → ∃ hk : k < A.N,
        (S < dot (A.row ⟨k, hk⟩) x ∧ cut = (A.row ⟨k, hk⟩, .seq [fl (dot (A.row ⟨k, hk⟩) x - S), dot (A.row ⟨k, hk⟩) x])) ∨
        (dot (A.row ⟨k, hk⟩) x < 0 ∧ cut = (-A.row ⟨k, hk⟩, .seq [-dot (A.row ⟨k, hk⟩) x, fl (-dot (A.row ⟨k, hk⟩) x + S)]))
  | [], fmax, imax, _ => ⟨.inr (fmax, imax), rfl, fun f i h => by
      simp only [Sum.inr.injEq, Prod.mk.injEq] at h
      obtain ⟨rfl, rfl⟩ := h
      exact ⟨le_rfl, by simp, .inl ⟨rfl, rfl⟩⟩, by simp⟩
  | k :: ks, fmax, imax, hks => by
    have hk : k < A.N := hks k (by simp)
    have hg : A.get k = .ok (A.row ⟨k, hk⟩) := dif_pos hk
    unfold stopScanF
    simp only [hg]
    split_ifs with c1 c2 c3
    · exact ⟨_, rfl, by simp, fun j cut h => by
        simp only [Sum.inl.injEq, Prod.mk.injEq] at h
        obtain ⟨rfl, rfl⟩ := h
        exact ⟨hk, .inl ⟨c1, rfl⟩⟩⟩
    · exact ⟨_, rfl, by simp, fun j cut h => by
        simp only [Sum.inl.injEq, Prod.mk.injEq] at h
        obtain ⟨rfl, rfl⟩ := h
        exact ⟨hk, .inr ⟨c2, rfl⟩⟩⟩
    · obtain ⟨r, h1, h2, h3⟩ := stopScanF_spec fl dot A S x ks ((dot (A.row ⟨k, hk⟩) x : ℝ) : WithBot ℝ) k
        fun j hj => hks j (by simp [hj])
      refine ⟨r, h1, fun f i hr => ?_, h3⟩
      obtain ⟨h4, h5, h6⟩ := h2 f i hr
      refine ⟨c3.le.trans h4, fun j hj hjN => ?_, ?_⟩
      · rcases List.mem_cons.1 hj with rfl | hj
        · exact ⟨not_lt.1 c2, not_lt.1 c1, h4⟩
        · exact h5 j hj hjN
      · rcases h6 with ⟨rfl, rfl⟩ | h6
        · exact .inr ⟨hk, rfl, not_lt.1 c1⟩
        · exact .inr h6
    · obtain ⟨r, h1, h2, h3⟩ := stopScanF_spec fl dot A S x ks fmax imax fun j hj => hks j (by simp [hj])
      refine ⟨r, h1, fun f i hr => ?_, h3⟩
      obtain ⟨h4, h5, h6⟩ := h2 f i hr
      refine ⟨h4, fun j hj hjN => ?_, h6⟩
      rcases List.mem_cons.1 hj with rfl | hj
      · exact ⟨not_lt.1 c2, not_lt.1 c1, (not_lt.1 c3).trans h4⟩
      · exact h5 j hj hjN

/-- A rounded positive number is positive, and the error is at most `2u` times the result. -/
theorem fl_err_result (hfl : RelErr u fl) (hu : u ≤ 1 / 2) {w : ℝ} (hw : 0 ≤ w) :
    |fl w - w| ≤ 2 * u * fl w ∧ w ≤ 2 * fl w := by
  have h1 := hfl w
  rw [abs_of_nonneg hw] at h1
  have h2 := abs_le.1 h1
  have h3 : u * w ≤ 1 / 2 * w := mul_le_mul_of_nonneg_right hu hw
  have hu0 : 0 ≤ u ∨ w = 0 := by
    rcases hw.eq_or_lt with h | h
    · exact .inr h.symm
    · left
      by_contra hc
      have := mul_neg_of_neg_of_pos (not_le.1 hc) h
      linarith [abs_nonneg (fl w - w)]
  have h4 : w ≤ 2 * fl w := by linarith
  refine ⟨h1.trans ?_, h4⟩
  rcases hu0 with h | h
  · have := mul_le_mul_of_nonneg_left h4 h
    linarith
  · subst h
    have : fl 0 = 0 := by
      simp only [mul_zero, sub_zero] at h1
      exact abs_eq_zero.1 (le_antisymm h1 (abs_nonneg _))
    rw [this]; simp

section Call
variable [NeZero n]

/-- **C122** (one call).  `lowpass_oracle` with rounding, whatever the counters are: dot products accurate to
`e(a) = γ Σ |aᵢ xᵢ|` and differences to a relative `u`.
* A value `s` is reported only if `x` meets the specification at level `s` up to `e`, `0 ≤ s ≤ Spsq`, and `s` is the largest
  stopband response up to `e`.
* If `x` meets the specification at level `Spsq` with room `e`, a value is reported.
* Every cut holds, on both sides, up to `e(g)` and a relative `2u`, for every `z` that meets the specification at the level
  after the call, and if `z` meets it with room `δ`, the cut holds with room `δ` less these errors; a cut without a value is deep (`0 < β₀`); its vector is a
  row of the specification. -/
theorem C122_lowpass {o : Lowpass n} (hI : o.Inv) (hLU : o.Lpsq ≤ o.Upsq) (hN : 0 < o.As.N) (x : Fin n → ℝ) {S : ℝ} (hS : 0 ≤ S)
    (hfl : RelErr u fl) (hu0 : 0 ≤ u) (hu : u ≤ 1 / 2) (hγ : 0 ≤ γ) (hdot : VecDotErr γ dot) :
    ∃ o' cut t1, Lowpass.callF fl dot x S o = .ok (o', cut, t1) ∧ o'.Inv ∧ o.SameData o' ∧
      (∀ s, t1 = some s → 0 ≤ s ∧ s ≤ S ∧ MeetsSpecUpTo (rowErr γ x) o.Ap.row o.As.row o.Anr.row o.Lpsq o.Upsq s x ∧
        (∃ k, |o.As.row k ⬝ᵥ x - s| ≤ rowErr γ x (o.As.row k) ∧ cut = (o.As.row k, .seq [0, s]))) ∧
      (MeetsSpecUpTo (fun a => -rowErr γ x a) o.Ap.row o.As.row o.Anr.row o.Lpsq o.Upsq S x → t1 ≠ none) ∧
      (t1 = none → (∃ b, cut.2 = .scalar b ∧ 0 < b) ∨ ∃ b0 b1, cut.2 = .seq [b0, b1] ∧ 0 < b0) ∧
      SpecRow o.Ap.row o.As.row o.Anr.row cut.1 ∧
      ∀ z δ, MeetsSpecBy o.Ap.row o.As.row o.Anr.row o.Lpsq o.Upsq (t1.getD S) δ z → NearCut (rowErr γ x cut.1 - δ) (2 * u) x cut z := by
  have hd : ∀ a, -rowErr γ x a ≤ dot a x - a ⬝ᵥ x ∧ dot a x - a ⬝ᵥ x ≤ rowErr γ x a := fun a => abs_le.1 (hdot a x)
  have he0 := rowErr_nonneg hγ x
  obtain ⟨r, p1, p2, p3⟩ := passScanF_spec fl dot o.Ap o.Lpsq o.Upsq x (scanOrder o.iAp o.Ap.N)
    fun k hk => (mem_scanOrder hI.ap).1 hk
  cases r with
  | some kc =>
    obtain ⟨k, cut⟩ := kc
    obtain ⟨hk, q⟩ := p3 k cut rfl
    have hda := hd (o.Ap.row ⟨k, hk⟩)
    refine ⟨⟨true, o.iAnr, o.iAs, k + 1, o.Ap, o.As, o.Anr, o.Lpsq, o.Upsq⟩, cut, none, ?_, ⟨hk, hI.as, hI.anr⟩,
      ⟨rfl, rfl, rfl, rfl, rfl⟩, by simp, fun hm => ?_, fun _ => .inr ?_, ?_, fun z δ hz => ?_⟩
    · simp only [Lowpass.callF, p1]
    · have := hm.pass ⟨k, hk⟩
      rcases q with ⟨q, -⟩ | ⟨q, -⟩ <;> linarith [this.1, this.2, hda.1, hda.2]
    · rcases q with ⟨q, rfl⟩ | ⟨q, rfl⟩
      · exact ⟨_, _, rfl, by have := (fl_err_result hfl hu (sub_nonneg.2 q.le)).2; linarith⟩
      · exact ⟨_, _, rfl, by
          have := (fl_err_result hfl hu (w := -dot (o.Ap.row ⟨k, hk⟩) x + o.Lpsq) (by linarith)).2; linarith⟩
    · exact .inl ⟨⟨k, hk⟩, by rcases q with ⟨-, rfl⟩ | ⟨-, rfl⟩ <;> simp⟩
    · have hzk := hz.pass ⟨k, hk⟩
      rcases q with ⟨q, rfl⟩ | ⟨q, rfl⟩
      · have h1 := abs_le.1 (fl_err_result hfl hu (w := dot (o.Ap.row ⟨k, hk⟩) x - o.Upsq) (by linarith)).1
        have h2 := abs_le.1 (fl_err_result hfl hu (w := dot (o.Ap.row ⟨k, hk⟩) x - o.Lpsq) (by linarith)).1
        simp only [NearCut, dotProduct_sub]
        constructor <;> linarith [hzk.1, hzk.2, hda.1, hda.2]
      · have h1 := abs_le.1 (fl_err_result hfl hu (w := -dot (o.Ap.row ⟨k, hk⟩) x + o.Lpsq) (by linarith)).1
        have h2 := abs_le.1 (fl_err_result hfl hu (w := -dot (o.Ap.row ⟨k, hk⟩) x + o.Upsq) (by linarith)).1
        simp only [NearCut, dotProduct_sub, neg_dotProduct, rowErr_neg]
        constructor <;> linarith [hzk.1, hzk.2, hda.1, hda.2]
  | none =>
  have pall : ∀ k : Fin o.Ap.N, o.Lpsq ≤ dot (o.Ap.row k) x ∧ dot (o.Ap.row k) x ≤ o.Upsq := fun k =>
    p2 rfl k ((mem_scanOrder hI.ap).2 k.2) k.2
  obtain ⟨r, s1, s2, s3⟩ := stopScanF_spec fl dot o.As S x (scanOrder o.iAs o.As.N) ⊥ 0
    (fun k hk => (mem_scanOrder hI.as).1 hk)
  cases r with
  | inl kc =>
    obtain ⟨k, cut⟩ := kc
    obtain ⟨hk, q⟩ := s3 k cut rfl
    have hda := hd (o.As.row ⟨k, hk⟩)
    refine ⟨⟨true, o.iAnr, k + 1, o.iAp, o.Ap, o.As, o.Anr, o.Lpsq, o.Upsq⟩, cut, none, ?_, ⟨hI.ap, hk, hI.anr⟩,
      ⟨rfl, rfl, rfl, rfl, rfl⟩, by simp, fun hm => ?_, fun _ => .inr ?_, ?_, fun z δ hz => ?_⟩
    · simp only [Lowpass.callF, p1, s1]
    · have := hm.stop ⟨k, hk⟩
      rcases q with ⟨q, -⟩ | ⟨q, -⟩ <;> linarith [this.1, this.2, hda.1, hda.2]
    · rcases q with ⟨q, rfl⟩ | ⟨q, rfl⟩
      · exact ⟨_, _, rfl, by have := (fl_err_result hfl hu (sub_nonneg.2 q.le)).2; linarith⟩
      · exact ⟨_, _, rfl, by linarith⟩
    · exact .inr (.inl ⟨⟨k, hk⟩, by rcases q with ⟨-, rfl⟩ | ⟨-, rfl⟩ <;> simp⟩)
    · have hzk := hz.stop ⟨k, hk⟩
      simp only [Option.getD_none] at hzk
      rcases q with ⟨q, rfl⟩ | ⟨q, rfl⟩
      · have h1 := abs_le.1 (fl_err_result hfl hu (w := dot (o.As.row ⟨k, hk⟩) x - S) (by linarith)).1
        have h2 : 0 ≤ 2 * u * dot (o.As.row ⟨k, hk⟩) x := mul_nonneg (by linarith) (by linarith)
        simp only [NearCut, dotProduct_sub]
        constructor <;> linarith [hzk.1, hzk.2, hda.1, hda.2]
      · have h1 := abs_le.1 (fl_err_result hfl hu (w := -dot (o.As.row ⟨k, hk⟩) x + S) (by linarith)).1
        have h2 : 0 ≤ 2 * u * -dot (o.As.row ⟨k, hk⟩) x := mul_nonneg (by linarith) (by linarith)
        simp only [NearCut, dotProduct_sub, neg_dotProduct, rowErr_neg]
        constructor <;> linarith [hzk.1, hzk.2, hda.1, hda.2]
  | inr fi =>
  obtain ⟨fmax, imax⟩ := fi
  obtain ⟨-, s4, s5⟩ := s2 fmax imax rfl
  obtain ⟨r, t1, t2, t3⟩ := nonnegScanF_spec dot o.Anr x (scanOrder o.iAnr o.Anr.N)
    fun k hk => (mem_scanOrder hI.anr).1 hk
  cases r with
  | some kc =>
    obtain ⟨k, cut⟩ := kc
    obtain ⟨hk, q, rfl⟩ := t3 k cut rfl
    have hda := hd (o.Anr.row ⟨k, hk⟩)
    refine ⟨⟨true, k + 1, o.iAs, o.iAp, o.Ap, o.As, o.Anr, o.Lpsq, o.Upsq⟩,
      (-o.Anr.row ⟨k, hk⟩, .scalar (-dot (o.Anr.row ⟨k, hk⟩) x)), none, ?_, ⟨hI.ap, hI.as, hk⟩,
      ⟨rfl, rfl, rfl, rfl, rfl⟩, by simp, fun hm => ?_, fun _ => .inl ⟨_, rfl, by linarith⟩, .inr (.inr (.inl ⟨⟨k, hk⟩, rfl⟩)), fun z δ hz => ?_⟩
    · simp only [Lowpass.callF, p1, s1, t1]
    · have := hm.nonneg ⟨k, hk⟩
      linarith [hda.1, hda.2]
    · have hzk := hz.nonneg ⟨k, hk⟩
      simp only [NearCut, dotProduct_sub, neg_dotProduct, rowErr_neg]
      linarith [hda.1, hda.2]
  | none =>
  have nall : ∀ k : Fin o.Anr.N, 0 ≤ dot (o.Anr.row k) x := fun k => t2 rfl k ((mem_scanOrder hI.anr).2 k.2) k.2
  have hcall : Lowpass.callF fl dot x S o =
      Lowpass.finish ⟨true, o.iAnr, o.iAs, o.iAp, o.Ap, o.As, o.Anr, o.Lpsq, o.Upsq⟩ x fmax imax := by
    simp only [Lowpass.callF, p1, s1, t1]
  by_cases hx0 : x 0 < 0
  · refine ⟨⟨false, o.iAnr, o.iAs, o.iAp, o.Ap, o.As, o.Anr, o.Lpsq, o.Upsq⟩, (fun i => if i = 0 then -1 else 0, .scalar (-x 0)), none,
      ?_, ⟨hI.ap, hI.as, hI.anr⟩, ⟨rfl, rfl, rfl, rfl, rfl⟩, by simp, fun hm => absurd hm.first (not_le.2 hx0),
      fun _ => .inl ⟨_, rfl, by linarith⟩, .inr (.inr (.inr rfl)), fun z δ hz => ?_⟩
    · rw [hcall]; exact if_pos hx0
    · have := hz.first
      have h1 := he0 fun i => if i = 0 then -1 else 0
      simp only [NearCut, dotProduct, ite_mul, zero_mul, Finset.sum_ite_eq', Finset.mem_univ, if_true, Pi.sub_apply]
      linarith
  · rcases s5 with ⟨rfl, rfl⟩ | ⟨hi, hf, hle⟩
    · have := (s4 0 ((mem_scanOrder hI.as).2 hN) hN).2.2
      simp at this
    · have hda := hd (o.As.row ⟨imax, hi⟩)
      have hi0 := (s4 imax ((mem_scanOrder hI.as).2 hi) hi).1
      refine ⟨⟨false, o.iAnr, o.iAs, o.iAp, o.Ap, o.As, o.Anr, o.Lpsq, o.Upsq⟩,
        (o.As.row ⟨imax, hi⟩, .seq [0, dot (o.As.row ⟨imax, hi⟩) x]), some (dot (o.As.row ⟨imax, hi⟩) x), ?_,
        ⟨hI.ap, hI.as, hI.anr⟩, ⟨rfl, rfl, rfl, rfl, rfl⟩, fun s hs => ?_, by simp, by simp, .inr (.inl ⟨⟨imax, hi⟩, .inl rfl⟩), fun z δ hz => ?_⟩
      · rw [hcall]
        have hg : o.As.get imax = .ok (o.As.row ⟨imax, hi⟩) := dif_pos hi
        refine (if_neg hx0).trans ?_
        subst hf
        simp only [hg]
      · rw [Option.some.injEq] at hs
        subst hs
        refine ⟨hi0, hle, ⟨fun k => ?_, fun k => ?_, fun k => ?_, not_lt.1 hx0⟩, ⟨imax, hi⟩, ?_, rfl⟩
        · have h1 := hd (o.Ap.row k); have h2 := pall k
          constructor <;> linarith [h1.1, h1.2, h2.1, h2.2]
        · have h1 := hd (o.As.row k)
          obtain ⟨h2, -, h3⟩ := s4 k ((mem_scanOrder hI.as).2 k.2) k.2
          rw [hf, WithBot.coe_le_coe] at h3
          constructor <;> linarith [h1.1, h1.2]
        · have h1 := hd (o.Anr.row k); have h2 := nall k
          linarith [h1.1, h1.2]
        · rw [abs_sub_comm]; exact abs_le.2 hda
      · have := hz.stop ⟨imax, hi⟩
        simp only [Option.getD_some] at this
        have h2 : 0 ≤ 2 * u * dot (o.As.row ⟨imax, hi⟩) x := mul_nonneg (by linarith) hi0
        simp only [NearCut, dotProduct_sub]
        constructor <;> linarith [this.1, this.2, hda.1, hda.2]

/-- **C122** (exactness): without rounding this is the exact model, so C48-C50 are the case `γ = u = 0`. -/
theorem C122_exact (x : Fin n → ℝ) (S : ℝ) (o : Lowpass n) : Lowpass.callF id (fun a x => a ⬝ᵥ x) x S o = Lowpass.call x S o := by
  have h1 : ∀ (A : Band n) L U ks, passScanF id (fun a x => a ⬝ᵥ x) A L U x ks = passScan A L U x ks := by
    intro A L U ks
    induction ks with
    | nil => rfl
    | cons k ks ih => unfold passScanF passScan; simp only [ih, id]; rfl
  have h2 : ∀ (A : Band n) ks f i, stopScanF id (fun a x => a ⬝ᵥ x) A S x f i ks = stopScan A S x f i ks := by
    intro A ks
    induction ks with
    | nil => intro f i; rfl
    | cons k ks ih => intro f i; unfold stopScanF stopScan; simp only [ih, id]; rfl
  have h3 : ∀ (A : Band n) ks, nonnegScanF (fun a x => a ⬝ᵥ x) A x ks = nonnegScan A x ks := by
    intro A ks
    induction ks with
    | nil => rfl
    | cons k ks ih => unfold nonnegScanF nonnegScan; simp only [ih]; rfl
  unfold Lowpass.callF Lowpass.call Lowpass.call2 Lowpass.call3
  simp only [h1, h2, h3]
  rfl

/-- **C122** (whole run).  `cutting_plane_dc(lowpass_oracle(...), S, t0)` with rounding, on any search space object: either no
design was found and `t` is what the caller passed, or the design returned meets the specification at the level returned up to
`e(a) = γ Σ |aᵢ xᵢ|` on every row, and the level is no worse than `t0` and is the response of some stopband row up to `e`. -/
theorem C122_run {V : Type _} {o₀ o : Lowpass n} (hI : o₀.Inv) (hLU : o₀.Lpsq ≤ o₀.Upsq) (hN : 0 < o₀.As.N) (hfl : RelErr u fl)
    (hu0 : 0 ≤ u) (hu : u ≤ 1 / 2) (hγ : 0 ≤ γ) (hdot : VecDotErr γ dot) {S : Space V (Fin n → ℝ) (LpCut n) ℝ} {opt : Options ℝ}
    {t0 t : ℝ} (ht0 : 0 ≤ t0) {v₀ v : V} {xb : Option (Fin n → ℝ)} {info : CInfo}
    (h : cuttingPlaneDc (fun x t => liftOracle (Lowpass.callF fl dot x t)) (S.beside _) t0 opt (o₀, v₀) =
      .ok ((o, v), xb, t, info)) :
    (xb = none ∧ t = t0) ∨ ∃ x, xb = some x ∧ 0 ≤ t ∧ t ≤ t0 ∧
      MeetsSpecUpTo (rowErr γ x) o₀.Ap.row o₀.As.row o₀.Anr.row o₀.Lpsq o₀.Upsq t x ∧
      ∃ k, |o₀.As.row k ⬝ᵥ x - t| ≤ rowErr γ x (o₀.As.row k) := by
  have hstep : ∀ x t (w : Lowpass n) w' c t1, (w.Inv ∧ o₀.SameData w) → (0 ≤ t ∧ t ≤ t0) →
      Lowpass.callF fl dot x t w = .ok (w', c, t1) → (w'.Inv ∧ o₀.SameData w') ∧
      ∀ s, t1 = some s → 0 ≤ s ∧ s ≤ t ∧ MeetsSpecUpTo (rowErr γ x) o₀.Ap.row o₀.As.row o₀.Anr.row o₀.Lpsq o₀.Upsq s x ∧
        ∃ k, |o₀.As.row k ⬝ᵥ x - s| ≤ rowErr γ x (o₀.As.row k) := by
    rintro x t w w' c t1 ⟨hw, e1, e2, e3, e4, e5⟩ ⟨ht, -⟩ hq
    obtain ⟨o', c', t1', h1, h2, ⟨d1, d2, d3, d4, d5⟩, h4, -⟩ :=
      C122_lowpass hw (by rw [e4, e5]; exact hLU) (by rw [e2]; exact hN) x ht hfl hu0 hu hγ hdot
    rw [hq] at h1
    simp only [Except.ok.injEq, Prod.mk.injEq] at h1
    obtain ⟨rfl, rfl, rfl⟩ := h1
    obtain ⟨mA, i1, i2, i3, Ap, As, Anr, L, U⟩ := w
    obtain rfl := e1; obtain rfl := e2; obtain rfl := e3; obtain rfl := e4; obtain rfl := e5
    refine ⟨⟨h2, d1, d2, d3, d4, d5⟩, fun s hs => ?_⟩
    obtain ⟨a, b, c, k, d, -⟩ := h4 s hs
    exact ⟨a, b, c, k, d⟩
  obtain ⟨-, -, h3⟩ := dc_any (Ω := fun x t => Lowpass.callF fl dot x t) (I := fun w => w.Inv ∧ o₀.SameData w)
    (P := fun t => 0 ≤ t ∧ t ≤ t0) (fun x t w w' a hw ht ha => (hstep x t w w' a.1 a.2 hw ht ha).1)
    (fun x t w w' c t' hw ht ha => by
      obtain ⟨a, b, -⟩ := (hstep x t w w' c _ hw ht ha).2 t' rfl
      exact ⟨a, b.trans ht.2⟩) ⟨hI, .refl _⟩ ⟨ht0, le_rfl⟩ h
  rcases h3 with h3 | ⟨x, s, w1, w2, c, h4, h5, h6, h7⟩
  · exact .inl h3
  · obtain ⟨a, b, c, d⟩ := (hstep x s w1 w2 c _ h5 h6 h7).2 t rfl
    exact .inr ⟨x, h4, a, b.trans h6.2, c, d⟩



end Call

/-! ### Non-vacuity: a design accepted in double precision, and one cut -/

/-- `exLp` at `(3/2, 1/2)`: a value is reported; at `(0, 0)` the passband row is cut. -/
example {fl : ℝ → ℝ} (hfl : Nearest 53 fl) :
    (∃ o' cut s, Lowpass.callF fl (Ell.vecDot fl) ![3 / 2, 1 / 2] 2 exLp = .ok (o', cut, some s) ∧ s ≤ 2) ∧
    ∃ o' cut, Lowpass.callF fl (Ell.vecDot fl) ![0, 0] 2 exLp = .ok (o', cut, none) := by
  have hdot : VecDotErr (n := 2) ((1 + 1 / 2 ^ 53) ^ 3 - 1) (Ell.vecDot fl) := vecDot_err hfl.relErr (by norm_num)
  constructor
  · obtain ⟨o', cut, t1, h1, -, -, h4, h5, -⟩ := C122_lowpass exLp_inv (by norm_num [exLp]) (by simp [exLp]) ![3 / 2, 1 / 2]
      (S := 2) (by norm_num) hfl.relErr (by norm_num) (by norm_num) (by norm_num) hdot
    have h6 := h5 ⟨fun k => by
        revert k; simp only [exLp]; intro k; fin_cases k; norm_num [rowErr, Fin.sum_univ_two],
      fun k => by revert k; simp only [exLp]; intro k; fin_cases k <;> norm_num [rowErr, Fin.sum_univ_two],
      fun k => by revert k; simp only [exLp]; intro k; fin_cases k; norm_num [rowErr, Fin.sum_univ_two], by norm_num⟩
    obtain ⟨s, rfl⟩ := Option.ne_none_iff_exists'.1 h6
    exact ⟨o', cut, s, h1, (h4 s rfl).2.1⟩
  · obtain ⟨o', cut, t1, h1, -, -, h4, -⟩ := C122_lowpass exLp_inv (by norm_num [exLp]) (by simp [exLp]) ![0, 0]
      (S := 2) (by norm_num) hfl.relErr (by norm_num) (by norm_num) (by norm_num) hdot
    rcases t1 with _ | s
    · exact ⟨o', cut, h1⟩
    · have := ((h4 s rfl).2.2.1.pass (0 : Fin 1)).1
      norm_num [exLp, rowErr, Fin.sum_univ_two] at this

end Verif
