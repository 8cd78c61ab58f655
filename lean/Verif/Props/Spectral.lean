import Mathlib.Analysis.SpecialFunctions.Trigonometric.Basic
import Mathlib.Algebra.BigOperators.Fin
import Mathlib.Algebra.BigOperators.Intervals
import Mathlib.Data.Fin.VecNotation
import Verif.Model.Spectral

/-! # C52: `inverse_spectral_fact` -/
namespace Verif
open Finset

/-- Extension of a vector by zero. -/
def zext {α : Type _} [Zero α] {n : ℕ} (h : Fin n → α) (i : ℕ) : α := if hi : i < n then h ⟨i, hi⟩ else 0

theorem list_sum_range {α : Type _} [AddCommMonoid α] (f : ℕ → α) (m : ℕ) :
    ((List.range m).map f).sum = ∑ i ∈ range m, f i := by
  induction m with
  | zero => simp
  | succ m ih => rw [List.range_succ, List.map_append, List.sum_append, ih, sum_range_succ]; simp

theorem lagDot_eq {α : Type _} [CommSemiring α] {n : ℕ} (h : Fin n → α) (t : ℕ) :
    lagDot (List.ofFn h) t = ∑ i ∈ range (n - t), zext h (i + t) * zext h i := by
  have : List.zipWith (· * ·) ((List.ofFn h).drop t) ((List.ofFn h).take ((List.ofFn h).length - t)) =
      (List.range (n - t)).map fun i => zext h (i + t) * zext h i := by
    apply List.ext_getElem
    · simp
    · intro i h1 h2
      simp only [List.length_map, List.length_range] at h2
      simp only [List.getElem_zipWith, List.getElem_drop, List.getElem_take, List.getElem_ofFn, List.getElem_map,
        List.getElem_range, zext]
      rw [dif_pos (by omega), dif_pos (by omega)]
      congr 2
      exact Fin.ext (by simp; omega)
  rw [lagDot, this, list_sum_range]

/-- **C52** (coefficients): `inverse_spectral_fact(h)[t] = Σ_k h[k+t] h[k]`, the autocorrelation of `h` at lag `t`. -/
theorem C52_inverse_spectral_fact {α : Type _} [CommSemiring α] {n : ℕ} (h : Fin n → α) (t : Fin n) :
    inverseSpectralFact h t = ∑ i : Fin n, if hi : i.val + t.val < n then h ⟨i.val + t.val, hi⟩ * h i else 0 := by
  rw [inverseSpectralFact, lagDot_eq]
  have e : ∑ i : Fin n, (if hi : i.val + t.val < n then h ⟨i.val + t.val, hi⟩ * h i else 0) =
      ∑ i ∈ range n, zext h (i + t) * zext h i := by
    rw [Finset.sum_range]
    refine sum_congr rfl fun i _ => ?_
    simp only [zext, i.2, dif_pos]
    split <;> simp
  rw [e]
  refine sum_subset (fun i hi => ?_) fun i _ hi => ?_
  · simp only [mem_range] at hi ⊢; omega
  · simp only [mem_range, not_lt] at hi
    rw [zext, dif_neg (by omega), zero_mul]

/-- Power spectrum identity for sequences. -/
theorem spectrum_seq (h : ℕ → ℝ) (w : ℝ) (n : ℕ) :
    (∑ i ∈ range n, h i * h i) + 2 * ∑ t ∈ range n, (if t = 0 then 0 else
        (∑ i ∈ range (n - t), h (i + t) * h i) * Real.cos (t * w)) =
      (∑ k ∈ range n, h k * Real.cos (k * w)) ^ 2 + (∑ k ∈ range n, h k * Real.sin (k * w)) ^ 2 := by
  induction n with
  | zero => simp
  | succ n ih =>
    have e1 : ∑ t ∈ range (n + 1), (if t = 0 then 0 else (∑ i ∈ range (n + 1 - t), h (i + t) * h i) * Real.cos (t * w)) =
        (∑ t ∈ range n, (if t = 0 then 0 else (∑ i ∈ range (n - t), h (i + t) * h i) * Real.cos (t * w))) +
        ∑ t ∈ range (n + 1), (if t = 0 then 0 else h n * h (n - t) * Real.cos (t * w)) := by
      rw [sum_range_succ, sum_range_succ _ n]
      rw [← add_assoc, ← sum_add_distrib]
      congr 1
      · refine sum_congr rfl fun t ht => ?_
        have ht := mem_range.1 ht
        split
        · simp
        · rw [show n + 1 - t = (n - t) + 1 by omega, sum_range_succ, show n - t + t = n by omega]; ring
      · split
        · rfl
        · rw [show n + 1 - n = 1 by omega, Nat.sub_self]; simp
    have e2 : ∑ t ∈ range (n + 1), (if t = 0 then 0 else h n * h (n - t) * Real.cos (t * w)) =
        ∑ k ∈ range n, h n * h k * Real.cos ((n - k : ℝ) * w) := by
      rw [sum_range_succ', if_pos rfl, add_zero]
      rw [← sum_range_reflect]
      refine sum_congr rfl fun k hk => ?_
      have hk := mem_range.1 hk
      rw [if_neg (by omega), show n - (n - 1 - k + 1) = k by omega]
      congr 3
      rw [show n - 1 - k + 1 = n - k by omega, Nat.cast_sub hk.le]
    have e3 : ∑ k ∈ range n, h n * h k * Real.cos ((n - k : ℝ) * w) =
        h n * Real.cos (n * w) * (∑ k ∈ range n, h k * Real.cos (k * w)) +
        h n * Real.sin (n * w) * (∑ k ∈ range n, h k * Real.sin (k * w)) := by
      rw [mul_sum, mul_sum, ← sum_add_distrib]
      refine sum_congr rfl fun k _ => ?_
      rw [sub_mul, Real.cos_sub]; ring
    rw [e1, e2, e3, sum_range_succ, sum_range_succ, sum_range_succ]
    have hcs := Real.sin_sq_add_cos_sq (n * w)
    linear_combination ih - h n ^ 2 * hcs

/-- The power spectrum `r[0] + 2 Σ_{t ≥ 1} r[t] cos(t w)` of autocorrelation coefficients. -/
noncomputable def powerSpectrum {n : ℕ} (r : Fin n → ℝ) (w : ℝ) : ℝ :=
  ∑ t : Fin n, (if t.val = 0 then 1 else 2 * Real.cos (t * w)) * r t

/-- **C52** (spectrum): the power spectrum of `inverse_spectral_fact(h)` is `|H(e^{jw})|²` for
`H = Σ_k h[k] e^{-jkw}`, at every frequency; in particular it is nonnegative. -/
theorem C52_power_spectrum {n : ℕ} (h : Fin n → ℝ) (w : ℝ) :
    powerSpectrum (inverseSpectralFact h) w =
      (∑ k : Fin n, h k * Real.cos (k * w)) ^ 2 + (∑ k : Fin n, h k * Real.sin (k * w)) ^ 2 := by
  have hs : ∀ f : ℝ → ℝ, ∑ k : Fin n, h k * f (k * w) = ∑ k ∈ range n, zext h k * f (k * w) := by
    intro f
    rw [Finset.sum_range]
    refine sum_congr rfl fun i _ => ?_
    simp [zext]
  rw [hs, hs, ← spectrum_seq, powerSpectrum]
  have e : ∑ t : Fin n, (if t.val = 0 then 1 else 2 * Real.cos (t * w)) * inverseSpectralFact h t =
      ∑ t ∈ range n, (if t = 0 then 1 else 2 * Real.cos (t * w)) * ∑ i ∈ range (n - t), zext h (i + t) * zext h i := by
    rw [Finset.sum_range]
    exact sum_congr rfl fun t _ => by rw [inverseSpectralFact, lagDot_eq]
  rw [e]
  rcases Nat.eq_zero_or_pos n with rfl | hn
  · simp
  have e4 : ∑ i ∈ range n, zext h i * zext h i =
      ∑ t ∈ range n, if t = 0 then ∑ i ∈ range (n - t), zext h (i + t) * zext h i else 0 := by
    rw [sum_ite_eq' (range n) 0 fun t => ∑ i ∈ range (n - t), zext h (i + t) * zext h i, if_pos (mem_range.2 hn)]; rfl
  rw [e4, mul_sum, ← sum_add_distrib]
  refine sum_congr rfl fun t _ => ?_
  split
  · simp
  · ring

/-- **C52** (spectrum, complex form): `|Σ_k h[k] e^{-jkw}|²`. -/
theorem C52_power_spectrum_norm {n : ℕ} (h : Fin n → ℝ) (w : ℝ) :
    powerSpectrum (inverseSpectralFact h) w = ‖∑ k : Fin n, (h k : ℂ) * Complex.exp (-(Complex.I * ((k * w : ℝ) : ℂ)))‖ ^ 2 ∧
    0 ≤ powerSpectrum (inverseSpectralFact h) w := by
  have e : powerSpectrum (inverseSpectralFact h) w = ‖∑ k : Fin n, (h k : ℂ) * Complex.exp (-(Complex.I * ((k * w : ℝ) : ℂ)))‖ ^ 2 := by
    rw [C52_power_spectrum, ← Complex.normSq_eq_norm_sq, Complex.normSq_apply]
    have hre : ∀ k : Fin n, ((h k : ℂ) * Complex.exp (-(Complex.I * ((k * w : ℝ) : ℂ)))).re = h k * Real.cos (k * w) := by
      intro k
      rw [show -(Complex.I * ((k * w : ℝ) : ℂ)) = ((-(k * w) : ℝ) : ℂ) * Complex.I by push_cast; ring, Complex.re_ofReal_mul,
        Complex.exp_ofReal_mul_I_re, Real.cos_neg]
    have him : ∀ k : Fin n, ((h k : ℂ) * Complex.exp (-(Complex.I * ((k * w : ℝ) : ℂ)))).im = -(h k * Real.sin (k * w)) := by
      intro k
      rw [show -(Complex.I * ((k * w : ℝ) : ℂ)) = ((-(k * w) : ℝ) : ℂ) * Complex.I by push_cast; ring, Complex.im_ofReal_mul,
        Complex.exp_ofReal_mul_I_im, Real.sin_neg, mul_neg]
    rw [Complex.re_sum, Complex.im_sum, Finset.sum_congr rfl fun k _ => hre k, Finset.sum_congr rfl fun k _ => him k, Finset.sum_neg_distrib]
    ring
  exact ⟨e, by rw [e]; positivity⟩

/-- Concrete: `h = (1, 2, 3)` gives `(14, 8, 3)`. -/
example : inverseSpectralFact (![1, 2, 3] : Fin 3 → ℚ) = ![14, 8, 3] := by
  funext t; fin_cases t <;> simp [inverseSpectralFact, lagDot] <;> norm_num

end Verif
