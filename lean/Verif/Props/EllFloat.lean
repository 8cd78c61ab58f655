import Verif.Proofs.EllFloat
import Verif.Spec.EllFloatSpec
import Verif.Proofs.Float

/-!
# C117: one update of an ellipsoid in floating point
-/
namespace Verif
open Matrix Ell
variable {n : ℕ}

section
variable {u ε C b β : ℝ} {fl : ℝ → ℝ} {dot : (Fin n → ℝ) → (Fin n → ℝ) → ℝ} {E : Ell n} {g : Fin n → ℝ}

theorem cond_sum {Q : Matrix (Fin n) (Fin n) ℝ} (hC0 : 0 ≤ C) (hC : CondBound C Q) (y : Fin n → ℝ) :
    ∑ i, √(Q i i) * |y i| ≤ C * √(y ⬝ᵥ Q *ᵥ y) := by
  have h := hC y
  have h0 : 0 ≤ ∑ i, √(Q i i) * |y i| := Finset.sum_nonneg fun i _ => by positivity
  rw [← Real.sqrt_sq hC0, ← Real.sqrt_mul (sq_nonneg _)]
  exact Real.le_sqrt_of_sq_le h

/-- The computed `Q @ g` and `g @ (Q @ g)`. -/
theorem qg_err (hQ : E.Q.PosSemidef) (hdot : VecDotErr ε dot) (hε0 : 0 ≤ ε) (hε : ε ≤ 1 / 10) (hC1 : 1 ≤ C) (hC : CondBound C E.Q) :
    (∀ i, |dot (E.Q i) g - (E.Q *ᵥ g) i| ≤ C ^ 2 * ε * (√(E.Q i i) * √(g ⬝ᵥ E.Q *ᵥ g))) ∧
      Rel (21 / 10 * (C ^ 2 * ε)) (dot g fun i => dot (E.Q i) g) (g ⬝ᵥ E.Q *ᵥ g) := by
  have hω : 0 ≤ g ⬝ᵥ E.Q *ᵥ g := (psd_iff.1 hQ).2 g
  set d := fun i => √(E.Q i i) with hd
  have hd0 : ∀ i, 0 ≤ d i := fun i => Real.sqrt_nonneg _
  set G := ∑ i, d i * |g i| with hG
  have hG0 : 0 ≤ G := Finset.sum_nonneg fun i _ => mul_nonneg (hd0 i) (abs_nonneg _)
  have hGC : G ≤ C * √(g ⬝ᵥ E.Q *ᵥ g) := cond_sum (by linarith) hC g
  have hrow : ∀ i, ∑ j, |E.Q i j * g j| ≤ d i * G := fun i => by
    rw [hG, Finset.mul_sum]
    refine Finset.sum_le_sum fun j _ => ?_
    rw [abs_mul, ← mul_assoc]
    exact mul_le_mul_of_nonneg_right (psd_entry hQ i j) (abs_nonneg _)
  have h1 : ∀ i, |dot (E.Q i) g - (E.Q *ᵥ g) i| ≤ ε * (d i * G) := fun i =>
    (hdot (E.Q i) g).trans (mul_le_mul_of_nonneg_left (hrow i) hε0)
  have h2 : ∀ i, |(E.Q *ᵥ g) i| ≤ d i * G := fun i =>
    (Finset.abs_sum_le_sum_abs _ _).trans (hrow i)
  have key : ∀ a : ℝ, a * G ^ 2 = ∑ i, |g i| * (a * (d i * G)) := fun a => by
    have e : a * G ^ 2 = a * G * ∑ i, d i * |g i| := by rw [← hG]; ring
    rw [e, Finset.mul_sum]
    exact Finset.sum_congr rfl fun i _ => by ring
  refine ⟨fun i => ?_, ?_⟩
  · refine (h1 i).trans ?_
    have e1 : C ≤ C ^ 2 := by nlinarith
    calc ε * (d i * G) ≤ ε * (d i * (C ^ 2 * √(g ⬝ᵥ E.Q *ᵥ g))) := by
          refine mul_le_mul_of_nonneg_left (mul_le_mul_of_nonneg_left ?_ (hd0 i)) hε0
          exact hGC.trans (mul_le_mul_of_nonneg_right e1 (Real.sqrt_nonneg _))
      _ = _ := by rw [hd]; ring
  · set V := fun i => dot (E.Q i) g with hV
    have h3 : |dot g V - g ⬝ᵥ V| ≤ ε * ((1 + ε) * G ^ 2) := by
      refine (hdot g V).trans (mul_le_mul_of_nonneg_left ?_ hε0)
      rw [key]
      refine Finset.sum_le_sum fun i _ => ?_
      rw [abs_mul]
      refine mul_le_mul_of_nonneg_left ?_ (abs_nonneg _)
      have e1 := abs_sub_abs_le_abs_sub (V i) ((E.Q *ᵥ g) i)
      have e2 := h1 i
      have e3 := h2 i
      linarith
    have h4 : |g ⬝ᵥ V - g ⬝ᵥ E.Q *ᵥ g| ≤ ε * G ^ 2 := by
      rw [key, ← dotProduct_sub]
      refine (Finset.abs_sum_le_sum_abs _ _).trans (Finset.sum_le_sum fun i _ => ?_)
      rw [abs_mul]
      exact mul_le_mul_of_nonneg_left (h1 i) (abs_nonneg _)
    have h5 : G ^ 2 ≤ C ^ 2 * (g ⬝ᵥ E.Q *ᵥ g) := hC g
    have h6 : ε * G ^ 2 ≤ ε * (C ^ 2 * (g ⬝ᵥ E.Q *ᵥ g)) := mul_le_mul_of_nonneg_left h5 hε0
    unfold Rel
    rw [abs_of_nonneg hω]
    have h7 := abs_add_le (dot g V - g ⬝ᵥ V) (g ⬝ᵥ V - g ⬝ᵥ E.Q *ᵥ g)
    rw [sub_add_sub_cancel] at h7
    have h8 : ε * (ε * G ^ 2) ≤ 1 / 10 * (ε * G ^ 2) := mul_le_mul_of_nonneg_right hε (by positivity)
    linarith

/-- The shape left by a deep cut is not much thinner than before. -/
theorem shape_lower {Q : Matrix (Fin n) (Fin n) ℝ} (hQ : Q.PosSemidef) (hω : 0 < g ⬝ᵥ Q *ᵥ g) {σ : ℝ} (hσ : 0 ≤ σ) (y : Fin n → ℝ) :
    (1 - σ) * (y ⬝ᵥ Q *ᵥ y) ≤ y ⬝ᵥ (shape Q g σ) *ᵥ y ∧ y ⬝ᵥ (shape Q g σ) *ᵥ y ≤ y ⬝ᵥ Q *ᵥ y := by
  rw [shape_quad]
  have h := psd_cauchy hQ y g
  have h1 : σ / (g ⬝ᵥ Q *ᵥ g) * (y ⬝ᵥ Q *ᵥ g) ^ 2 ≤ σ * (y ⬝ᵥ Q *ᵥ y) := by
    rw [div_mul_eq_mul_div, div_le_iff₀ hω, mul_assoc]
    exact mul_le_mul_of_nonneg_left h hσ
  have h2 : 0 ≤ σ / (g ⬝ᵥ Q *ᵥ g) * (y ⬝ᵥ Q *ᵥ g) ^ 2 := by positivity
  constructor <;> linarith


theorem mul_sqrt' {a x : ℝ} (ha : 0 ≤ a) : a * √x = √(a ^ 2 * x) := by
  rw [Real.sqrt_mul (sq_nonneg _), Real.sqrt_sq ha]

theorem inflate {A A' s z err r : ℝ} (hs0 : 0 ≤ s) (hs : 1000 * s ≤ 1) (hA : 0 ≤ A) (hA' : (1 - 400 * s) * A ≤ A') (hz : |z| ≤ √A)
    (herr : |err| ≤ 30 * s * √A + r) : |z + err| ≤ (1 + 350 * s) * √A' + r := by
  have h1 : (1 + 30 * s) * √A ≤ (1 + 350 * s) * √A' := by
    have e1 : (1 + 30 * s) * √A = √((1 + 30 * s) ^ 2 * A) := by
      rw [Real.sqrt_mul (sq_nonneg _), Real.sqrt_sq (by linarith)]
    have e2 : (1 + 350 * s) * √A' = √((1 + 350 * s) ^ 2 * A') := by
      rw [Real.sqrt_mul (sq_nonneg _), Real.sqrt_sq (by linarith)]
    rw [e1, e2]
    refine Real.sqrt_le_sqrt ?_
    refine le_trans ?_ (mul_le_mul_of_nonneg_left hA' (sq_nonneg _))
    rw [← mul_assoc]
    refine mul_le_mul_of_nonneg_right ?_ hA
    have e3 : s * s ≤ 1 / 1000 * s := mul_le_mul_of_nonneg_right (by linarith) hs0
    have e4 : s * s * s ≤ 1 / 1000 * s * (1 / 1000) := mul_le_mul e3 (by linarith) hs0 (by linarith)
    nlinarith
  have := abs_add_le z err
  linarith

theorem shape_apply (Q : Matrix (Fin n) (Fin n) ℝ) (σ : ℝ) (i j : Fin n) :
    shape Q g σ i j = Q i j - σ / (g ⬝ᵥ Q *ᵥ g) * ((Q *ᵥ g) i * (Q *ᵥ g) j) := by
  simp [shape, vecMulVec_apply]

theorem shape_entry {Q : Matrix (Fin n) (Fin n) ℝ} (hQ : Q.PosSemidef) (hω : 0 < g ⬝ᵥ Q *ᵥ g) {σ : ℝ} (hσ : 0 ≤ σ) (hσ1 : σ ≤ 1)
    (i j : Fin n) : |shape Q g σ i j| ≤ √(Q i i) * √(Q j j) := by
  refine (psd_entry (shape_psd hQ hω.ne' hσ1) i j).trans ?_
  have h : ∀ i, √(shape Q g σ i i) ≤ √(Q i i) := fun i => by
    refine Real.sqrt_le_sqrt ?_
    have := (shape_lower hQ hω hσ (Pi.single i 1)).2
    rwa [single_mulVec, single_mulVec, mulVec_single_one, mulVec_single_one] at this
  exact mul_le_mul (h i) (h j) (Real.sqrt_nonneg _) (Real.sqrt_nonneg _)

set_option maxHeartbeats 4000000 in
/-- One update with a central or deep cut, every operation rounded: everything `C117_update` says, and how the new ellipsoid compares with the old
one and with the exact update. -/
theorem update_sandwich (hE : E.Proper) (hfl : RelErr u fl) (hu0 : 0 ≤ u) (hu : u ≤ ε) (hdot : VecDotErr ε dot) (hC1 : 1 ≤ C)
    (hC : CondBound C E.Q) (hg : g ≠ 0) (hb0 : 0 < b) (hβ0 : 0 ≤ β) (hβ : β ≤ (1 - b) * √(E.kappa * (g ⬝ᵥ E.Q *ᵥ g)))
    (hε : 1000 * (C ^ 4 * ε) ≤ b ^ 2) :
    ∃ E' tsq, updateF fl dot (g, .scalar β) E = .ok (E', .success, tsq) ∧ E'.Proper ∧
      |tsq - E.kappa * (g ⬝ᵥ E.Q *ᵥ g)| ≤ 5 * (C ^ 2 * ε) * (E.kappa * (g ⬝ᵥ E.Q *ᵥ g)) ∧
      (∀ x ∈ E.pts ∩ cutSet E.xc (g, .scalar β), ∀ y, |y ⬝ᵥ (x - E'.xc)| ≤
        (1 + 350 * (C ^ 4 * ε / b ^ 2)) * √(E'.kappa * (y ⬝ᵥ E'.Q *ᵥ y)) + u * ∑ i, |y i| * |E.xc i|) ∧
      (∀ y, b ^ 2 / 4 * (E.kappa * (y ⬝ᵥ E.Q *ᵥ y)) ≤ E'.kappa * (y ⬝ᵥ E'.Q *ᵥ y)) ∧
      ∀ y, E'.kappa * (y ⬝ᵥ E'.Q *ᵥ y) ≤ (1 + 400 * (C ^ 4 * ε / b ^ 2)) * (E.kappa * deltaD n √(E.kappa * (g ⬝ᵥ E.Q *ᵥ g)) β *
        (y ⬝ᵥ (shape E.Q g (sigmaD n √(E.kappa * (g ⬝ᵥ E.Q *ᵥ g)) β)) *ᵥ y)) := by
  obtain ⟨hn, hpd, hκ⟩ := hE
  have hQ := hpd.posSemidef
  have hsymm : ∀ i j, E.Q i j = E.Q j i := fun i j => by
    have := (psd_iff.1 hQ).1; exact (congrFun (congrFun this j) i)
  have hω : 0 < g ⬝ᵥ E.Q *ᵥ g := (pd_iff.1 hpd).2 g hg
  have hε0 : 0 ≤ ε := hu0.trans hu
  set t := C ^ 2 * ε with ht
  have hC2 : 1 ≤ C ^ 2 := one_le_pow₀ hC1
  have hCC : C ≤ C ^ 2 := by nlinarith
  have htt : C ^ 4 * ε = t * C ^ 2 := by rw [ht]; ring
  have hεt : ε ≤ t := by rw [ht]; nlinarith
  have ht0 : 0 ≤ t := hε0.trans hεt
  have htC : t ≤ t * C ^ 2 := by nlinarith
  rw [htt] at hε ⊢
  have ht3 : 1000 * t ≤ b ^ 2 := by linarith
  have hut : u ≤ t := hu.trans hεt
  set K := √E.kappa with hK
  have hK0 : 0 < K := Real.sqrt_pos.2 hκ
  have hK2 : E.kappa = K ^ 2 := (Real.sq_sqrt hκ.le).symm
  set w := √(g ⬝ᵥ E.Q *ᵥ g) with hw
  have hw0 : 0 < w := Real.sqrt_pos.2 hω
  have hw2 : g ⬝ᵥ E.Q *ᵥ g = w ^ 2 := (Real.sq_sqrt hω.le).symm
  have hτ : √(E.kappa * (g ⬝ᵥ E.Q *ᵥ g)) = K * w := by rw [Real.sqrt_mul hκ.le]
  rw [hτ] at hβ ⊢
  have hb1 : b ≤ 1 := by
    by_contra h
    have : (1 - b) * (K * w) < 0 := mul_neg_of_neg_of_pos (by linarith [not_le.1 h]) (by positivity)
    linarith
  have hbb : b ^ 2 ≤ b := by nlinarith
  have hbb0 : 0 < b ^ 2 := by positivity
  have ht1 : t ≤ 1 / 1000 := by linarith
  set s := t * C ^ 2 / b ^ 2 with hs
  have hs0 : 0 ≤ s := by positivity
  have hs1 : 1000 * s ≤ 1 := by
    rw [hs, ← mul_div_assoc, div_le_one hbb0]; exact hε
  have hsb : s * b ^ 2 = t * C ^ 2 := by rw [hs]; field_simp
  have htb : t / b ≤ s := by
    rw [div_le_iff₀ hb0]
    nlinarith
  have htb0 : 0 ≤ t / b := by positivity
  have httb : t ≤ t / b := by rw [le_div_iff₀ hb0]; nlinarith
  have htCb : t * C ^ 2 / b ≤ s := by
    rw [div_le_iff₀ hb0]; nlinarith
  obtain ⟨hV, hω'⟩ := qg_err (g := g) hQ hdot hε0 (by linarith) hC1 hC
  rw [← ht, ← hw] at hV
  rw [← ht] at hω'
  set V := fun i => dot (E.Q i) g with hVd
  set ω' := dot g V with hωd
  have hω'0 : 0 < ω' := hω'.pos hω (by linarith)
  have htsq : Rel (41 / 10 * t) (fl (E.kappa * ω')) ((K * w) ^ 2) := by
    have := ((hω'.mul_left E.kappa).round hfl hu0 (by linarith)).mono (by linarith : _ ≤ 41 / 10 * t)
    rwa [hw2, hK2, ← mul_pow, ← hK2] at this
  set tsq := fl (E.kappa * ω') with htsqd
  obtain ⟨ρ', σ', δ', hc, hρ', hσ', hδ'⟩ := calcDcF_acc hn hfl hu0 hut (by positivity) hβ0 hb0 hβ ht3 htsq
  obtain ⟨b1, b2, b3, b4, b5, b6, b7⟩ := deep_bounds hn (by positivity : 0 < K * w) hβ0 hb0 hβ
  set ρ := rhoD n (K * w) β with hρ
  set σ := sigmaD n (K * w) β with hσ
  set δ := deltaD n (K * w) β with hδ
  have hσ1 : σ ≤ 1 := by linarith
  have hro : Rel (16 * t) (fl (ρ' / ω')) (ρ / w ^ 2) := by
    rw [← hw2]
    exact ((hρ'.div hω' (by positivity) (by positivity) (by linarith) hω.ne').round hfl hu0 (by linarith)).mono (by linarith)
  have hso : Rel (32 * t) (fl (σ' / ω')) (σ / w ^ 2) := by
    rw [← hw2]
    exact ((hσ'.div hω' (by positivity) (by positivity) (by linarith) hω.ne').round hfl hu0 (by linarith)).mono (by linarith)
  set ro := fl (ρ' / ω') with hrod
  set so := fl (σ' / ω') with hsod
  set d := fun i => √(E.Q i i) with hd
  have hd0 : ∀ i, 0 ≤ d i := fun i => Real.sqrt_nonneg _
  set xc' : Fin n → ℝ := fun i => fl (E.xc i - fl (ro * V i)) with hxc'
  set Q' : Matrix (Fin n) (Fin n) ℝ := fun i j => fl (E.Q i j - fl (so * fl (V i * V j))) with hQ'
  have hv : ∀ i, |(E.Q *ᵥ g) i| ≤ d i * w := fun i => psd_mulVec hQ i g
  have hent : ∀ i j, |Q' i j - shape E.Q g σ i j| ≤ 40 * t * (d i * d j) := fun i j => by
    rw [shape_apply, hw2]
    exact entry_err hfl hu0 hut ht1 (hd0 i) (hd0 j) hw0 (hv i) (hv j) (hV i) (hV j) (psd_entry hQ i j) b3.le hσ1 hso
  have hcen : ∀ i, |xc' i - (E.xc i - ρ / w ^ 2 * (E.Q *ᵥ g) i)| ≤ 20 * t * (K * d i) + u * |E.xc i| := fun i =>
    centre_err hfl hu0 hut ht1 (hd0 i) hw0 (hv i) (hV i) b1.le b2 hro
  have hN : ∀ y : Fin n → ℝ, (∑ i, d i * |y i|) ^ 2 ≤ C ^ 2 * (y ⬝ᵥ E.Q *ᵥ y) := hC
  have hq0 : ∀ y : Fin n → ℝ, 0 ≤ y ⬝ᵥ E.Q *ᵥ y := (psd_iff.1 hQ).2
  -- the form before against the exact form after
  have hqq : ∀ y : Fin n → ℝ, y ⬝ᵥ E.Q *ᵥ y ≤ 6 / b * (y ⬝ᵥ (shape E.Q g σ) *ᵥ y) := fun y => by
    have h1 := (shape_lower hQ hω b3.le y).1
    have h2 := mul_le_mul_of_nonneg_right b4 (hq0 y)
    rw [div_mul_eq_mul_div, le_div_iff₀ hb0]
    linarith
  have hS0 : ∀ y : Fin n → ℝ, 0 ≤ y ⬝ᵥ (shape E.Q g σ) *ᵥ y := (psd_iff.1 (shape_psd hQ hω.ne' hσ1)).2
  -- what is common to both settings of `no_defer_trick`
  have fin : ∀ E' : Ell n, E'.xc = xc' → E'.Qᵀ = E'.Q → 0 < E'.kappa →
      (∀ y : Fin n → ℝ, (1 - 400 * s) * (E.kappa * δ * (y ⬝ᵥ (shape E.Q g σ) *ᵥ y)) ≤ E'.kappa * (y ⬝ᵥ E'.Q *ᵥ y)) →
      (∀ y : Fin n → ℝ, E'.kappa * (y ⬝ᵥ E'.Q *ᵥ y) ≤ (1 + 400 * s) * (E.kappa * δ * (y ⬝ᵥ (shape E.Q g σ) *ᵥ y))) →
      E'.Proper ∧ (∀ x ∈ E.pts ∩ cutSet E.xc (g, .scalar β), ∀ y, |y ⬝ᵥ (x - E'.xc)| ≤
        (1 + 350 * s) * √(E'.kappa * (y ⬝ᵥ E'.Q *ᵥ y)) + u * ∑ i, |y i| * |E.xc i|) ∧
      (∀ y, b ^ 2 / 4 * (E.kappa * (y ⬝ᵥ E.Q *ᵥ y)) ≤ E'.kappa * (y ⬝ᵥ E'.Q *ᵥ y)) ∧
      ∀ y, E'.kappa * (y ⬝ᵥ E'.Q *ᵥ y) ≤ (1 + 400 * s) * (E.kappa * δ * (y ⬝ᵥ (shape E.Q g σ) *ᵥ y)) := by
    intro E' hx' hsy hk' hlow hup
    refine ⟨⟨hn, pd_iff.2 ⟨hsy, fun y hy => ?_⟩, hk'⟩, fun x hx y => ?_, fun y => ?_, hup⟩
    · have h1 := hlow y
      have h2 : 0 < y ⬝ᵥ (shape E.Q g σ) *ᵥ y := by
        have h3 := (pd_iff.1 hpd).2 y hy
        have h4 := (shape_lower hQ hω b3.le y).1
        have h5 : 0 < (1 - σ) * (y ⬝ᵥ E.Q *ᵥ y) := mul_pos (by linarith [show 0 < b / 6 by positivity]) h3
        linarith
      have h3 : 0 < (1 - 400 * s) * (E.kappa * δ * (y ⬝ᵥ (shape E.Q g σ) *ᵥ y)) := by
        have : 0 < 1 - 400 * s := by linarith
        positivity
      exact pos_of_mul_pos_right (h3.trans_le h1) hk'.le
    · obtain ⟨hx1, hx2⟩ := hx
      have hx2' : g ⬝ᵥ (x - E.xc) + β ≤ 0 := hx2
      have hkeep := keeps_deep hn (by positivity : 0 < K * w) (by nlinarith [show 0 < K * w by positivity]) (by positivity : 0 < K * w + n * β)
        (u := g ⬝ᵥ (x - E.xc)) (by rw [mul_pow, ← hK2, ← hw2]; exact hx1 g) hx2'
      have hrange := (range_deep hn (by positivity : 0 < K * w) (by nlinarith [show 0 < K * w by positivity])
        (by positivity : 0 < K * w + n * β)).2
      have hm := mem_step hQ hκ.le hω.ne' (fun y => hx1 y) hrange (by
        rw [hK2, hw2, ← mul_pow]; exact hkeep) y
      rw [hx']
      have hA0 : 0 ≤ E.kappa * δ * (y ⬝ᵥ (shape E.Q g σ) *ᵥ y) := mul_nonneg (by positivity) (hS0 y)
      have hz := Real.abs_le_sqrt hm
      have hsplit : y ⬝ᵥ (x - xc') = y ⬝ᵥ (x - E.xc + (ρ / (g ⬝ᵥ E.Q *ᵥ g)) • E.Q *ᵥ g) +
          -(∑ i, y i * (xc' i - (E.xc i - ρ / w ^ 2 * (E.Q *ᵥ g) i))) := by
        rw [hw2]
        simp only [dotProduct, ← Finset.sum_neg_distrib, ← Finset.sum_add_distrib]
        refine Finset.sum_congr rfl fun i _ => ?_
        simp only [Pi.sub_apply, Pi.add_apply, Pi.smul_apply, smul_eq_mul]
        ring
      rw [hsplit]
      refine inflate hs0 hs1 hA0 (hlow y) hz ?_
      rw [abs_neg]
      have h1 : |∑ i, y i * (xc' i - (E.xc i - ρ / w ^ 2 * (E.Q *ᵥ g) i))| ≤
          20 * t * (K * ∑ i, d i * |y i|) + u * ∑ i, |y i| * |E.xc i| := by
        refine (Finset.abs_sum_le_sum_abs _ _).trans ?_
        rw [Finset.mul_sum, Finset.mul_sum, Finset.mul_sum, ← Finset.sum_add_distrib]
        refine Finset.sum_le_sum fun i _ => ?_
        rw [abs_mul]
        have := mul_le_mul_of_nonneg_left (hcen i) (abs_nonneg (y i))
        linarith
      refine h1.trans (by
        gcongr ?_ + _
        have h2 : ∑ i, d i * |y i| ≤ C * √(y ⬝ᵥ E.Q *ᵥ y) := cond_sum (by linarith) hC y
        have h3 : 2 * b * (K * √(y ⬝ᵥ E.Q *ᵥ y)) ≤ 3 * √(E.kappa * δ * (y ⬝ᵥ (shape E.Q g σ) *ᵥ y)) := by
          have e2 : 2 * b * (K * √(y ⬝ᵥ E.Q *ᵥ y)) = 2 * b * √(E.kappa * (y ⬝ᵥ E.Q *ᵥ y)) := by rw [Real.sqrt_mul hκ.le]
          rw [e2, mul_sqrt' (by positivity), mul_sqrt' (by norm_num : (0 : ℝ) ≤ 3)]
          refine Real.sqrt_le_sqrt ?_
          have e3 := (shape_lower hQ hω b3.le y).1
          have e4 : δ * ((1 - σ) * (y ⬝ᵥ E.Q *ᵥ y)) ≤ δ * (y ⬝ᵥ (shape E.Q g σ) *ᵥ y) := mul_le_mul_of_nonneg_left e3 b5.le
          have e5 := mul_le_mul_of_nonneg_right b6 (hq0 y)
          have e6 : 4 / 9 * b ^ 2 * (y ⬝ᵥ E.Q *ᵥ y) ≤ δ * (y ⬝ᵥ (shape E.Q g σ) *ᵥ y) := by linarith
          have e7 := mul_le_mul_of_nonneg_left e6 hκ.le
          linarith
        have h4 : K * ∑ i, d i * |y i| ≤ C * (K * √(y ⬝ᵥ E.Q *ᵥ y)) := by
          have := mul_le_mul_of_nonneg_left h2 hK0.le; linarith
        have h5 : b * (K * ∑ i, d i * |y i|) ≤ C * (3 / 2 * √(E.kappa * δ * (y ⬝ᵥ (shape E.Q g σ) *ᵥ y))) := by
          have e1 := mul_le_mul_of_nonneg_left h4 hb0.le
          have e2 := mul_le_mul_of_nonneg_left h3 (show 0 ≤ C by linarith)
          linarith
        set R := √(E.kappa * δ * (y ⬝ᵥ (shape E.Q g σ) *ᵥ y))
        have hR0 : 0 ≤ R := Real.sqrt_nonneg _
        have h6 : 20 * t * (b * (K * ∑ i, d i * |y i|)) ≤ 20 * t * (C * (3 / 2 * R)) := mul_le_mul_of_nonneg_left h5 (by positivity)
        have h7 : t * C ≤ s * b := by
          have e1 : t * C ≤ t * C ^ 2 := mul_le_mul_of_nonneg_left hCC ht0
          have e2 : s * b ^ 2 ≤ s * b := mul_le_mul_of_nonneg_left hbb hs0
          linarith
        have h8 : t * C * (30 * R) ≤ s * b * (30 * R) := mul_le_mul_of_nonneg_right h7 (by positivity)
        have h9 : b * (20 * t * (K * ∑ i, d i * |y i|)) ≤ b * (30 * s * R) := by linarith
        exact le_of_mul_le_mul_left h9 hb0)
    · refine le_trans ?_ (hlow y)
      have e3 := (shape_lower hQ hω b3.le y).1
      have e4 : δ * ((1 - σ) * (y ⬝ᵥ E.Q *ᵥ y)) ≤ δ * (y ⬝ᵥ (shape E.Q g σ) *ᵥ y) := mul_le_mul_of_nonneg_left e3 b5.le
      have e5 := mul_le_mul_of_nonneg_right b6 (hq0 y)
      have e6 : 4 / 9 * b ^ 2 * (y ⬝ᵥ E.Q *ᵥ y) ≤ δ * (y ⬝ᵥ (shape E.Q g σ) *ᵥ y) := by linarith
      have e7 := mul_le_mul_of_nonneg_left e6 hκ.le
      have e8 : 3 / 5 * (E.kappa * δ * (y ⬝ᵥ (shape E.Q g σ) *ᵥ y)) ≤ (1 - 400 * s) * (E.kappa * δ * (y ⬝ᵥ (shape E.Q g σ) *ᵥ y)) :=
        mul_le_mul_of_nonneg_right (by linarith) (mul_nonneg (by positivity) (hS0 y))
      have e9 : 0 ≤ E.kappa * (b ^ 2 * (y ⬝ᵥ E.Q *ᵥ y)) := mul_nonneg hκ.le (mul_nonneg hbb0.le (hq0 y))
      linarith
  have hQ'sym : ∀ i j, Q' i j = Q' j i := fun i j => by
    simp only [hQ']; rw [hsymm i j, mul_comm (V i)]
  have hδ0 : 0 < δ' := hδ'.pos b5 (by linarith)
  have htq : |tsq - E.kappa * (g ⬝ᵥ E.Q *ᵥ g)| ≤ 5 * t * (E.kappa * (g ⬝ᵥ E.Q *ᵥ g)) := by
    unfold Rel at htsq
    rw [mul_pow, ← hK2, ← hw2, abs_of_pos (mul_pos hκ hω)] at htsq
    refine htsq.trans (mul_le_mul_of_nonneg_right (by linarith) (by positivity))
  have hrun : updateF fl dot (g, .scalar β) E = if E.noDefer then
        .ok ({ E with xc := xc', Q := fun i j => fl (Q' i j * δ') }, .success, tsq)
      else .ok ({ E with xc := xc', Q := Q', kappa := fl (E.kappa * δ') }, .success, tsq) := by
    simp only [updateF, calcLlF]
    rw [← hVd, ← hωd, ← htsqd, hc]
    simp only [divF, pyDiv, if_neg hω'0.ne', Except.map]
    rfl
  rw [hrun]
  by_cases hdef : E.noDefer
  · rw [if_pos hdef]
    refine ⟨_, _, rfl, ?_⟩
    have hent2 : ∀ i j, |fl (Q' i j * δ') - (δ • shape E.Q g σ) i j| ≤ 60 * (t / b) * δ * (d i * d j) := fun i j => by
      set m := d i * d j with hm
      have hm0 : 0 ≤ m := mul_nonneg (hd0 i) (hd0 j)
      have e1 := hent i j
      have e2 := shape_entry hQ hω b3.le hσ1 i j
      have e3 : |δ' - δ| ≤ 17 * (t / b) * δ := by have := hδ'; unfold Rel at this; rwa [abs_of_pos b5] at this
      have e4 : |Q' i j * δ' - δ * shape E.Q g σ i j| ≤ 58 * (t / b) * δ * m := by
        have a1 : Q' i j * δ' - δ * shape E.Q g σ i j = (Q' i j - shape E.Q g σ i j) * δ' + shape E.Q g σ i j * (δ' - δ) := by ring
        rw [a1]
        refine (abs_add_le _ _).trans ?_
        rw [abs_mul, abs_mul, abs_of_pos hδ0]
        have a2 : δ' ≤ 102 / 100 * δ := (hδ'.upper b5.le).trans (mul_le_mul_of_nonneg_right (by linarith) b5.le)
        have a3 := mul_le_mul e1 a2 hδ0.le (by positivity)
        have a4 := mul_le_mul e2 e3 (abs_nonneg _) hm0
        have a5 : t * (δ * m) ≤ t / b * (δ * m) := mul_le_mul_of_nonneg_right httb (by positivity)
        have a6 : 0 ≤ t / b * (δ * m) := by positivity
        linarith
      have e5 := hfl (Q' i j * δ')
      have e6 : |δ * shape E.Q g σ i j| ≤ δ * m := by rw [abs_mul, abs_of_pos b5]; exact mul_le_mul_of_nonneg_left e2 b5.le
      have e7 : |Q' i j * δ'| ≤ 11 / 10 * (δ * m) := by
        have a1 := abs_sub_abs_le_abs_sub (Q' i j * δ') (δ * shape E.Q g σ i j)
        have a2 : 58 * (t / b) * (δ * m) ≤ 1 / 10 * (δ * m) := mul_le_mul_of_nonneg_right (by linarith) (by positivity)
        linarith
      have e8 : u * |Q' i j * δ'| ≤ t / b * (11 / 10 * (δ * m)) := mul_le_mul (by linarith) e7 (abs_nonneg _) htb0
      have e9 := abs_add_le (fl (Q' i j * δ') - Q' i j * δ') (Q' i j * δ' - δ * shape E.Q g σ i j)
      rw [sub_add_sub_cancel] at e9
      rw [Matrix.smul_apply, smul_eq_mul]
      have a6 : 0 ≤ t / b * (δ * m) := by positivity
      linarith
    have key := fin { E with xc := xc', Q := fun i j => fl (Q' i j * δ') } rfl
      (by ext i j; change fl (Q' j i * δ') = fl (Q' i j * δ'); rw [hQ'sym]) hκ (fun y => by
        simp only
        have e1 := (abs_le.1 (quad_err hent2 y)).1
        rw [smul_mulVec, dotProduct_smul, smul_eq_mul] at e1
        have e2 := mul_le_mul_of_nonneg_left (hN y) (show 0 ≤ 60 * (t / b) * δ by positivity)
        have e3 := mul_le_mul_of_nonneg_left (hqq y) (show 0 ≤ 60 * (t / b) * δ * C ^ 2 by positivity)
        set q' := y ⬝ᵥ (shape E.Q g σ) *ᵥ y with hq'
        have hq'0 : 0 ≤ q' := hS0 y
        have e4 : 60 * (t / b) * δ * C ^ 2 * (6 / b * q') = 360 * s * (δ * q') := by
          rw [hs]; field_simp; ring
        have e5 : 0 ≤ s * (δ * q') := by positivity
        have e6 : (1 - 400 * s) * (δ * q') ≤ y ⬝ᵥ (fun i j => fl (Q' i j * δ') : Matrix (Fin n) (Fin n) ℝ) *ᵥ y := by linarith
        have := mul_le_mul_of_nonneg_left e6 hκ.le
        linarith) (fun y => by
        simp only
        have e1 := (abs_le.1 (quad_err hent2 y)).2
        rw [smul_mulVec, dotProduct_smul, smul_eq_mul] at e1
        have e2 := mul_le_mul_of_nonneg_left (hN y) (show 0 ≤ 60 * (t / b) * δ by positivity)
        have e3 := mul_le_mul_of_nonneg_left (hqq y) (show 0 ≤ 60 * (t / b) * δ * C ^ 2 by positivity)
        set q' := y ⬝ᵥ (shape E.Q g σ) *ᵥ y with hq'
        have hq'0 : 0 ≤ q' := hS0 y
        have e4 : 60 * (t / b) * δ * C ^ 2 * (6 / b * q') = 360 * s * (δ * q') := by
          rw [hs]; field_simp; ring
        have e5 : 0 ≤ s * (δ * q') := by positivity
        have e6 : y ⬝ᵥ (fun i j => fl (Q' i j * δ') : Matrix (Fin n) (Fin n) ℝ) *ᵥ y ≤ (1 + 400 * s) * (δ * q') := by linarith
        have := mul_le_mul_of_nonneg_left e6 hκ.le
        linarith)
    exact ⟨key.1, htq, key.2⟩
  · rw [if_neg hdef]
    refine ⟨_, _, rfl, ?_⟩
    have hk' : Rel (19 * (t / b)) (fl (E.kappa * δ')) (E.kappa * δ) :=
      ((hδ'.mul_left E.kappa).round hfl hu0 (by linarith)).mono (by linarith)
    have hκδ : 0 < E.kappa * δ := by positivity
    have hk0 : 0 < fl (E.kappa * δ') := hk'.pos hκδ (by linarith)
    have key := fin { E with xc := xc', Q := Q', kappa := fl (E.kappa * δ') } rfl
      (by ext i j; change Q' j i = Q' i j; rw [hQ'sym]) hk0 (fun y => by
        simp only
        have e1 := (abs_le.1 (quad_err hent y)).1
        have e2 := mul_le_mul_of_nonneg_left (hN y) (show 0 ≤ 40 * t by positivity)
        have e3 := mul_le_mul_of_nonneg_left (hqq y) (show 0 ≤ 40 * t * C ^ 2 by positivity)
        set q' := y ⬝ᵥ (shape E.Q g σ) *ᵥ y with hq'
        have hq'0 : 0 ≤ q' := hS0 y
        have e4 : 40 * t * C ^ 2 * (6 / b * q') = 240 * (t * C ^ 2 / b) * q' := by ring
        have e5 : t * C ^ 2 / b * q' ≤ s * q' := mul_le_mul_of_nonneg_right htCb hq'0
        have e6 : (1 - 240 * s) * q' ≤ y ⬝ᵥ Q' *ᵥ y := by linarith
        have e7 := hk'.lower hκδ.le
        have e8 : (1 - 19 * s) * (E.kappa * δ) ≤ fl (E.kappa * δ') := by
          refine le_trans (mul_le_mul_of_nonneg_right ?_ hκδ.le) e7
          linarith
        have e9 := mul_le_mul e8 e6 (mul_nonneg (by linarith) hq'0) hk0.le
        have e10 : 0 ≤ E.kappa * δ * q' := by positivity
        have e11 : (1 - 400 * s) * (E.kappa * δ * q') ≤ (1 - 19 * s) * (1 - 240 * s) * (E.kappa * δ * q') :=
          mul_le_mul_of_nonneg_right (by nlinarith) e10
        linarith) (fun y => by
        simp only
        have e1 := (abs_le.1 (quad_err hent y)).2
        have e2 := mul_le_mul_of_nonneg_left (hN y) (show 0 ≤ 40 * t by positivity)
        have e3 := mul_le_mul_of_nonneg_left (hqq y) (show 0 ≤ 40 * t * C ^ 2 by positivity)
        set q' := y ⬝ᵥ (shape E.Q g σ) *ᵥ y with hq'
        have hq'0 : 0 ≤ q' := hS0 y
        have e4 : 40 * t * C ^ 2 * (6 / b * q') = 240 * (t * C ^ 2 / b) * q' := by ring
        have e5 : t * C ^ 2 / b * q' ≤ s * q' := mul_le_mul_of_nonneg_right htCb hq'0
        have e6 : y ⬝ᵥ Q' *ᵥ y ≤ (1 + 240 * s) * q' := by linarith
        have e7 := hk'.upper hκδ.le
        have e8 : fl (E.kappa * δ') ≤ (1 + 19 * s) * (E.kappa * δ) := by
          refine e7.trans (mul_le_mul_of_nonneg_right ?_ hκδ.le)
          linarith
        have e9 := mul_le_mul_of_nonneg_left e6 hk0.le
        have e9' := mul_le_mul_of_nonneg_right e8 (show 0 ≤ (1 + 240 * s) * q' by positivity)
        have e10 : 0 ≤ E.kappa * δ * q' := by positivity
        have e11 : (1 + 19 * s) * (1 + 240 * s) * (E.kappa * δ * q') ≤ (1 + 400 * s) * (E.kappa * δ * q') :=
          mul_le_mul_of_nonneg_right (by nlinarith) e10
        linarith)
    exact ⟨key.1, htq, key.2⟩

/-- **C117**: one update with a central or deep cut, every operation rounded.  If the rounding errors are small against the
conditioning of `Q` and the depth of the cut, the update succeeds, the new ellipsoid is again proper (`Q` exactly symmetric and
positive definite), the returned `tsq` is accurate, and every point of the old ellipsoid that satisfies the cut is in the new one
inflated by `1 + 350·C⁴ε/b²`, up to the rounding of the coordinates of the centre. -/
theorem C117_update (hE : E.Proper) (hfl : RelErr u fl) (hu0 : 0 ≤ u) (hu : u ≤ ε) (hdot : VecDotErr ε dot) (hC1 : 1 ≤ C)
    (hC : CondBound C E.Q) (hg : g ≠ 0) (hb0 : 0 < b) (hβ0 : 0 ≤ β) (hβ : β ≤ (1 - b) * √(E.kappa * (g ⬝ᵥ E.Q *ᵥ g)))
    (hε : 1000 * (C ^ 4 * ε) ≤ b ^ 2) :
    ∃ E' tsq, updateF fl dot (g, .scalar β) E = .ok (E', .success, tsq) ∧ E'.Proper ∧
      |tsq - E.kappa * (g ⬝ᵥ E.Q *ᵥ g)| ≤ 5 * (C ^ 2 * ε) * (E.kappa * (g ⬝ᵥ E.Q *ᵥ g)) ∧
      ∀ x ∈ E.pts ∩ cutSet E.xc (g, .scalar β), ∀ y, |y ⬝ᵥ (x - E'.xc)| ≤
        (1 + 350 * (C ^ 4 * ε / b ^ 2)) * √(E'.kappa * (y ⬝ᵥ E'.Q *ᵥ y)) + u * ∑ i, |y i| * |E.xc i| := by
  obtain ⟨E', tsq, h1, h2, h3, h4, -⟩ := update_sandwich hE hfl hu0 hu hdot hC1 hC hg hb0 hβ0 hβ hε
  exact ⟨E', tsq, h1, h2, h3, h4⟩

end
end Verif
