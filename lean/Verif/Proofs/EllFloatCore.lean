import Verif.Props.EllFloat

/-! # Rounding errors of one ellipsoid update, given the errors of the three parameters -/
namespace Verif
open Matrix Ell

section scalar
variable {u t : ℝ} {fl : ℝ → ℝ}

/-- Rounding an approximation. -/
theorem fl_near (hfl : RelErr u fl) (hu0 : 0 ≤ u) {x x' e M : ℝ} (h : |x' - x| ≤ e) (hM : |x| ≤ M) : |fl x' - x| ≤ e + u * (M + e) := by
  have h1 := hfl x'
  have h2 := abs_sub_abs_le_abs_sub x' x
  have h3 : u * |x'| ≤ u * (M + e) := mul_le_mul_of_nonneg_left (by linarith) hu0
  have h4 := abs_add_le (fl x' - x') (x' - x)
  rw [sub_add_sub_cancel] at h4
  linarith

/-- A product of approximations. -/
theorem mul_near {x x' y y' a b X Y : ℝ} (hx : |x' - x| ≤ a) (hy : |y' - y| ≤ b) (hX : |x| ≤ X) (hY : |y| ≤ Y) :
    |x' * y' - x * y| ≤ a * (Y + b) + X * b := by
  have h1 : x' * y' - x * y = (x' - x) * y' + x * (y' - y) := by ring
  have h2 := abs_sub_abs_le_abs_sub y' y
  have ha : 0 ≤ a := (abs_nonneg _).trans hx
  have hX0 : 0 ≤ X := (abs_nonneg _).trans hX
  rw [h1]
  refine (abs_add_le _ _).trans ?_
  rw [abs_mul, abs_mul]
  exact add_le_add (mul_le_mul hx (by linarith) (abs_nonneg _) ha) (mul_le_mul hX hy (abs_nonneg _) hX0)

theorem entry_err' (hfl : RelErr u fl) (hu0 : 0 ≤ u) (hu : u ≤ t) {d d' w P R P' R' q σ s' e : ℝ} (hte : t ≤ e) (he : e ≤ 1 / 100)
    (hd : 0 ≤ d) (hd' : 0 ≤ d') (hw : 0 < w) (hP : |P| ≤ d * w) (hR : |R| ≤ d' * w) (hP' : |P' - P| ≤ t * (d * w))
    (hR' : |R' - R| ≤ t * (d' * w)) (hq : |q| ≤ d * d') (hσ0 : 0 ≤ σ) (hσ : σ ≤ 1) (hs : |s' - σ / w ^ 2| ≤ e / w ^ 2) :
    |fl (q - fl (s' * fl (P' * R'))) - (q - σ / w ^ 2 * (P * R))| ≤ 10 * e * (d * d') := by
  have ht0 : 0 ≤ t := hu0.trans hu
  have he0 : 0 ≤ e := ht0.trans hte
  set m := d * d' with hm
  have hm0 : 0 ≤ m := by positivity
  have hw2 : 0 < w ^ 2 := by positivity
  have tt : t * t ≤ 1 / 100 * t := mul_le_mul_of_nonneg_right (by linarith) ht0
  have ut : u * t ≤ 1 / 100 * t := by nlinarith
  have ue : u * e ≤ 1 / 100 * e := mul_le_mul_of_nonneg_right (by linarith) he0
  have et : e * t ≤ 1 / 100 * t := mul_le_mul_of_nonneg_right he ht0
  have h1 : |P' * R' - P * R| ≤ 21 / 10 * t * (m * w ^ 2) := by
    refine (mul_near hP' hR' hP hR).trans ?_
    have e4 : t * (d * w) * (d' * w + t * (d' * w)) + d * w * (t * (d' * w)) = (2 * t + t * t) * (m * w ^ 2) := by rw [hm]; ring
    rw [e4]
    exact mul_le_mul_of_nonneg_right (by linarith) (by positivity)
  have hPR : |P * R| ≤ m * w ^ 2 := by
    rw [abs_mul]
    refine (mul_le_mul hP hR (abs_nonneg _) (by positivity)).trans (le_of_eq ?_)
    rw [hm]; ring
  have h2 : |fl (P' * R') - P * R| ≤ 16 / 5 * t * (m * w ^ 2) := by
    refine (fl_near hfl hu0 h1 hPR).trans ?_
    have e5 : 21 / 10 * t * (m * w ^ 2) + u * (m * w ^ 2 + 21 / 10 * t * (m * w ^ 2)) = (21 / 10 * t + u + 21 / 10 * (u * t)) * (m * w ^ 2) := by ring
    rw [e5]
    exact mul_le_mul_of_nonneg_right (by linarith) (by positivity)
  have hσw : |σ / w ^ 2| ≤ 1 / w ^ 2 := by
    rw [abs_of_nonneg (by positivity)]
    exact div_le_div_of_nonneg_right hσ hw2.le
  have h3 : |s' * fl (P' * R') - σ / w ^ 2 * (P * R)| ≤ (e + 17 / 5 * t) * m := by
    refine (mul_near hs h2 hσw hPR).trans ?_
    have e5 : e / w ^ 2 * (m * w ^ 2 + 16 / 5 * t * (m * w ^ 2)) + 1 / w ^ 2 * (16 / 5 * t * (m * w ^ 2)) =
        (e + 16 / 5 * (e * t) + 16 / 5 * t) * m := by field_simp
    rw [e5]
    exact mul_le_mul_of_nonneg_right (by linarith) hm0
  have h3m : |σ / w ^ 2 * (P * R)| ≤ m := by
    rw [abs_mul]
    refine (mul_le_mul hσw hPR (abs_nonneg _) (by positivity)).trans (le_of_eq ?_)
    field_simp
  have h4 : |fl (s' * fl (P' * R')) - σ / w ^ 2 * (P * R)| ≤ (11 / 10 * e + 9 / 2 * t) * m := by
    refine (fl_near hfl hu0 h3 h3m).trans ?_
    have e5 : (e + 17 / 5 * t) * m + u * (m + (e + 17 / 5 * t) * m) = (e + 17 / 5 * t + u + u * e + 17 / 5 * (u * t)) * m := by ring
    rw [e5]
    exact mul_le_mul_of_nonneg_right (by linarith) hm0
  have h5 : |(q - fl (s' * fl (P' * R'))) - (q - σ / w ^ 2 * (P * R))| ≤ (11 / 10 * e + 9 / 2 * t) * m := by
    rw [sub_sub_sub_cancel_left, abs_sub_comm]; exact h4
  have h5m : |q - σ / w ^ 2 * (P * R)| ≤ 2 * m := (abs_sub _ _).trans (by linarith)
  refine (fl_near hfl hu0 h5 h5m).trans ?_
  have e5 : (11 / 10 * e + 9 / 2 * t) * m + u * (2 * m + (11 / 10 * e + 9 / 2 * t) * m) =
      (11 / 10 * e + 9 / 2 * t + 2 * u + 11 / 10 * (u * e) + 9 / 2 * (u * t)) * m := by ring
  rw [e5]
  exact mul_le_mul_of_nonneg_right (by linarith) hm0

theorem centre_err' (hfl : RelErr u fl) (hu0 : 0 ≤ u) (hu : u ≤ t) {d w k P P' c ρ r' e : ℝ} (hte : t ≤ e) (he : e ≤ 1 / 100)
    (hd : 0 ≤ d) (hw : 0 < w) (hk : 0 ≤ k) (hP : |P| ≤ d * w) (hP' : |P' - P| ≤ t * (d * w)) (hρ : |ρ| ≤ k * w)
    (hr : |r' - ρ / w ^ 2| ≤ e * k / w) :
    |fl (c - fl (r' * P')) - (c - ρ / w ^ 2 * P)| ≤ 5 * e * (k * d) + u * |c| := by
  have ht0 : 0 ≤ t := hu0.trans hu
  have he0 : 0 ≤ e := ht0.trans hte
  set m := k * d with hm
  have hm0 : 0 ≤ m := by positivity
  have ut : u * t ≤ 1 / 100 * t := by nlinarith
  have ue : u * e ≤ 1 / 100 * e := mul_le_mul_of_nonneg_right (by linarith) he0
  have et : e * t ≤ 1 / 100 * t := mul_le_mul_of_nonneg_right he ht0
  have hρw : |ρ / w ^ 2| ≤ k / w := by
    rw [abs_div, abs_of_pos (show 0 < w ^ 2 by positivity), div_le_div_iff₀ (by positivity) hw]
    have := mul_le_mul_of_nonneg_right hρ hw.le
    linarith
  have h1 : |r' * P' - ρ / w ^ 2 * P| ≤ (e + 11 / 10 * t) * m := by
    refine (mul_near hr hP' hρw hP).trans ?_
    have e5 : e * k / w * (d * w + t * (d * w)) + k / w * (t * (d * w)) = (e + e * t + t) * m := by rw [hm]; field_simp
    rw [e5]
    exact mul_le_mul_of_nonneg_right (by linarith) hm0
  have h1m : |ρ / w ^ 2 * P| ≤ m := by
    rw [abs_mul]
    refine (mul_le_mul hρw hP (abs_nonneg _) (by positivity)).trans (le_of_eq ?_)
    rw [hm]; field_simp
  have h2 : |fl (r' * P') - ρ / w ^ 2 * P| ≤ (11 / 10 * e + 11 / 5 * t) * m := by
    refine (fl_near hfl hu0 h1 h1m).trans ?_
    have e5 : (e + 11 / 10 * t) * m + u * (m + (e + 11 / 10 * t) * m) = (e + 11 / 10 * t + u + u * e + 11 / 10 * (u * t)) * m := by ring
    rw [e5]
    exact mul_le_mul_of_nonneg_right (by linarith) hm0
  have h5 : |(c - fl (r' * P')) - (c - ρ / w ^ 2 * P)| ≤ (11 / 10 * e + 11 / 5 * t) * m := by
    rw [sub_sub_sub_cancel_left, abs_sub_comm]; exact h2
  have h5m : |c - ρ / w ^ 2 * P| ≤ |c| + m := (abs_sub _ _).trans (by linarith)
  refine (fl_near hfl hu0 h5 h5m).trans ?_
  have e5 : (11 / 10 * e + 11 / 5 * t) * m + u * (|c| + m + (11 / 10 * e + 11 / 5 * t) * m) =
      (11 / 10 * e + 11 / 5 * t + u + 11 / 10 * (u * e) + 11 / 5 * (u * t)) * m + u * |c| := by ring
  rw [e5]
  exact add_le_add_left (mul_le_mul_of_nonneg_right (by linarith) hm0) _

/-- A quotient by the computed `omega`, rounded. -/
theorem quot_err (hfl : RelErr u fl) (hu0 : 0 ≤ u) (hu : u ≤ t) {p p' ω ω' e k : ℝ} (hte : t ≤ e) (he : e ≤ 1 / 1000) (hω : 0 < ω)
    (hω' : Rel (21 / 10 * t) ω' ω) (hk : 0 ≤ k) (hp : |p| ≤ k) (hp' : |p' - p| ≤ e * k) : |fl (p' / ω') - p / ω| ≤ 5 * e * k / ω := by
  have ht0 : 0 ≤ t := hu0.trans hu
  have he0 : 0 ≤ e := ht0.trans hte
  have hω'0 : 0 < ω' := hω'.pos hω (by linarith)
  have hl := hω'.lower hω.le
  have h0 : |ω' - ω| ≤ 21 / 10 * t * ω := by have := hω'; unfold Rel at this; rwa [abs_of_pos hω] at this
  have h1 : |p' / ω' - p / ω| ≤ 33 / 10 * e * k / ω := by
    have e1 : p' / ω' - p / ω = ((p' - p) * ω - p * (ω' - ω)) / (ω' * ω) := by field_simp; ring
    rw [e1, abs_div, abs_of_pos (mul_pos hω'0 hω), div_le_div_iff₀ (by positivity) hω]
    have e2 : |(p' - p) * ω - p * (ω' - ω)| ≤ 31 / 10 * e * k * ω := by
      refine (abs_sub _ _).trans ?_
      rw [abs_mul, abs_mul, abs_of_pos hω]
      have a1 := mul_le_mul_of_nonneg_right hp' hω.le
      have a2 := mul_le_mul hp h0 (abs_nonneg _) hk
      have a3 : t * (k * ω) ≤ e * (k * ω) := mul_le_mul_of_nonneg_right hte (by positivity)
      linarith
    have e3 : 997 / 1000 * ω ≤ ω' := le_trans (mul_le_mul_of_nonneg_right (by linarith) hω.le) hl
    have e4 := mul_le_mul_of_nonneg_right e2 hω.le
    have e5 : 33 / 10 * e * k * (997 / 1000 * ω * ω) ≤ 33 / 10 * e * k * (ω' * ω) :=
      mul_le_mul_of_nonneg_left (mul_le_mul_of_nonneg_right e3 hω.le) (by positivity)
    have e6 : 0 ≤ e * k * ω * ω := by positivity
    linarith
  have h2 : |p / ω| ≤ k / ω := by
    rw [abs_div, abs_of_pos hω]; exact div_le_div_of_nonneg_right hp hω.le
  refine (fl_near hfl hu0 h1 h2).trans ?_
  have ue : u * e ≤ 1 / 1000 * e := mul_le_mul_of_nonneg_right (by linarith) he0
  have e5 : 33 / 10 * e * k / ω + u * (k / ω + 33 / 10 * e * k / ω) = (33 / 10 * e + u + 33 / 10 * (u * e)) * (k / ω) := by ring
  rw [e5, mul_div_assoc]
  exact mul_le_mul_of_nonneg_right (by linarith) (by positivity)

theorem inflate' {A A' s z err r : ℝ} (hs0 : 0 ≤ s) (hs : 1000 * s ≤ 1) (hA : 0 ≤ A) (hA' : (1 - 60 * s) * A ≤ A') (hz : |z| ≤ √A)
    (herr : |err| ≤ 25 * s * √A + r) : |z + err| ≤ (1 + 60 * s) * √A' + r := by
  have h1 : (1 + 25 * s) * √A ≤ (1 + 60 * s) * √A' := by
    rw [mul_sqrt' (by linarith), mul_sqrt' (by linarith)]
    refine Real.sqrt_le_sqrt ?_
    refine le_trans ?_ (mul_le_mul_of_nonneg_left hA' (sq_nonneg _))
    rw [← mul_assoc]
    refine mul_le_mul_of_nonneg_right ?_ hA
    have e3 : s * s ≤ 1 / 1000 * s := mul_le_mul_of_nonneg_right (by linarith) hs0
    have e4 : s * s * s ≤ 1 / 1000 * s * (1 / 1000) := mul_le_mul e3 (by linarith) hs0 (by linarith)
    nlinarith
  have := abs_add_le z err
  linarith

end scalar

variable {n : ℕ} {u ε C a e : ℝ} {fl : ℝ → ℝ} {dot : (Fin n → ℝ) → (Fin n → ℝ) → ℝ} {E : Ell n} {g : Fin n → ℝ}

set_option maxHeartbeats 1000000 in
/-- One accepted update whose parameters have been computed with the error `e`. -/
theorem updateF_err (hE : E.Proper) (hfl : RelErr u fl) (hu0 : 0 ≤ u) (hu : u ≤ ε) (hdot : VecDotErr ε dot) (hC1 : 1 ≤ C)
    (hC : CondBound C E.Q) (hg : g ≠ 0) {be : Beta} {ρ σ δ ρ' σ' δ' tsq : ℝ}
    (hc : calcLlF fl n E.usePar (fl (E.kappa * dot g fun i => dot (E.Q i) g)) be = .ok (.accept ρ' σ' δ', tsq))
    (hte : C ^ 2 * ε ≤ e) (ha0 : 0 < a) (ha1 : a ≤ 1) (hs : 1000 * (C ^ 2 * e / a) ≤ 1)
    (hρ : |ρ| ≤ √(E.kappa * (g ⬝ᵥ E.Q *ᵥ g))) (hσ0 : 0 ≤ σ) (hσa : a ≤ 1 - σ) (hδ0 : 0 < δ) (hδa : a ≤ δ * (1 - σ))
    (hρ' : |ρ' - ρ| ≤ e * √(E.kappa * (g ⬝ᵥ E.Q *ᵥ g))) (hσ' : |σ' - σ| ≤ e) (hδ' : Rel e δ' δ) :
    ∃ E', updateF fl dot (g, be) E = .ok (E', .success, tsq) ∧ E'.Proper ∧
      (∀ x, (∀ y, (y ⬝ᵥ (x - E.xc + (ρ / (g ⬝ᵥ E.Q *ᵥ g)) • E.Q *ᵥ g)) ^ 2 ≤ E.kappa * δ * (y ⬝ᵥ (shape E.Q g σ) *ᵥ y)) →
        ∀ y, |y ⬝ᵥ (x - E'.xc)| ≤ (1 + 60 * (C ^ 2 * e / a)) * √(E'.kappa * (y ⬝ᵥ E'.Q *ᵥ y)) + u * ∑ i, |y i| * |E.xc i|) ∧
      (∀ y, (1 - 60 * (C ^ 2 * e / a)) * (E.kappa * δ * (y ⬝ᵥ (shape E.Q g σ) *ᵥ y)) ≤ E'.kappa * (y ⬝ᵥ E'.Q *ᵥ y)) ∧
      ∀ y, E'.kappa * (y ⬝ᵥ E'.Q *ᵥ y) ≤ (1 + 60 * (C ^ 2 * e / a)) * (E.kappa * δ * (y ⬝ᵥ (shape E.Q g σ) *ᵥ y)) := by
  obtain ⟨hn, hpd, hκ⟩ := hE
  have hQ := hpd.posSemidef
  have hsymm : ∀ i j, E.Q i j = E.Q j i := fun i j => by
    have := (psd_iff.1 hQ).1; exact (congrFun (congrFun this j) i)
  have hω : 0 < g ⬝ᵥ E.Q *ᵥ g := (pd_iff.1 hpd).2 g hg
  have hε0 : 0 ≤ ε := hu0.trans hu
  set t := C ^ 2 * ε with ht
  have hC2 : 1 ≤ C ^ 2 := one_le_pow₀ hC1
  have hεt : ε ≤ t := by rw [ht]; nlinarith
  have ht0 : 0 ≤ t := hε0.trans hεt
  have he0 : 0 ≤ e := ht0.trans hte
  set s := C ^ 2 * e / a with hsd
  have hs0 : 0 ≤ s := by positivity
  have hsa : s * a = C ^ 2 * e := by rw [hsd]; field_simp
  have heC : e ≤ C ^ 2 * e := by nlinarith
  have hes : e ≤ s := by
    have : s * a ≤ s * 1 := mul_le_mul_of_nonneg_left ha1 hs0
    linarith
  have he1 : e ≤ 1 / 1000 := by linarith
  have hut : u ≤ t := hu.trans hεt
  have hσ1 : σ ≤ 1 := by linarith
  set K := √E.kappa with hK
  have hK0 : 0 < K := Real.sqrt_pos.2 hκ
  set w := √(g ⬝ᵥ E.Q *ᵥ g) with hw
  have hw0 : 0 < w := Real.sqrt_pos.2 hω
  have hw2 : g ⬝ᵥ E.Q *ᵥ g = w ^ 2 := (Real.sq_sqrt hω.le).symm
  have hτ : √(E.kappa * (g ⬝ᵥ E.Q *ᵥ g)) = K * w := by rw [Real.sqrt_mul hκ.le]
  rw [hτ] at hρ hρ'
  obtain ⟨hV, hω'⟩ := qg_err (g := g) hQ hdot hε0 (by linarith) hC1 hC
  rw [← ht, ← hw] at hV
  rw [← ht] at hω'
  set V := fun i => dot (E.Q i) g with hVd
  set ω' := dot g V with hωd
  have hω'0 : 0 < ω' := hω'.pos hω (by linarith)
  have hro : |fl (ρ' / ω') - ρ / w ^ 2| ≤ 5 * e * K / w := by
    have := quot_err hfl hu0 hut hte he1 hω hω' (by positivity : 0 ≤ K * w) hρ hρ'
    rw [hw2] at this
    refine this.trans (le_of_eq ?_)
    field_simp
  have hso : |fl (σ' / ω') - σ / w ^ 2| ≤ 5 * e / w ^ 2 := by
    have := quot_err hfl hu0 hut hte he1 hω hω' (k := 1) zero_le_one (abs_le.2 ⟨by linarith, hσ1⟩) (by linarith)
    rwa [hw2, mul_one] at this
  set ro := fl (ρ' / ω') with hrod
  set so := fl (σ' / ω') with hsod
  set d := fun i => √(E.Q i i) with hd
  have hd0 : ∀ i, 0 ≤ d i := fun i => Real.sqrt_nonneg _
  set xc' : Fin n → ℝ := fun i => fl (E.xc i - fl (ro * V i)) with hxc'
  set Q' : Matrix (Fin n) (Fin n) ℝ := fun i j => fl (E.Q i j - fl (so * fl (V i * V j))) with hQ'
  have hv : ∀ i, |(E.Q *ᵥ g) i| ≤ d i * w := fun i => psd_mulVec hQ i g
  have hent : ∀ i j, |Q' i j - shape E.Q g σ i j| ≤ 50 * e * (d i * d j) := fun i j => by
    rw [shape_apply, hw2]
    have := entry_err' hfl hu0 hut (by linarith : t ≤ 5 * e) (by linarith) (hd0 i) (hd0 j) hw0 (hv i) (hv j) (hV i) (hV j)
      (psd_entry hQ i j) hσ0 hσ1 hso
    refine this.trans (le_of_eq (by ring))
  have hcen : ∀ i, |xc' i - (E.xc i - ρ / w ^ 2 * (E.Q *ᵥ g) i)| ≤ 25 * e * (K * d i) + u * |E.xc i| := fun i => by
    have := centre_err' (c := E.xc i) hfl hu0 hut (by linarith : t ≤ 5 * e) (by linarith) (hd0 i) hw0 hK0.le (hv i) (hV i) hρ hro
    refine this.trans (le_of_eq (by ring))
  have hN : ∀ y : Fin n → ℝ, (∑ i, d i * |y i|) ^ 2 ≤ C ^ 2 * (y ⬝ᵥ E.Q *ᵥ y) := hC
  have hq0 : ∀ y : Fin n → ℝ, 0 ≤ y ⬝ᵥ E.Q *ᵥ y := (psd_iff.1 hQ).2
  have hS0 : ∀ y : Fin n → ℝ, 0 ≤ y ⬝ᵥ (shape E.Q g σ) *ᵥ y := (psd_iff.1 (shape_psd hQ hω.ne' hσ1)).2
  -- the form before against the exact form after
  have hqq : ∀ y : Fin n → ℝ, e * (∑ i, d i * |y i|) ^ 2 ≤ s * (y ⬝ᵥ (shape E.Q g σ) *ᵥ y) := fun y => by
    have h1 := (shape_lower hQ hω hσ0 y).1
    have h2 := mul_le_mul_of_nonneg_right hσa (hq0 y)
    have h3 := mul_le_mul_of_nonneg_left (hN y) he0
    have h4 := mul_le_mul_of_nonneg_left (h2.trans h1) hs0
    have h5 : s * (a * (y ⬝ᵥ E.Q *ᵥ y)) = e * (C ^ 2 * (y ⬝ᵥ E.Q *ᵥ y)) := by rw [← mul_assoc, hsa]; ring
    linarith
  -- what is common to both settings of `no_defer_trick`
  have fin : ∀ E' : Ell n, E'.xc = xc' → E'.Qᵀ = E'.Q → 0 < E'.kappa →
      (∀ y : Fin n → ℝ, (1 - 60 * s) * (E.kappa * δ * (y ⬝ᵥ (shape E.Q g σ) *ᵥ y)) ≤ E'.kappa * (y ⬝ᵥ E'.Q *ᵥ y) ∧
        E'.kappa * (y ⬝ᵥ E'.Q *ᵥ y) ≤ (1 + 60 * s) * (E.kappa * δ * (y ⬝ᵥ (shape E.Q g σ) *ᵥ y))) →
      E'.Proper ∧ (∀ x, (∀ y, (y ⬝ᵥ (x - E.xc + (ρ / (g ⬝ᵥ E.Q *ᵥ g)) • E.Q *ᵥ g)) ^ 2 ≤ E.kappa * δ * (y ⬝ᵥ (shape E.Q g σ) *ᵥ y)) →
        ∀ y, |y ⬝ᵥ (x - E'.xc)| ≤ (1 + 60 * s) * √(E'.kappa * (y ⬝ᵥ E'.Q *ᵥ y)) + u * ∑ i, |y i| * |E.xc i|) ∧
      (∀ y, (1 - 60 * s) * (E.kappa * δ * (y ⬝ᵥ (shape E.Q g σ) *ᵥ y)) ≤ E'.kappa * (y ⬝ᵥ E'.Q *ᵥ y)) ∧
      ∀ y, E'.kappa * (y ⬝ᵥ E'.Q *ᵥ y) ≤ (1 + 60 * s) * (E.kappa * δ * (y ⬝ᵥ (shape E.Q g σ) *ᵥ y)) := by
    intro E' hx' hsy hk' hlow'
    have hlow := fun y => (hlow' y).1
    refine ⟨⟨hn, pd_iff.2 ⟨hsy, fun y hy => ?_⟩, hk'⟩, fun x hm y => ?_, hlow, fun y => (hlow' y).2⟩
    · have h1 := hlow y
      have h2 : 0 < y ⬝ᵥ (shape E.Q g σ) *ᵥ y := by
        have h3 := (pd_iff.1 hpd).2 y hy
        have h4 := (shape_lower hQ hω hσ0 y).1
        have h5 : 0 < (1 - σ) * (y ⬝ᵥ E.Q *ᵥ y) := mul_pos (by linarith) h3
        linarith
      have h3 : 0 < (1 - 60 * s) * (E.kappa * δ * (y ⬝ᵥ (shape E.Q g σ) *ᵥ y)) := by
        have : 0 < 1 - 60 * s := by linarith
        positivity
      exact pos_of_mul_pos_right (h3.trans_le h1) hk'.le
    · rw [hx']
      have hA0 : 0 ≤ E.kappa * δ * (y ⬝ᵥ (shape E.Q g σ) *ᵥ y) := mul_nonneg (by positivity) (hS0 y)
      have hz := Real.abs_le_sqrt (hm y)
      have hsplit : y ⬝ᵥ (x - xc') = y ⬝ᵥ (x - E.xc + (ρ / (g ⬝ᵥ E.Q *ᵥ g)) • E.Q *ᵥ g) +
          -(∑ i, y i * (xc' i - (E.xc i - ρ / w ^ 2 * (E.Q *ᵥ g) i))) := by
        rw [hw2]
        simp only [dotProduct, ← Finset.sum_neg_distrib, ← Finset.sum_add_distrib]
        refine Finset.sum_congr rfl fun i _ => ?_
        simp only [Pi.sub_apply, Pi.add_apply, Pi.smul_apply, smul_eq_mul]
        ring
      rw [hsplit]
      refine inflate' hs0 hs hA0 (hlow y) hz ?_
      rw [abs_neg]
      have h1 : |∑ i, y i * (xc' i - (E.xc i - ρ / w ^ 2 * (E.Q *ᵥ g) i))| ≤
          25 * e * (K * ∑ i, d i * |y i|) + u * ∑ i, |y i| * |E.xc i| := by
        refine (Finset.abs_sum_le_sum_abs _ _).trans ?_
        rw [Finset.mul_sum, Finset.mul_sum, Finset.mul_sum, ← Finset.sum_add_distrib]
        refine Finset.sum_le_sum fun i _ => ?_
        rw [abs_mul]
        have := mul_le_mul_of_nonneg_left (hcen i) (abs_nonneg (y i))
        linarith
      refine h1.trans (add_le_add_left ?_ _)
      set R := √(E.kappa * δ * (y ⬝ᵥ (shape E.Q g σ) *ᵥ y))
      -- `e K Σ ≤ s R`, squared
      have h2 : e * (K * ∑ i, d i * |y i|) ≤ s * R := by
        have hS : 0 ≤ ∑ i, d i * |y i| := Finset.sum_nonneg fun i _ => mul_nonneg (hd0 i) (abs_nonneg _)
        refine abs_le_of_sq_le_sq' ?_ (by positivity) |>.2
        have e1 : (s * R) ^ 2 = s ^ 2 * (E.kappa * δ * (y ⬝ᵥ (shape E.Q g σ) *ᵥ y)) := by
          rw [mul_pow, Real.sq_sqrt hA0]
        have e2 : (e * (K * ∑ i, d i * |y i|)) ^ 2 = e ^ 2 * (E.kappa * (∑ i, d i * |y i|) ^ 2) := by
          rw [mul_pow, mul_pow, hK, Real.sq_sqrt hκ.le]
        rw [e1, e2]
        have e3 := (shape_lower hQ hω hσ0 y).1
        have e4 : δ * ((1 - σ) * (y ⬝ᵥ E.Q *ᵥ y)) ≤ δ * (y ⬝ᵥ (shape E.Q g σ) *ᵥ y) := mul_le_mul_of_nonneg_left e3 hδ0.le
        have e5 := mul_le_mul_of_nonneg_right hδa (hq0 y)
        have e6 : a * (y ⬝ᵥ E.Q *ᵥ y) ≤ δ * (y ⬝ᵥ (shape E.Q g σ) *ᵥ y) := by linarith
        have e7 : e ^ 2 * C ^ 2 ≤ s ^ 2 * a := by
          have a1 : s ^ 2 * a = s * (C ^ 2 * e) := by rw [pow_two, mul_assoc, hsa]
          rw [a1]
          have : e * (C ^ 2 * e) ≤ s * (C ^ 2 * e) := mul_le_mul_of_nonneg_right hes (by positivity)
          linarith
        have e8 : (∑ i, d i * |y i|) ^ 2 * e ^ 2 ≤ s ^ 2 * (δ * (y ⬝ᵥ (shape E.Q g σ) *ᵥ y)) := by
          have a1 := mul_le_mul_of_nonneg_right (hN y) (sq_nonneg e)
          have a2 := mul_le_mul_of_nonneg_right e7 (hq0 y)
          have a3 := mul_le_mul_of_nonneg_left e6 (sq_nonneg s)
          linarith
        have := mul_le_mul_of_nonneg_left e8 hκ.le
        linarith
      linarith
  have hQ'sym : ∀ i j, Q' i j = Q' j i := fun i j => by
    simp only [hQ']; rw [hsymm i j, mul_comm (V i)]
  have hδ'0 : 0 < δ' := hδ'.pos hδ0 (by linarith)
  have hrun : updateF fl dot (g, be) E = if E.noDefer then
        .ok ({ E with xc := xc', Q := fun i j => fl (Q' i j * δ') }, .success, tsq)
      else .ok ({ E with xc := xc', Q := Q', kappa := fl (E.kappa * δ') }, .success, tsq) := by
    simp only [updateF]
    rw [← hVd, ← hωd, hc]
    simp only [divF, pyDiv, if_neg hω'0.ne', Except.map]
    rfl
  rw [hrun]
  have hee : e * e ≤ 1 / 1000 * e := mul_le_mul_of_nonneg_right he1 he0
  have hue : u * e ≤ 1 / 1000 * e := mul_le_mul_of_nonneg_right (by linarith) he0
  by_cases hdef : E.noDefer
  · rw [if_pos hdef]
    refine ⟨_, rfl, ?_⟩
    have hent2 : ∀ i j, |fl (Q' i j * δ') - (δ • shape E.Q g σ) i j| ≤ 60 * e * δ * (d i * d j) := fun i j => by
      set m := d i * d j with hm
      have hm0 : 0 ≤ m := mul_nonneg (hd0 i) (hd0 j)
      have e2 := shape_entry hQ hω hσ0 hσ1 i j
      have e3 : |δ' - δ| ≤ e * δ := by have := hδ'; unfold Rel at this; rwa [abs_of_pos hδ0] at this
      have e4 := mul_near (hent i j) e3 e2 (abs_of_pos hδ0).le
      have e5 : |shape E.Q g σ i j * δ| ≤ m * δ := by
        rw [abs_mul, abs_of_pos hδ0]; exact mul_le_mul_of_nonneg_right e2 hδ0.le
      have e6 := fl_near hfl hu0 e4 e5
      rw [Matrix.smul_apply, smul_eq_mul, mul_comm δ]
      refine e6.trans ?_
      change 50 * e * m * (δ + e * δ) + m * (e * δ) + u * (m * δ + (50 * e * m * (δ + e * δ) + m * (e * δ))) ≤ _
      have e7 : 50 * e * m * (δ + e * δ) + m * (e * δ) + u * (m * δ + (50 * e * m * (δ + e * δ) + m * (e * δ))) =
          (51 * e + 50 * (e * e) + u + 51 * (u * e) + 50 * (u * e) * e) * (δ * m) := by ring
      rw [e7, mul_assoc (60 * e)]
      have e8 : u * e * e ≤ 1 / 1000 * e * 1 := mul_le_mul hue (by linarith) he0 (by linarith)
      exact mul_le_mul_of_nonneg_right (by linarith) (by positivity)
    have key := fin { E with xc := xc', Q := fun i j => fl (Q' i j * δ') } rfl
      (by ext i j; change fl (Q' j i * δ') = fl (Q' i j * δ'); rw [hQ'sym]) hκ (fun y => by
        simp only
        obtain ⟨e1, e1'⟩ := abs_le.1 (quad_err hent2 y)
        rw [smul_mulVec, dotProduct_smul, smul_eq_mul] at e1 e1'
        have e2 := mul_le_mul_of_nonneg_left (hqq y) (show 0 ≤ 60 * δ by positivity)
        set q' := y ⬝ᵥ (shape E.Q g σ) *ᵥ y with hq'
        have e6 : (1 - 60 * s) * (δ * q') ≤ y ⬝ᵥ (fun i j => fl (Q' i j * δ') : Matrix (Fin n) (Fin n) ℝ) *ᵥ y := by linarith
        have e7 : y ⬝ᵥ (fun i j => fl (Q' i j * δ') : Matrix (Fin n) (Fin n) ℝ) *ᵥ y ≤ (1 + 60 * s) * (δ * q') := by linarith
        have := mul_le_mul_of_nonneg_left e6 hκ.le
        have := mul_le_mul_of_nonneg_left e7 hκ.le
        constructor <;> linarith)
    exact key
  · rw [if_neg hdef]
    refine ⟨_, rfl, ?_⟩
    have hk' : Rel (3 * e) (fl (E.kappa * δ')) (E.kappa * δ) :=
      ((hδ'.mul_left E.kappa).round hfl hu0 (by linarith)).mono (by linarith)
    have hκδ : 0 < E.kappa * δ := by positivity
    have hk0 : 0 < fl (E.kappa * δ') := hk'.pos hκδ (by linarith)
    have key := fin { E with xc := xc', Q := Q', kappa := fl (E.kappa * δ') } rfl
      (by ext i j; change Q' j i = Q' i j; rw [hQ'sym]) hk0 (fun y => by
        simp only
        obtain ⟨e1, e1'⟩ := abs_le.1 (quad_err hent y)
        have e2 := hqq y
        set q' := y ⬝ᵥ (shape E.Q g σ) *ᵥ y with hq'
        have hq'0 : 0 ≤ q' := hS0 y
        have e6 : (1 - 50 * s) * q' ≤ y ⬝ᵥ Q' *ᵥ y := by linarith
        have e7 := hk'.lower hκδ.le
        have e8 : (1 - 3 * s) * (E.kappa * δ) ≤ fl (E.kappa * δ') := by
          refine le_trans (mul_le_mul_of_nonneg_right ?_ hκδ.le) e7
          linarith
        have e9 := mul_le_mul e8 e6 (mul_nonneg (by linarith) hq'0) hk0.le
        have e10 : 0 ≤ E.kappa * δ * q' := by positivity
        have e11 : (1 - 60 * s) * (E.kappa * δ * q') ≤ (1 - 3 * s) * (1 - 50 * s) * (E.kappa * δ * q') :=
          mul_le_mul_of_nonneg_right (by nlinarith) e10
        have f6 : y ⬝ᵥ Q' *ᵥ y ≤ (1 + 50 * s) * q' := by linarith
        have f8 : fl (E.kappa * δ') ≤ (1 + 3 * s) * (E.kappa * δ) :=
          (hk'.upper hκδ.le).trans (mul_le_mul_of_nonneg_right (by linarith) hκδ.le)
        have f9 := mul_le_mul f8 f6 (le_trans (mul_nonneg (by linarith) hq'0) e6) (by positivity)
        have f11 : (1 + 3 * s) * (1 + 50 * s) * (E.kappa * δ * q') ≤ (1 + 60 * s) * (E.kappa * δ * q') :=
          mul_le_mul_of_nonneg_right (by nlinarith) e10
        constructor <;> linarith)
    exact key

end Verif
