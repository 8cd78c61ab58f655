import Verif.Model.NetworkFloat
import Verif.Spec.NetFloatSpec
import Verif.Spec.RelErr
import Verif.Props.Ell1dFloat
import Verif.Props.CycleRatio

/-! # The cuts of the rounded `cycle_ratio_oracle` -/
namespace Verif
variable {V α : Type _} [Field α] [LinearOrder α] [IsStrictOrderedRing α]

theorem abs_sum_map_le {ι : Type _} {l : List ι} {a b : ι → α} (h : ∀ i ∈ l, |a i| ≤ b i) : |(l.map a).sum| ≤ (l.map b).sum := by
  induction l with
  | nil => simp
  | cons i l ih =>
    simp only [List.map_cons, List.sum_cons]
    exact (abs_add_le _ _).trans (add_le_add (h i (by simp)) (ih fun j hj => h j (by simp [hj])))

theorem sum_map_le {ι : Type _} {l : List ι} {a b : ι → α} (h : ∀ i ∈ l, a i ≤ b i) : (l.map a).sum ≤ (l.map b).sum := by
  induction l with
  | nil => simp
  | cons i l ih =>
    simp only [List.map_cons, List.sum_cons]
    exact add_le_add (h i (by simp)) (ih fun j hj => h j (by simp [hj]))

theorem leftSum_err {u : α} {fl : α → α} (hfl : RelErr u fl) (hu : 0 ≤ u) (n : ℕ) : SumErr ((1 + u) ^ n - 1) n (leftSum fl) := by
  have key : ∀ (l : List α) (a b : α), |l.foldl (fun a b => fl (a + b)) a - (b + l.sum)| ≤
      (1 + u) ^ l.length * |a - b| + ((1 + u) ^ l.length - 1) * (|b| + (l.map abs).sum) := by
    intro l
    induction l with
    | nil => intro a b; simp
    | cons x l ih =>
      intro a b
      have h1 : 1 ≤ (1 + u) ^ l.length := one_le_pow₀ (by linarith)
      have h2 := ih (fl (a + x)) (b + x)
      have h3 : |fl (a + x) - (b + x)| ≤ (1 + u) * |a - b| + u * (|b| + |x|) := by
        have e1 := hfl (a + x)
        have e2 := abs_add_le (a - b) (b + x)
        rw [show a - b + (b + x) = a + x by ring] at e2
        have e3 := abs_add_le b x
        have e4 := abs_add_le (fl (a + x) - (a + x)) (a - b)
        rw [show fl (a + x) - (a + x) + (a - b) = fl (a + x) - (b + x) by ring] at e4
        have e5 := mul_le_mul_of_nonneg_left (e2.trans (add_le_add_right e3 _)) hu
        linarith
      have h4 : |b + x| ≤ |b| + |x| := abs_add_le _ _
      have h0 : 0 ≤ (l.map abs).sum := List.sum_nonneg fun y hy => by obtain ⟨z, -, rfl⟩ := List.mem_map.1 hy; exact abs_nonneg _
      simp only [List.foldl_cons, List.sum_cons, List.map_cons, List.length_cons, pow_succ]
      rw [show b + (x + l.sum) = b + x + l.sum by ring]
      refine h2.trans ?_
      have e1 := mul_le_mul_of_nonneg_left h3 (zero_le_one.trans h1)
      have e2 := mul_le_mul_of_nonneg_left h4 (sub_nonneg.2 h1)
      have e3 : 0 ≤ (1 + u) ^ l.length * u * (l.map abs).sum := mul_nonneg (mul_nonneg (zero_le_one.trans h1) hu) h0
      nlinarith
  intro l hl
  have := key l 0 0
  simp only [zero_add, sub_self, abs_zero, mul_zero] at this
  refine this.trans (mul_le_mul_of_nonneg_right ?_ (List.sum_nonneg fun y hy => by obtain ⟨z, -, rfl⟩ := List.mem_map.1 hy; exact abs_nonneg _))
  have := pow_le_pow_right₀ (show 1 ≤ 1 + u by linarith) hl
  linarith

section oracle
variable {u γ ρ s0 M D : α} {n : ℕ} {E : List (V × V)} {cost time : V × V → α} {fl : α → α} {sum : List α → α} {find : Finder V α}

/-- The accuracy of the whole search. -/
def ratioUnit (u γ ρ s0 M D : α) : α := u * (D / s0) + (u + γ) * (ρ + M)

omit [IsStrictOrderedRing α] in
theorem RatioData.time_pos (h : RatioData E cost time ρ s0) {e : V × V} (he : e ∈ E) : 0 < time e := h.pos.trans_le (h.htime e he)

/-- The rounded weight of an edge. -/
theorem ratioEvalF_err (hfl : RelErr u fl) (hu : 0 ≤ u) (hu1 : u ≤ 1 / 100) (h : RatioData E cost time ρ s0) {e : V × V} (he : e ∈ E) (x : α) :
    |ratioEvalF fl cost time e x - (cost e - time e * x)| ≤ 3 * u * ((ρ + |x|) * time e) ∧
      |ratioEvalF fl cost time e x| ≤ 103 / 100 * ((ρ + |x|) * time e) := by
  have ht := h.time_pos he
  have hc := h.hcost e he
  have h1 := hfl (time e * x)
  have hx : |time e * x| = |x| * time e := by rw [abs_mul, abs_of_pos ht, mul_comm]
  rw [hx] at h1
  set p := fl (time e * x)
  have h2 := hfl (cost e - p)
  have hp : |p| ≤ (1 + u) * (|x| * time e) := by
    have := abs_sub_abs_le_abs_sub p (time e * x)
    rw [hx] at this
    linarith
  have h3 : |cost e - p| ≤ ρ * time e + (1 + u) * (|x| * time e) := (abs_sub _ _).trans (add_le_add hc hp)
  have h4 := abs_add_le (fl (cost e - p) - (cost e - p)) (time e * x - p)
  rw [show fl (cost e - p) - (cost e - p) + (time e * x - p) = fl (cost e - p) - (cost e - time e * x) by ring, abs_sub_comm (time e * x)] at h4
  have h5 := mul_le_mul_of_nonneg_left h3 hu
  have hxt : 0 ≤ |x| * time e := mul_nonneg (abs_nonneg _) ht.le
  have hρ : 0 ≤ ρ * time e := (abs_nonneg _).trans hc
  have h6 : u * u * (|x| * time e) ≤ u * (1 / 100) * (|x| * time e) :=
    mul_le_mul_of_nonneg_right (mul_le_mul_of_nonneg_left hu1 hu) hxt
  have h7 : 0 ≤ u * (|x| * time e) := mul_nonneg hu hxt
  have h8 : 0 ≤ u * (ρ * time e) := mul_nonneg hu hρ
  have hA : |fl (cost e - p) - (cost e - time e * x)| ≤ 3 * u * ((ρ + |x|) * time e) := by linarith
  refine ⟨hA, ?_⟩
  have h9 := abs_add_le (fl (cost e - p) - (cost e - time e * x)) (cost e - time e * x)
  rw [sub_add_cancel] at h9
  have h10 := abs_sub (cost e) (time e * x)
  rw [hx] at h10
  have h11 : 3 * u * ((ρ + |x|) * time e) ≤ 3 / 100 * ((ρ + |x|) * time e) := mul_le_mul_of_nonneg_right (by linarith) (by linarith)
  show |fl (cost e - p)| ≤ _
  linarith

theorem RatioData.rho (h : RatioData E cost time ρ s0) {e : V × V} (he : e ∈ E) : 0 ≤ ρ := by
  have := (abs_nonneg _).trans (h.hcost e he)
  exact nonneg_of_mul_nonneg_left this (h.time_pos he)

/-- The cut of a cycle, and how negative its right-hand side can be. -/
theorem ratioCut_ok (hfl : RelErr u fl) (hu : 0 ≤ u) (hu1 : u ≤ 1 / 100) (hs : SumErr γ n sum) (hγ : 0 ≤ γ) (hγ1 : γ ≤ 1 / 100)
    (h : RatioData E cost time ρ s0) (hM : 0 ≤ M) {x : α} (hx : |x| ≤ 2 * M) {d : V → α} (hD : ∀ v, |d v| ≤ D) (hD0 : 0 ≤ D) {c : List (V × V)}
    (hc : ClosedWalk E c.reverse) (hcn : c.length ≤ n)
    (hneg : (c.map fun e => ratioEvalF fl cost time e x).sum ≤ (c.map fun e => u * |d e.1 + ratioEvalF fl cost time e x|).sum) :
    99 / 100 * s0 ≤ -sum (c.map fun e => ratioGrad time e x) ∧
    -(4 * ratioUnit u γ ρ s0 M D * -sum (c.map fun e => ratioGrad time e x)) ≤ -sum (c.map fun e => ratioEvalF fl cost time e x) ∧
    ∀ z, RatioFeasible E cost time z → |z| ≤ M → -sum (c.map fun e => ratioGrad time e x) * (z - x) + -sum (c.map fun e => ratioEvalF fl cost time e x) ≤
      7 * ratioUnit u γ ρ s0 M D * -sum (c.map fun e => ratioGrad time e x) := by
  obtain ⟨hne, v, hv⟩ := id hc
  have hmem : ∀ e ∈ c, e ∈ E := fun e he => hv.mem e (by simpa using he)
  have hne' : c ≠ [] := by simpa using hne
  obtain ⟨e0, he0⟩ := List.exists_mem_of_ne_nil c hne'
  have hρ := h.rho (hmem e0 he0)
  set G := (c.map time).sum with hG
  have hGs : s0 ≤ G := sum_ge h.pos.le hne' fun e he => h.htime e (hmem e he)
  have hG0 : 0 < G := h.pos.trans_le hGs
  -- the slope
  have hg : |-sum (c.map fun e => ratioGrad time e x) - G| ≤ γ * G := by
    have h1 := hs (c.map fun e => ratioGrad time e x) (by simpa using hcn)
    have e1 : (c.map fun e => ratioGrad time e x).sum = -G := by
      rw [hG]; clear * -
      induction c with
      | nil => simp
      | cons a c ih => rw [List.map_cons, List.sum_cons, ih, List.map_cons, List.sum_cons, ratioGrad]; ring
    have e2 : ((c.map fun e => ratioGrad time e x).map abs).sum = G := by
      rw [List.map_map, hG]
      congr 1
      refine List.map_congr_left fun e he => ?_
      simp only [Function.comp, ratioGrad, abs_neg, abs_of_pos (h.time_pos (hmem e he))]
    rw [e1, e2] at h1
    rwa [show -sum (c.map fun e => ratioGrad time e x) - G = -(sum (c.map fun e => ratioGrad time e x) - -G) by ring, abs_neg]
  set g := -sum (c.map fun e => ratioGrad time e x)
  -- the weights
  set X := ρ + |x| with hXd
  have hX0 : 0 ≤ X := add_nonneg hρ (abs_nonneg _)
  have hX : X ≤ 2 * (ρ + M) := by linarith
  have hXG : (c.map fun e => X * time e).sum = X * G := by rw [List.sum_map_mul_left]
  have hw1 : |(c.map fun e => ratioEvalF fl cost time e x).sum - (c.map fun e => cost e - time e * x).sum| ≤ 3 * u * (X * G) := by
    have e1 : (c.map fun e => ratioEvalF fl cost time e x).sum - (c.map fun e => cost e - time e * x).sum =
        (c.map fun e => ratioEvalF fl cost time e x - (cost e - time e * x)).sum := by
      clear * -
      induction c with
      | nil => simp
      | cons a c ih => simp only [List.map_cons, List.sum_cons, ← ih]; ring
    rw [e1, ← hXG, ← List.sum_map_mul_left]
    exact abs_sum_map_le fun e he => (ratioEvalF_err hfl hu hu1 h (hmem e he) x).1
  have hw2 : (c.map fun e => |ratioEvalF fl cost time e x|).sum ≤ 103 / 100 * (X * G) := by
    rw [← hXG, ← List.sum_map_mul_left]
    exact sum_map_le fun e he => (ratioEvalF_err hfl hu hu1 h (hmem e he) x).2
  have hf := hs (c.map fun e => ratioEvalF fl cost time e x) (by simpa using hcn)
  rw [List.map_map] at hf
  change _ ≤ γ * (c.map fun e => |ratioEvalF fl cost time e x|).sum at hf
  have hf' := hf.trans (mul_le_mul_of_nonneg_left hw2 hγ)
  set Sw := (c.map fun e => ratioEvalF fl cost time e x).sum
  set f := sum (c.map fun e => ratioEvalF fl cost time e x)
  -- `G` and `g`
  have hgG : γ * G ≤ 1 / 100 * G := mul_le_mul_of_nonneg_right hγ1 hG0.le
  rw [abs_le] at hg hf' hw1
  have hg1 : 99 / 100 * G ≤ g := by linarith
  have hXG0 : 0 ≤ X * G := mul_nonneg hX0 hG0.le
  have hρM : 0 ≤ ρ + M := add_nonneg hρ hM
  have hXG2 : X * G ≤ 2 * (ρ + M) * (102 / 100 * g) :=
    mul_le_mul hX (by linarith) hG0.le (by linarith)
  have hg0 : 0 < g := by linarith
  refine ⟨by linarith, ?_, fun z hz hzM => ?_⟩
  · -- `Σ w ≤ u Σ (D + |w|)`
    have h1 : (c.map fun e => u * |d e.1 + ratioEvalF fl cost time e x|).sum ≤ u * (D / s0 * G + 103 / 100 * (X * G)) := by
      have : (c.map fun e => u * |d e.1 + ratioEvalF fl cost time e x|).sum ≤
          (c.map fun e => u * (D / s0 * time e + 103 / 100 * (X * time e))).sum :=
        sum_map_le fun e he => mul_le_mul_of_nonneg_left ((abs_add_le _ _).trans (add_le_add ((hD _).trans (by
          rw [div_mul_eq_mul_div, le_div_iff₀ h.pos]
          exact mul_le_mul_of_nonneg_left (h.htime e (hmem e he)) hD0)) (ratioEvalF_err hfl hu hu1 h (hmem e he) x).2)) hu
      refine this.trans (le_of_eq ?_)
      rw [List.sum_map_mul_left, List.sum_map_add, List.sum_map_mul_left, List.sum_map_mul_left, List.sum_map_mul_left]
    have hDs : 0 ≤ D / s0 := div_nonneg hD0 h.pos.le
    have h2 : u * (D / s0) * G ≤ u * (D / s0) * (102 / 100 * g) := mul_le_mul_of_nonneg_left (by linarith) (mul_nonneg hu hDs)
    have h3 : (u + γ) * (X * G) ≤ (u + γ) * (2 * (ρ + M) * (102 / 100 * g)) := mul_le_mul_of_nonneg_left hXG2 (by linarith)
    have h4 : 0 ≤ (u + γ) * (ρ + M) * g := mul_nonneg (mul_nonneg (by linarith) hρM) hg0.le
    have h5 : 0 ≤ u * (D / s0) * g := mul_nonneg (mul_nonneg hu hDs) hg0.le
    unfold ratioUnit
    linarith [hf'.1, hf'.2, hw1.1, hw1.2]
  · have hnn : 0 ≤ (c.map fun e => cost e - time e * z).sum := by
      obtain ⟨p, hp⟩ := hz
      have := hc.nonneg hp
      rwa [List.map_reverse, List.sum_reverse] at this
    have hsplit : (c.map fun e => cost e - time e * z).sum = (c.map fun e => cost e - time e * x).sum - G * (z - x) := by
      rw [hG]; clear * -
      induction c with
      | nil => simp
      | cons a c ih => simp only [List.map_cons, List.sum_cons, ih]; ring
    have hzx : |z - x| ≤ 3 * M := (abs_sub _ _).trans (by linarith)
    have h1 : (g - G) * (z - x) ≤ γ * G * (3 * M) := by
      refine (le_abs_self _).trans ?_
      rw [abs_mul]
      exact mul_le_mul (abs_le.2 hg) hzx (abs_nonneg _) (mul_nonneg hγ hG0.le)
    have h2 : γ * G * (3 * M) ≤ γ * (102 / 100 * g) * (3 * M) :=
      mul_le_mul_of_nonneg_right (mul_le_mul_of_nonneg_left (by linarith) hγ) (by linarith)
    have h3 : (3 * u + 103 / 100 * γ) * (X * G) ≤ (3 * u + 103 / 100 * γ) * (2 * (ρ + M) * (102 / 100 * g)) :=
      mul_le_mul_of_nonneg_left hXG2 (by linarith)
    have h4 : 0 ≤ u * (ρ + M) * g := mul_nonneg (mul_nonneg hu hρM) hg0.le
    have h5 : 0 ≤ γ * ρ * g := mul_nonneg (mul_nonneg hγ hρ) hg0.le
    have h6 : 0 ≤ γ * M * g := mul_nonneg (mul_nonneg hγ hM) hg0.le
    have h7 : 0 ≤ u * (D / s0) * g := mul_nonneg (mul_nonneg hu (div_nonneg hD0 h.pos.le)) hg0.le
    unfold ratioUnit
    linarith [hf'.1, hf'.2, hw1.1, hw1.2]

/-- A call of the rounded oracle. -/
theorem cycleRatioCallF_ok (hfl : RelErr u fl) (hu : 0 ≤ u) (hu1 : u ≤ 1 / 100) (hs : SumErr γ n sum) (hγ : 0 ≤ γ) (hγ1 : γ ≤ 1 / 100)
    (h : RatioData E cost time ρ s0) (hρ : 0 ≤ ρ) (hfind : FinderUpTo u n E find) (hM : 0 ≤ M) {x : α} (hx : |x| ≤ 2 * M) {t : WithBot α}
    {d d' : V → α} {c : α × α} {t1 : Option (WithBot α)} (hcall : cycleRatioCallF fl sum find cost time x t d = .ok (d', c, t1)) (hD : ∀ v, |d' v| ≤ D)
    (hD0 : 0 ≤ D) :
    (∀ v, d' v ≤ d v) ∧ 99 / 100 * s0 ≤ |c.1| ∧ -(4 * ratioUnit u γ ρ s0 M D * |c.1|) ≤ c.2 ∧
    (∀ z, RatioFeasible E cost time z → |z| ≤ M → t1.getD t ≤ (z : WithBot α) → z ∈ halfLineUpTo (7 * ratioUnit u γ ρ s0 M D) x c) ∧
    (t1 = none ∨ t1 = some (x : WithBot α) ∧ c = (-1, 0) ∧ t < (x : WithBot α) ∧
      RatioFeasible E cost time (x - 10 * ratioUnit u γ ρ s0 M D)) := by
  have hDs : 0 ≤ D / s0 := div_nonneg hD0 h.pos.le
  have hρM : 0 ≤ ρ + M := add_nonneg hρ hM
  have hA : 0 ≤ u * (D / s0) := mul_nonneg hu hDs
  have hB : 0 ≤ u * (ρ + M) := mul_nonneg hu hρM
  have hC : 0 ≤ γ * (ρ + M) := mul_nonneg hγ hρM
  have hU : 0 ≤ ratioUnit u γ ρ s0 M D := by unfold ratioUnit; linarith
  have h99 : 99 / 100 * s0 ≤ |(-1 : α)| := by rw [abs_neg, abs_one]; linarith [h.one, h.pos]
  have net : ∀ {d' c t1}, (∀ v, |d' v| ≤ D) → t < (x : WithBot α) → ratioNetF fl sum find cost time x d = .ok (d', c, t1) →
      (∀ v, d' v ≤ d v) ∧ 99 / 100 * s0 ≤ |c.1| ∧ -(4 * ratioUnit u γ ρ s0 M D * |c.1|) ≤ c.2 ∧
    (∀ z, RatioFeasible E cost time z → |z| ≤ M → t1.getD t ≤ (z : WithBot α) → z ∈ halfLineUpTo (7 * ratioUnit u γ ρ s0 M D) x c) ∧
    (t1 = none ∨ t1 = some (x : WithBot α) ∧ c = (-1, 0) ∧ t < (x : WithBot α) ∧
      RatioFeasible E cost time (x - 10 * ratioUnit u γ ρ s0 M D)) := by
    intro d' c t1 hD htx hnet
    unfold ratioNetF networkCallF at hnet
    cases hf : find d (fun e => ratioEvalF fl cost time e x) with
    | error e => rw [hf] at hnet; simp at hnet
    | ok r =>
      obtain ⟨d1, r⟩ := r
      obtain ⟨k1, k2, k3⟩ := hfind _ _ _ _ hf
      rw [hf] at hnet
      cases r with
      | none =>
        simp only [Except.ok.injEq, Prod.mk.injEq] at hnet
        obtain ⟨rfl, rfl, rfl⟩ := hnet
        refine ⟨k1, h99, ?_, fun z _ _ hz => ?_, .inr ⟨rfl, rfl, htx, d1, fun e he => ?_⟩⟩
        · simp only [abs_neg, abs_one]; linarith
        · simp only [Option.getD_some, WithBot.coe_le_coe] at hz
          simp only [halfLineUpTo, Set.mem_ofPred_eq, abs_neg, abs_one]
          linarith
        · have e1 := k2 rfl e he
          have e2 := ratioEvalF_err hfl hu hu1 h he x
          have e3 := abs_add_le (d1 e.1) (ratioEvalF fl cost time e x)
          have e4 : D ≤ D / s0 * time e := by
            rw [div_mul_eq_mul_div, le_div_iff₀ h.pos]
            exact mul_le_mul_of_nonneg_left (h.htime e he) hD0
          have e5 := mul_le_mul_of_nonneg_left (e3.trans (add_le_add ((hD e.1).trans e4) e2.2)) hu
          have e6 := (abs_le.1 e2.1).2
          have ht := h.time_pos he
          have e7 : u * ((ρ + |x|) * time e) ≤ u * (2 * (ρ + M) * time e) :=
            mul_le_mul_of_nonneg_left (mul_le_mul_of_nonneg_right (by linarith) ht.le) hu
          have e8 : 0 ≤ u * (D / s0) * time e := mul_nonneg hA ht.le
          have e9 : 0 ≤ u * (ρ + M) * time e := mul_nonneg hB ht.le
          have e10 : 0 ≤ γ * (ρ + M) * time e := mul_nonneg hC ht.le
          simp only
          unfold ratioUnit
          linarith
      | some l =>
        simp only [Except.ok.injEq, Prod.mk.injEq] at hnet
        obtain ⟨rfl, rfl, rfl⟩ := hnet
        obtain ⟨q1, q2, q3⟩ := k3 l rfl
        obtain ⟨r1, r2, r3⟩ := ratioCut_ok hfl hu hu1 hs hγ hγ1 h hM hx hD hD0 q1 q2 q3
        have hg : 0 < -sum (l.map fun e => ratioGrad time e x) := by linarith [h.pos]
        simp only [abs_of_pos hg, halfLineUpTo, Set.mem_ofPred_eq]
        exact ⟨k1, r1, r2, fun z hz hzM _ => r3 z hz hzM, .inl trivial⟩
  unfold cycleRatioCallF at hcall
  split at hcall
  · exact net hD (WithBot.bot_lt_coe _) hcall
  · rename_i t
    simp only at hcall
    have herr := hfl (t - x)
    split_ifs at hcall with h0
    · simp only [Except.ok.injEq, Prod.mk.injEq] at hcall
      obtain ⟨rfl, rfl, rfl⟩ := hcall
      refine ⟨fun _ => le_rfl, h99, ?_, fun z _ hzM hz => ?_, .inl rfl⟩
      · simp only [abs_neg, abs_one]; linarith
      · have hz : t ≤ z := WithBot.coe_le_coe.1 hz
        simp only [halfLineUpTo, Set.mem_ofPred_eq, abs_neg, abs_one]
        have htx : 0 ≤ t - x := by
          by_contra hc
          rw [not_le] at hc
          rw [abs_of_neg hc, abs_le] at herr
          nlinarith [herr.2]
        rw [abs_of_nonneg htx, abs_le] at herr
        have : u * (t - x) ≤ u * (3 * M) := mul_le_mul_of_nonneg_left (by linarith [(abs_le.1 hzM).2, (abs_le.1 hx).1]) hu
        have h5 : 0 ≤ u * ρ := mul_nonneg hu hρ
        have h6 : 0 ≤ u * M := mul_nonneg hu hM
        unfold ratioUnit
        linarith [herr.2]
    · refine net hD (WithBot.coe_lt_coe.2 ?_) hcall
      by_contra hc
      have hc : 0 ≤ t - x := by linarith
      rw [abs_of_nonneg hc, abs_le] at herr
      have : u * (t - x) ≤ 1 * (t - x) := mul_le_mul_of_nonneg_right (by linarith) hc
      linarith [herr.1]

end oracle
end Verif
