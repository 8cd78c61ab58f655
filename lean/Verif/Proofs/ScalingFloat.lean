import Verif.Model.ScalingFloat
import Verif.Spec.ScalingFloatSpec
import Verif.Proofs.NetworkFloat
import Verif.Proofs.ProfitFloat
import Verif.Props.Network

/-! # One call of `optscaling_oracle` with rounded operations -/
namespace Verif
open Matrix FloatSpec
variable {V : Type _} [LinearOrder V] {G : List (V × V)} {cost : V × V → ℝ} {u γ R c D : ℝ} {n : ℕ} {fl : ℝ → ℝ} {sum : List ℝ → ℝ} {find : Finder V ℝ} {x : Fin 2 → ℝ}

theorem scaleEval_bound (hx : ∀ i, |x i| ≤ R) {e : V × V} (he : |cost e| ≤ c) : |scaleEval cost e x| ≤ R + c := by
  have h0 := abs_le.1 (hx 0)
  have h1 := abs_le.1 (hx 1)
  have h2 := abs_le.1 he
  unfold scaleEval
  split_ifs <;> rw [abs_le] <;> constructor <;> linarith

theorem scaleEvalF_eq (fl : ℝ → ℝ) (cost : V × V → ℝ) (e : V × V) (x : Fin 2 → ℝ) : scaleEvalF fl cost e x = fl (scaleEval cost e x) := by
  unfold scaleEvalF scaleEval
  split_ifs <;> rfl

theorem scaleEvalF_err (hfl : RelErr u fl) (hu : 0 ≤ u) (hx : ∀ i, |x i| ≤ R) {e : V × V} (he : |cost e| ≤ c) :
    |scaleEvalF fl cost e x - scaleEval cost e x| ≤ u * (R + c) := by
  rw [scaleEvalF_eq]
  exact (hfl _).trans (mul_le_mul_of_nonneg_left (scaleEval_bound hx he) hu)

theorem scaleEvalF_bound (hfl : RelErr u fl) (hu : 0 ≤ u) (hu1 : u ≤ 1) (hx : ∀ i, |x i| ≤ R) {e : V × V} (he : |cost e| ≤ c) : |scaleEvalF fl cost e x| ≤ 2 * (R + c) := by
  have h1 := scaleEvalF_err hfl hu hx he
  have h2 := scaleEval_bound hx he
  have h3 := abs_sub_abs_le_abs_sub (scaleEvalF fl cost e x) (scaleEval cost e x)
  have h4 := mul_le_mul_of_nonneg_right hu1 ((abs_nonneg _).trans h2)
  linarith

theorem sum_const_le {ι : Type _} {l : List ι} {a : ι → ℝ} {b : ℝ} (h : ∀ i ∈ l, a i ≤ b) : (l.map a).sum ≤ l.length * b := by
  have := sum_map_le (b := fun _ => b) h
  simpa using this

/-- The cut of a cycle. -/
theorem scale_cycle (hfl : RelErr u fl) (hu : 0 ≤ u) (hu1 : u ≤ 1) (hs : SumErr γ n sum) (hl : SumErr γ n (leftSum fl)) (hγ : 0 ≤ γ) (hR : 0 ≤ R) (hc0 : 0 ≤ c)
    (hx : ∀ i, |x i| ≤ R) (hc : ∀ e ∈ G, |cost e| ≤ c) (hG : ∀ e ∈ G, e.1 ≠ e.2) {d : V → ℝ} (hd : ∀ v, |d v| ≤ D) {l : List (V × V)} (hcl : ClosedWalk G l.reverse) (hln : l.length ≤ n)
    (hneg : (l.map fun e => scaleEvalF fl cost e x).sum ≤ (l.map fun e => u * |d e.1 + scaleEvalF fl cost e x|).sum) :
    -scaleUnit u γ n D (R + c) ≤ -sum (l.map fun e => scaleEvalF fl cost e x) ∧
    ∀ (z : Fin 2 → ℝ) (δ : ℝ), (∀ i, |z i| ≤ R) → 0 ≤ δ → ScalingFeasible G cost (z 0 - δ) (z 1 + δ) →
      (-gradSumF fl (l.map fun e => scaleGrad e x)) ⬝ᵥ (z - x) + -sum (l.map fun e => scaleEvalF fl cost e x) ≤ -δ + scaleUnit u γ n D (R + c) := by
  obtain ⟨hne, v, hv⟩ := id hcl
  have hmem : ∀ e ∈ l, e ∈ G := fun e he => hv.mem e (by simpa using he)
  have hne' : l ≠ [] := by simpa using hne
  have hW : 0 ≤ R + c := by linarith
  have hD : 0 ≤ D := (abs_nonneg _).trans (hd v)
  have hn0 : (0 : ℝ) ≤ n := Nat.cast_nonneg n
  have hlen : (l.length : ℝ) ≤ n := by exact_mod_cast hln
  have hlen1 : (1 : ℝ) ≤ l.length := by
    have := List.length_pos_iff.2 hne'
    exact_mod_cast this
  -- sums of weights
  have hsum : |sum (l.map fun e => scaleEvalF fl cost e x) - (l.map fun e => scaleEvalF fl cost e x).sum| ≤ γ * (n * (2 * (R + c))) := by
    refine (hs _ (by simpa using hln)).trans (mul_le_mul_of_nonneg_left ?_ hγ)
    rw [List.map_map]
    refine (sum_const_le (b := 2 * (R + c)) fun e he => ?_).trans (mul_le_mul_of_nonneg_right hlen (by linarith))
    exact scaleEvalF_bound hfl hu hu1 hx (hc e (hmem e he))
  rw [abs_le] at hsum
  have p1 : 0 ≤ γ * n * (R + c) := by positivity
  have p2 : 0 ≤ u * (n * (R + c)) := by positivity
  have p3 : 0 ≤ u * (n * D) := by positivity
  have p4 : 0 ≤ u * D := by positivity
  have p5 : 0 ≤ u * (R + c) := by positivity
  unfold scaleUnit
  constructor
  · have h1 : (l.map fun e => u * |d e.1 + scaleEvalF fl cost e x|).sum ≤ n * (u * (D + 2 * (R + c))) := by
      refine (sum_const_le (b := u * (D + 2 * (R + c))) fun e he => ?_).trans (mul_le_mul_of_nonneg_right hlen (by positivity))
      refine mul_le_mul_of_nonneg_left ((abs_add_le _ _).trans ?_) hu
      have := scaleEvalF_bound hfl hu hu1 hx (hc e (hmem e he))
      linarith [hd e.1]
    linarith
  · intro z δ hz hδ hf
    -- the exact cycle
    have hzc : l.length * δ ≤ (l.map fun e => scaleEval cost e z).sum := by
      obtain ⟨p, hp⟩ := (scaling_potential hG cost ![z 0 - δ, z 1 + δ]).2 (by simpa using hf)
      have h1 := ClosedWalk.nonneg hp hcl
      rw [List.map_reverse, List.sum_reverse] at h1
      have h2 : ∀ l : List (V × V), (l.map fun e => scaleEval cost e ![z 0 - δ, z 1 + δ]).sum = (l.map fun e => scaleEval cost e z).sum - l.length * δ := by
        intro l
        induction l with
        | nil => simp
        | cons e l ih =>
          simp only [List.map_cons, List.sum_cons, ih, List.length_cons]
          have : scaleEval cost e ![z 0 - δ, z 1 + δ] = scaleEval cost e z - δ := by
            unfold scaleEval; split_ifs <;> simp <;> ring
          rw [this]; push_cast; ring
      rw [h2] at h1
      linarith
    have hdiff : ∀ l : List (V × V), (l.map fun e => scaleEval cost e z).sum = (l.map fun e => scaleEval cost e x).sum +
        ((l.map fun e => scaleGrad e x 0).sum * (z 0 - x 0) + (l.map fun e => scaleGrad e x 1).sum * (z 1 - x 1)) := by
      intro l
      induction l with
      | nil => simp
      | cons e l ih =>
        simp only [List.map_cons, List.sum_cons, ih]
        have : scaleEval cost e z = scaleEval cost e x + (scaleGrad e x 0 * (z 0 - x 0) + scaleGrad e x 1 * (z 1 - x 1)) := by
          unfold scaleEval scaleGrad; split_ifs <;> simp
        rw [this]; ring
    have hd1 := hdiff l
    have hex : |(l.map fun e => scaleEvalF fl cost e x).sum - (l.map fun e => scaleEval cost e x).sum| ≤ n * (u * (R + c)) := by
      have h1 : (l.map fun e => scaleEvalF fl cost e x).sum - (l.map fun e => scaleEval cost e x).sum = (l.map fun e => scaleEvalF fl cost e x - scaleEval cost e x).sum := by
        clear * -
        induction l with
        | nil => simp
        | cons e l ih => simp only [List.map_cons, List.sum_cons, ← ih]; ring
      rw [h1]
      have h2 := abs_sum_map_le (l := l) (a := fun e => scaleEvalF fl cost e x - scaleEval cost e x) (b := fun _ => u * (R + c)) fun e he => scaleEvalF_err hfl hu hx (hc e (hmem e he))
      refine h2.trans ?_
      have h3 := sum_const_le (l := l) (a := fun _ => u * (R + c)) (b := u * (R + c)) fun e _ => le_rfl
      exact h3.trans (mul_le_mul_of_nonneg_right hlen (by positivity))
    rw [abs_le] at hex
    -- the gradient
    have hgr : ∀ i, |gradSumF fl (l.map fun e => scaleGrad e x) i - (l.map fun e => scaleGrad e x i).sum| ≤ γ * n := by
      intro i
      have h1 := hl (l.map fun e => scaleGrad e x i) (by simpa using hln)
      have e1 : gradSumF fl (l.map fun e => scaleGrad e x) i = leftSum fl (l.map fun e => scaleGrad e x i) := by
        unfold gradSumF; rw [List.map_map]; rfl
      rw [e1]
      refine h1.trans (mul_le_mul_of_nonneg_left ?_ hγ)
      rw [List.map_map]
      have h2 := sum_const_le (l := l) (a := fun e => |scaleGrad (α := ℝ) e x i|) (b := 1) fun e _ => by
        unfold scaleGrad
        split_ifs <;> fin_cases i <;> simp
      have h3 : (List.map (abs ∘ fun e => scaleGrad (α := ℝ) e x i) l).sum ≤ l.length * 1 := h2
      linarith
    have prod : ∀ i, -(gradSumF fl (l.map fun e => scaleGrad e x) i) * (z i - x i) ≤ -((l.map fun e => scaleGrad e x i).sum) * (z i - x i) + γ * n * (2 * R) := by
      intro i
      have h1 : |z i - x i| ≤ 2 * R := (abs_sub _ _).trans (by linarith [hz i, hx i])
      have h2 := mul_le_mul (hgr i) h1 (abs_nonneg _) (by positivity)
      rw [← abs_mul] at h2
      have h3 := (abs_le.1 h2).1
      linarith
    have e0 : (-gradSumF fl (l.map fun e => scaleGrad e x)) ⬝ᵥ (z - x) =
        -(gradSumF fl (l.map fun e => scaleGrad e x) 0) * (z 0 - x 0) + -(gradSumF fl (l.map fun e => scaleGrad e x) 1) * (z 1 - x 1) := by
      rw [dotProduct, Fin.sum_univ_two]; rfl
    rw [e0]
    have q0 := prod 0
    have q1 := prod 1
    have q2 : γ * n * R ≤ γ * n * (R + c) := mul_le_mul_of_nonneg_left (by linarith) (by positivity)
    have q3 : δ ≤ l.length * δ := le_mul_of_one_le_left hδ hlen1
    linarith

/-- **C138** (one call).  All points of the box of size `R`, costs of at most `c`, distances of at most `D` after the call. -/
theorem optscalingCallF_ok (hfl : RelErr u fl) (hu : 0 ≤ u) (hu1 : u < 1) (hs : SumErr γ n sum) (hl : SumErr γ n (leftSum fl)) (hγ : 0 ≤ γ) (hR : 0 ≤ R) (hc0 : 0 ≤ c)
    (hx : ∀ i, |x i| ≤ R) (hc : ∀ e ∈ G, |cost e| ≤ c) (hG : ∀ e ∈ G, e.1 ≠ e.2) (hfind : FinderUpTo u n G find) {d d' : V → ℝ} {t : WithTop ℝ} {cut : (Fin 2 → ℝ) × ℝ} {t1 : Option (WithTop ℝ)}
    (hD : 0 ≤ D) (hd : ∀ v, |d' v| ≤ D) (hcall : optscalingCallF fl sum find G cost x t d = .ok (d', cut, t1)) :
    ScalingAnswer G cost R (scaleUnit u γ n D (R + c)) x t cut t1 := by
  have hW : 0 ≤ R + c := by linarith
  have hn0 : (0 : ℝ) ≤ n := Nat.cast_nonneg n
  have p1 : 0 ≤ γ * n * (R + c) := by positivity
  have p2 : 0 ≤ u * (n * (R + c)) := by positivity
  have p3 : 0 ≤ u * (n * D) := by positivity
  have p4 : 0 ≤ u * D := by positivity
  have p5 : 0 ≤ u * c := by positivity
  have p6 : 0 ≤ u * R := by positivity
  have hU : u * (D + 8 * (R + c)) ≤ scaleUnit u γ n D (R + c) := by unfold scaleUnit; linarith
  have hU0 : 0 ≤ scaleUnit u γ n D (R + c) := le_trans (by positivity) hU
  have hdiff : |x 0 - x 1| ≤ 2 * R := (abs_sub _ _).trans (by linarith [hx 0, hx 1])
  have hsv : |fl (x 0 - x 1) - (x 0 - x 1)| ≤ u * (2 * R) := (hfl _).trans (mul_le_mul_of_nonneg_left hdiff hu)
  have hany : G.any (fun e => e.1 = e.2) = false := by
    simp only [List.any_eq_false, decide_eq_true_eq]
    exact fun e he => hG e he
  have e2 : ∀ z : Fin 2 → ℝ, (![1, -1] : Fin 2 → ℝ) ⬝ᵥ (z - x) = (z 0 - z 1) - (x 0 - x 1) := fun z => by
    rw [dotProduct, Fin.sum_univ_two]; simp; ring
  have net : ((fl (x 0 - x 1) : ℝ) : WithTop ℝ) < t → scaleNetF fl sum find G cost x d = .ok (d', cut, t1) → ScalingAnswer G cost R (scaleUnit u γ n D (R + c)) x t cut t1 := by
    intro ht h
    unfold scaleNetF networkCallF at h
    rw [if_neg (by simp [hany])] at h
    cases hf : find d (fun e => scaleEvalF fl cost e x) with
    | error e => rw [hf] at h; simp at h
    | ok r =>
      obtain ⟨d1, r⟩ := r
      obtain ⟨f1, f2, f3⟩ := hfind _ _ _ _ hf
      cases r with
      | none =>
        rw [hf] at h
        simp only [Except.ok.injEq, Prod.mk.injEq] at h
        obtain ⟨rfl, rfl, rfl⟩ := h
        refine ⟨fun v hv => ?_, by simpa using hU0, fun z δ hz hδ _ ht' => ?_⟩
        · obtain rfl := Option.some.inj hv
          refine ⟨ht, _, rfl, hsv.trans (by linarith), ?_⟩
          refine (scaling_potential hG cost ![x 0 + scaleUnit u γ n D (R + c), x 1 - scaleUnit u γ n D (R + c)]).1 ⟨d1, fun e he => ?_⟩
          have k1 := f2 rfl e he
          have k2 := (abs_le.1 (scaleEvalF_err hfl hu hx (hc e he))).2
          have k3 := scaleEvalF_bound hfl hu hu1.le hx (hc e he)
          have k4 := mul_le_mul_of_nonneg_left ((abs_add_le (d1 e.1) (scaleEvalF fl cost e x)).trans (add_le_add (hd e.1) k3)) hu
          have k5 : scaleEval cost e ![x 0 + scaleUnit u γ n D (R + c), x 1 - scaleUnit u γ n D (R + c)] = scaleEval cost e x + scaleUnit u γ n D (R + c) := by
            unfold scaleEval; split_ifs <;> simp <;> ring
          dsimp only
          rw [k5]
          linarith
        · simp only [Option.getD_some, WithTop.coe_le_coe] at ht'
          rw [e2]
          have := (abs_le.1 hsv).2
          simp only
          linarith
      | some l =>
        rw [hf] at h
        simp only [Except.ok.injEq, Prod.mk.injEq] at h
        obtain ⟨rfl, rfl, rfl⟩ := h
        obtain ⟨g1, g2, g3⟩ := f3 l rfl
        obtain ⟨k1, k2⟩ := scale_cycle hfl hu hu1.le hs hl hγ hR hc0 hx hc hG hd g1 g2 g3
        exact ⟨fun v hv => by simp at hv, k1, fun z δ hz hδ hfz _ => k2 z δ hz hδ hfz⟩
  unfold optscalingCallF at hcall
  induction t with
  | top => exact net (WithTop.coe_lt_top _) hcall
  | coe t =>
    simp only at hcall
    split_ifs at hcall with h0
    · simp only [Except.ok.injEq, Prod.mk.injEq] at hcall
      obtain ⟨rfl, rfl, rfl⟩ := hcall
      refine ⟨fun v hv => by simp at hv, le_trans (by linarith) h0, fun z δ hz hδ _ ht' => ?_⟩
      simp only [Option.getD_none, WithTop.coe_le_coe] at ht'
      have hst : 0 ≤ fl (x 0 - x 1) - t := by
        by_contra hcon
        exact absurd ((fl_sign hfl hu1 _).2.2 (not_le.1 hcon)) (not_lt.2 h0)
      have hz1 : |z 0 - z 1| ≤ 2 * R := (abs_sub _ _).trans (by linarith [hz 0, hz 1])
      have hb := hfl (fl (x 0 - x 1) - t)
      rw [abs_of_nonneg hst] at hb
      have q1 := (abs_le.1 hz1).1
      have q2 := (abs_le.1 hdiff).2
      have q3 := abs_le.1 hsv
      have q6 : u * R ≤ R := mul_le_of_le_one_left hR hu1.le
      have q4 : fl (x 0 - x 1) - t ≤ 6 * R := by linarith
      have q5 := mul_le_mul_of_nonneg_left q4 hu
      rw [e2]
      have := (abs_le.1 hb).2
      simp only
      linarith
    · refine net ?_ hcall
      rw [WithTop.coe_lt_coe]
      have := (fl_sign hfl hu1 (fl (x 0 - x 1) - t)).2.1 (not_le.1 h0)
      linarith

end Verif
