import Verif.Model.Sites
import Verif.Props.LowDiscr
import Verif.Props.Chol
import Verif.Proofs.GaussKernel
import Mathlib.MeasureTheory.Integral.Bochner.Basic
import Mathlib.MeasureTheory.Integral.Bochner.SumMeasure

/-!
# C87, C88: site generation and isotropic sample covariance
-/
namespace Verif
open Matrix LowDiscr Finset

/-! ## C87 -/

/-- The two values of the `q`-th call (counting from 0) of `halton([2, 3])`. -/
theorem haltonCalls_spec : ∀ (k : ℕ) (c : ℕ) (pts : List (List ℚ)),
    HaltonCalls ⟨[⟨2, c⟩, ⟨3, c⟩]⟩ k pts → pts.length = k ∧
      ∀ q (hq : q < pts.length), ∃ a b, pts[q] = [a, b] ∧ VdcReturns ((c + 1 + q : ℕ) : ℤ) 2 a ∧
        VdcReturns ((c + 1 + q : ℕ) : ℤ) 3 b := by
  intro k
  induction k with
  | zero => intro c pts h; cases h; simp
  | succ k ih =>
    intro c pts h
    cases h with
    | cons hv hr =>
      rename_i v vs
      have hg : Halton.next ⟨[⟨2, c⟩, ⟨3, c⟩]⟩ = ⟨[⟨2, ((c + 1 : ℕ) : ℤ)⟩, ⟨3, ((c + 1 : ℕ) : ℤ)⟩]⟩ := by
        simp [Halton.next, Vdcorput.next]
      rw [hg] at hr
      obtain ⟨h1, h2⟩ := ih _ _ hr
      refine ⟨by simp [h1], fun q hq => ?_⟩
      rcases q with _ | q
      · unfold Halton.Yields at hv
        rcases hv with _ | ⟨ha, hv⟩
        rcases hv with _ | ⟨hb, hv⟩
        cases hv
        refine ⟨_, _, rfl, ?_, ?_⟩
        · simpa [Vdcorput.Yields] using ha
        · simpa [Vdcorput.Yields] using hb
      · obtain ⟨a, b, e, ha, hb⟩ := h2 q (by simpa using hq)
        refine ⟨a, b, by simpa using e, ?_, ?_⟩
        · convert ha using 2; omega
        · convert hb using 2; omega

theorem haltonCalls_exists : ∀ (k : ℕ) (c : ℕ), ∃ pts, HaltonCalls ⟨[⟨2, c⟩, ⟨3, c⟩]⟩ k pts := by
  intro k
  induction k with
  | zero => exact fun c => ⟨[], .nil _⟩
  | succ k ih =>
    intro c
    obtain ⟨a, ha, -⟩ := C79_vdc_range (b := 2) le_rfl (c + 1)
    obtain ⟨b, hb, -⟩ := C79_vdc_range (b := 3) (by norm_num) (c + 1)
    obtain ⟨pts, h⟩ := ih (c + 1)
    refine ⟨[a, b] :: pts, .cons ?_ ?_⟩
    · exact .cons (by simpa [Vdcorput.Yields] using ha) (.cons (by simpa [Vdcorput.Yields] using hb) .nil)
    · have hg : Halton.next ⟨[⟨2, c⟩, ⟨3, c⟩]⟩ = ⟨[⟨2, ((c + 1 : ℕ) : ℤ)⟩, ⟨3, ((c + 1 : ℕ) : ℤ)⟩]⟩ := by
        simp [Halton.next, Vdcorput.next]
      rw [hg]; exact h

theorem vdc_range_of {b k : ℕ} (hb : 2 ≤ b) {v : ℚ} (h : VdcReturns k b v) : 0 ≤ v ∧ v < 1 := by
  obtain ⟨v', h', h1⟩ := C79_vdc_range hb k
  rwa [vdcReturns_unique h h']

/-- **C87**.  `create_2d_sites(nx, ny)` returns, for `nx * ny > 0`: exactly `nx * ny` pairwise different points, all in
`[0, 10) × [0, 8)`.  No outcome but this one is possible, and it is the same on every call; for `nx * ny ≤ 0` the outcome is
`ValueError`. -/
theorem C87_create_2d_sites (nx ny : ℤ) :
    ∃ r, (∀ r', Create2dSites nx ny r' ↔ r' = r) ∧ (nx * ny ≤ 0 → r = .error .valueError) ∧
      (0 < nx * ny → ∃ s, r = .ok s ∧ (s.length : ℤ) = nx * ny ∧ s.Nodup ∧
        ∀ p ∈ s, (0 ≤ p 0 ∧ p 0 < 10) ∧ 0 ≤ p 1 ∧ p 1 < 8) := by
  have hinit : ∀ g, Halton.init 2 [2, 3] = .ok g → g = ⟨[⟨2, ((0 : ℕ) : ℤ)⟩, ⟨3, ((0 : ℕ) : ℤ)⟩]⟩ := by
    intro g hg
    simpa [Halton.init, Vdcorput.init] using hg.symm
  rcases le_or_gt (nx * ny) 0 with h0 | h0
  · refine ⟨.error .valueError, fun r' => ⟨fun h => ?_, fun h => h ▸ .empty h0⟩, fun _ => rfl,
      fun h => absurd h (not_lt.2 h0)⟩
    cases h with
    | empty => rfl
    | ok h => exact absurd h (not_lt.2 h0)
  · obtain ⟨pts, hp⟩ := haltonCalls_exists (nx * ny).toNat 0
    have hg : Halton.init 2 [2, 3] = .ok ⟨[⟨2, ((0 : ℕ) : ℤ)⟩, ⟨3, ((0 : ℕ) : ℤ)⟩]⟩ := by
      simp [Halton.init, Vdcorput.init]
    obtain ⟨hl, hs⟩ := haltonCalls_spec _ _ _ hp
    refine ⟨.ok (pts.map scaleSite), fun r' => ⟨fun hr => ?_, fun h => h ▸ .ok h0 hg hp⟩,
      fun h => absurd h0 (not_lt.2 h), fun _ => ⟨_, rfl, ?_, ?_, ?_⟩⟩
    · cases hr with
      | empty h' => exact absurd h0 (not_lt.2 h')
      | @ok g' pts' _ hg' hp' =>
        rw [hinit _ hg'] at hp'
        obtain ⟨hl', hs'⟩ := haltonCalls_spec _ _ _ hp'
        have : pts' = pts := by
          refine List.ext_getElem (by rw [hl, hl']) fun q h1 h2 => ?_
          obtain ⟨a, b, e, ha, hb⟩ := hs q h2
          obtain ⟨a', b', e', ha', hb'⟩ := hs' q h1
          rw [e, e', vdcReturns_unique ha ha', vdcReturns_unique hb hb']
        rw [this]
    · simp [hl, h0.le]
    · rw [List.nodup_iff_injective_getElem]
      rintro ⟨q, hq⟩ ⟨q', hq'⟩ he
      simp only [List.length_map] at hq hq'
      obtain ⟨a, b, e, ha, -⟩ := hs q hq
      obtain ⟨a', b', e', ha', -⟩ := hs q' hq'
      simp only [List.getElem_map, e, e'] at he
      have h1 := congrFun he 0
      simp only [scaleSite, cons_val_zero, Fin.val_zero, List.getD_cons_zero, mul_eq_mul_left_iff] at h1
      have h2 : a = a' := by
        rcases h1 with h1 | h1
        · exact_mod_cast h1
        · norm_num at h1
      subst h2
      have := C79_vdc_injective le_rfl ha ha'
      simp only [Fin.mk.injEq]; omega
    · intro p hp
      obtain ⟨v, hv, rfl⟩ := List.mem_map.1 hp
      obtain ⟨q, hq, rfl⟩ := List.getElem_of_mem hv
      obtain ⟨a, b, e, ha, hb⟩ := hs q hq
      obtain ⟨a0, a1⟩ := vdc_range_of le_rfl ha
      obtain ⟨b0, b1⟩ := vdc_range_of (by norm_num) hb
      have a0' : (0 : ℝ) ≤ a := by exact_mod_cast a0
      have a1' : (a : ℝ) < 1 := by exact_mod_cast a1
      have b0' : (0 : ℝ) ≤ b := by exact_mod_cast b0
      have b1' : (b : ℝ) < 1 := by exact_mod_cast b1
      rw [e]
      simp [scaleSite]
      exact ⟨⟨a0, by linarith⟩, b0, by linarith⟩

/-- **C87** (spread).  Among any `2^m * 3^l` consecutive sites, starting at any position, exactly one lies in each of the
`2^m * 3^l` equal boxes into which `[0,10) × [0,8)` is divided. -/
theorem C87_sites_equidistributed {nx ny : ℤ} {s : List (Fin 2 → ℝ)} (hs : Create2dSites nx ny (.ok s)) {m l a b : ℕ}
    (ha : a < 2 ^ m) (hb : b < 3 ^ l) (start : ℕ) (hlen : start + 2 ^ m * 3 ^ l ≤ s.length) :
    ∃! q : ℕ, (start ≤ q ∧ q < start + 2 ^ m * 3 ^ l) ∧ ∃ h : q < s.length,
      (10 * (a : ℝ) / 2 ^ m ≤ s[q] 0 ∧ s[q] 0 < 10 * ((a : ℝ) + 1) / 2 ^ m) ∧
      8 * (b : ℝ) / 3 ^ l ≤ s[q] 1 ∧ s[q] 1 < 8 * ((b : ℝ) + 1) / 3 ^ l := by
  cases hs with
  | ok h0 hg hp =>
  rename_i g pts
  have hg' : g = ⟨[⟨2, ((0 : ℕ) : ℤ)⟩, ⟨3, ((0 : ℕ) : ℤ)⟩]⟩ := by simpa [Halton.init, Vdcorput.init] using hg.symm
  rw [hg'] at hp
  obtain ⟨hl, hsp⟩ := haltonCalls_spec _ _ _ hp
  obtain ⟨ca, hca⟩ := rev_surj (b := 2) (by norm_num) ha
  obtain ⟨cb, hcb⟩ := rev_surj (b := 3) (by norm_num) hb
  have hcop : Nat.Coprime (2 ^ m) (3 ^ l) := Nat.Coprime.pow _ _ (by norm_num)
  obtain ⟨C, hC1, hC2⟩ := Nat.chineseRemainder hcop ca cb
  have hiff : ∀ q (h : q < (pts.map scaleSite).length),
      ((10 * (a : ℝ) / 2 ^ m ≤ (pts.map scaleSite)[q] 0 ∧ (pts.map scaleSite)[q] 0 < 10 * ((a : ℝ) + 1) / 2 ^ m) ∧
      8 * (b : ℝ) / 3 ^ l ≤ (pts.map scaleSite)[q] 1 ∧ (pts.map scaleSite)[q] 1 < 8 * ((b : ℝ) + 1) / 3 ^ l) ↔
      q + 1 ≡ C [MOD 2 ^ m * 3 ^ l] := by
    intro q h
    obtain ⟨x, y, e, hx, hy⟩ := hsp q (by simpa using h)
    have h1 := inCell_iff (m := m) (a := a) le_rfl hx
    have h2 := inCell_iff (m := l) (a := b) (by norm_num) hy
    rw [← hca, rev_eq_iff (by norm_num)] at h1
    rw [← hcb, rev_eq_iff (by norm_num)] at h2
    have h1' : (10 * (a : ℝ) / 2 ^ m ≤ 10 * (x : ℝ) ∧ 10 * (x : ℝ) < 10 * ((a : ℝ) + 1) / 2 ^ m) ↔ InCell 2 m a x := by
      rw [InCell, mul_div_assoc, mul_div_assoc, mul_le_mul_iff_right₀ (by norm_num), mul_lt_mul_iff_right₀ (by norm_num)]
      rw [← Rat.cast_le (K := ℝ), ← Rat.cast_lt (K := ℝ)]; push_cast; rfl
    have h2' : (8 * (b : ℝ) / 3 ^ l ≤ 8 * (y : ℝ) ∧ 8 * (y : ℝ) < 8 * ((b : ℝ) + 1) / 3 ^ l) ↔ InCell 3 l b y := by
      rw [InCell, mul_div_assoc, mul_div_assoc, mul_le_mul_iff_right₀ (by norm_num), mul_lt_mul_iff_right₀ (by norm_num)]
      rw [← Rat.cast_le (K := ℝ), ← Rat.cast_lt (K := ℝ)]; push_cast; rfl
    have e0 : (pts.map scaleSite)[q] 0 = 10 * (x : ℝ) := by simp [e, scaleSite]
    have e1 : (pts.map scaleSite)[q] 1 = 8 * (y : ℝ) := by simp [e, scaleSite]
    rw [e0, e1, h1', h2', ← hca, ← hcb, h1, h2, show 0 + 1 + q = q + 1 by omega, ← Nat.modEq_and_modEq_iff_modEq_mul hcop]
    exact ⟨fun ⟨h3, h4⟩ => ⟨h3.trans hC1.symm, h4.trans hC2.symm⟩, fun ⟨h3, h4⟩ => ⟨h3.trans hC1, h4.trans hC2⟩⟩
  obtain ⟨k, ⟨⟨h1, h2⟩, h3⟩, h4⟩ := existsUnique_window (N := 2 ^ m * 3 ^ l) (c := C) (by positivity) (start + 1)
  refine ⟨k - 1, ⟨⟨by omega, by omega⟩, by omega, (hiff _ (by omega)).2 (by rwa [show k - 1 + 1 = k by omega])⟩, ?_⟩
  rintro q ⟨⟨h5, h6⟩, h7, h8⟩
  have := h4 (q + 1) ⟨⟨by omega, by omega⟩, (hiff q h7).1 h8⟩
  omega

/-- Non-vacuity: one site. -/
example : ∃ s, Create2dSites 1 1 (.ok s) ∧ s.length = 1 := by
  obtain ⟨r, h1, -, h2⟩ := C87_create_2d_sites 1 1
  obtain ⟨s, rfl, h3, -⟩ := h2 (by norm_num)
  exact ⟨s, (h1 _).2 rfl, by simpa using h3⟩

/-! ## C88 -/
section iso
variable {n d : ℕ}

theorem gaussKern_comm (s : Fin n → Fin d → ℝ) (i j : Fin n) : gaussKern s i j = gaussKern s j i := by
  unfold gaussKern
  congr 2
  exact sum_congr rfl fun k _ => by ring

theorem storeKern_apply (s : Fin n → Fin d → ℝ) (i j : Fin n) (S : Fin n → Fin n → ℝ) (a b : Fin n) :
    storeKern s i S j a b = if (a = i ∧ b = j) ∨ (a = j ∧ b = i) then gaussKern s a b else S a b := by
  unfold storeKern
  simp only [Function.update_apply]
  by_cases h1 : a = j
  · subst h1
    by_cases h2 : b = i
    · subst h2
      simp [gaussKern_comm s b a]
    · by_cases h3 : a = i
      · subst h3
        by_cases h4 : b = a
        · exact absurd h4 h2
        · simp [h4]
      · simp [h2, h3]
  · by_cases h3 : a = i
    · subst h3
      by_cases h4 : b = j
      · subst h4; simp [h1]
      · simp [h1, h4]
    · simp [h1, h3]

theorem kernRow_apply (s : Fin n → Fin d → ℝ) (i : Fin n) (l : List (Fin n)) (S : Fin n → Fin n → ℝ) (a b : Fin n) :
    l.foldl (storeKern s i) S a b = if (a = i ∧ b ∈ l) ∨ (b = i ∧ a ∈ l) then gaussKern s a b else S a b := by
  induction l generalizing S with
  | nil => simp
  | cons j l ih =>
    rw [List.foldl_cons, ih, storeKern_apply]
    simp only [List.mem_cons]
    split_ifs <;> first | rfl | (exfalso; tauto)

theorem kernFold_apply (s : Fin n → Fin d → ℝ) (l : List (Fin n)) (S : Fin n → Fin n → ℝ) (a b : Fin n) :
    l.foldl (fun S i => ((List.finRange n).filter (i ≤ ·)).foldl (storeKern s i) S) S a b =
      if (a ∈ l ∧ a ≤ b) ∨ (b ∈ l ∧ b ≤ a) then gaussKern s a b else S a b := by
  induction l generalizing S with
  | nil => simp
  | cons i l ih =>
    rw [List.foldl_cons, ih, kernRow_apply]
    simp only [List.mem_cons, List.mem_filter, List.mem_finRange, true_and, decide_eq_true_eq]
    by_cases h1 : a ∈ l ∧ a ≤ b ∨ b ∈ l ∧ b ≤ a
    · rw [if_pos h1, if_pos (by tauto)]
    · rw [if_neg h1]
      by_cases h2 : a = i ∧ i ≤ b ∨ b = i ∧ i ≤ a
      · rw [if_pos h2, if_pos]
        rcases h2 with ⟨rfl, h2⟩ | ⟨rfl, h2⟩
        · exact .inl ⟨.inl rfl, h2⟩
        · exact .inr ⟨.inl rfl, h2⟩
      · rw [if_neg h2, if_neg]
        rintro (⟨rfl | h3, h4⟩ | ⟨rfl | h3, h4⟩)
        · exact h2 (.inl ⟨rfl, h4⟩)
        · exact h1 (.inl ⟨h3, h4⟩)
        · exact h2 (.inr ⟨rfl, h4⟩)
        · exact h1 (.inr ⟨h3, h4⟩)

/-- **C88** (kernel).  Entry `(i, j)` of `Sig` is `exp(-0.12 |s_i - s_j|²)`, on and off the diagonal. -/
theorem C88_kernel (s : Fin n → Fin d → ℝ) (i j : Fin n) :
    isoSig s i j = Real.exp (-(12 / 100) *
      dist (WithLp.toLp 2 (s i) : EuclideanSpace ℝ (Fin d)) (WithLp.toLp 2 (s j)) ^ 2) := by
  unfold isoSig
  rw [kernFold_apply, if_pos]
  · rw [gaussKern, EuclideanSpace.dist_sq_eq]
    congr 2
    refine sum_congr rfl fun k _ => ?_
    rw [Real.dist_eq, sq_abs]; simp only; ring
  · simp [le_total]

theorem isoSig_eq (s : Fin n → Fin d → ℝ) : isoSig s = gaussKern s := by
  funext i j
  unfold isoSig
  rw [kernFold_apply, if_pos]
  simp [le_total]

/-- **C88** (the factorization succeeds exactly on distinct sites).  `Sig` is positive definite iff no two sites coincide. -/
theorem C88_kernel_pd (s : Fin n → Fin d → ℝ) : (Matrix.of (isoSig s)).PosDef ↔ Function.Injective s := by
  rw [isoSig_eq]
  refine ⟨fun h i j hij => ?_, fun h => gauss_posDef h (by norm_num)⟩
  by_contra hne
  have h1 := (Matrix.posDef_iff_dotProduct_mulVec.1 h).2 (x := Pi.single i 1 - Pi.single j 1) (by
    intro h0
    have := congrFun h0 i
    simp [hne] at this)
  have hrow : ∀ k, gaussKern s k i = gaussKern s k j := fun k => by simp [gaussKern, hij]
  have : (Matrix.of (gaussKern s)) *ᵥ (Pi.single i 1 - Pi.single j 1) = 0 := by
    rw [mulVec_sub, mulVec_single_one, mulVec_single_one]
    funext k
    simp [col_apply, hrow]
  rw [this] at h1
  simp at h1

theorem isoLoop_eq (A : Matrix (Fin n) (Fin n) ℝ) : ∀ (noise : List ((Fin n → ℝ) × (Fin n → ℝ))) Y,
    isoLoop A noise Y = Y + (noise.map fun r => vecMulVec (A *ᵥ ((2 : ℝ) • r.1) + (1 / 100000 : ℝ) • r.2)
      (A *ᵥ ((2 : ℝ) • r.1) + (1 / 100000 : ℝ) • r.2)).sum
  | [], Y => by simp [isoLoop]
  | (r1, r2) :: noise, Y => by
    rw [isoLoop, isoLoop_eq A noise]; simp [add_assoc]

/-- **C88** (outcome).  With any Cholesky routine honouring the `np.linalg.cholesky` contract: `create_2d_isotropic` raises exactly
when two sites coincide; otherwise, whatever the random draws, the result is a symmetric positive semidefinite matrix. -/
theorem C88_isotropic {chol : Matrix (Fin n) (Fin n) ℝ → Except PyErr (Matrix (Fin n) (Fin n) ℝ)} (hc : IsNpCholesky chol)
    (s : Fin n → Fin d → ℝ) (noise : List ((Fin n → ℝ) × (Fin n → ℝ))) :
    ((∃ e, create2dIsotropic chol s noise = .error e) ↔ ¬ Function.Injective s) ∧
    ∀ Y, create2dIsotropic chol s noise = .ok Y → Yᵀ = Y ∧ Y.PosSemidef := by
  unfold create2dIsotropic
  rw [← C88_kernel_pd s]
  by_cases hpd : (Matrix.of (isoSig s)).PosDef
  · obtain ⟨A, hA, -⟩ := hc.ok _ hpd
    rw [hA]
    refine ⟨by simpa using hpd, fun Y hY => ?_⟩
    simp only [Except.ok.injEq] at hY
    have hpsd : Y.PosSemidef := by
      rw [← hY, isoLoop_eq, zero_add]
      refine Matrix.PosSemidef.smul ?_ (by positivity)
      generalize noise = noise
      induction noise with
      | nil => exact Matrix.PosSemidef.zero
      | cons r noise ih =>
        rw [List.map_cons, List.sum_cons]
        refine Matrix.PosSemidef.add ?_ ih
        have := Matrix.posSemidef_vecMulVec_self_star (A *ᵥ ((2 : ℝ) • r.1) + (1 / 100000 : ℝ) • r.2)
        simpa using this
    refine ⟨?_, hpsd⟩
    have := hpsd.isHermitian
    simpa [IsHermitian] using this
  · have hsym : (Matrix.of (isoSig s))ᵀ = Matrix.of (isoSig s) := by
      ext i j
      rw [transpose_apply, of_apply, of_apply, isoSig_eq, gaussKern_comm]
    obtain ⟨e, he⟩ := hc.err _ hsym hpd
    rw [he]
    exact ⟨by simpa using hpd, by simp⟩

open MeasureTheory

/-- **C88** (what `Y` estimates).  If the draws have mean products `E[r r'] = I` (`randn`: independent, variance 1), the expected
value of every entry of `Y` is `4 exp(-0.12 |s_i - s_j|²)`, plus `1e-10` on the diagonal. -/
theorem C88_expectation {Ω : Type _} [MeasurableSpace Ω] (μ : Measure Ω)
    {chol : Matrix (Fin n) (Fin n) ℝ → Except PyErr (Matrix (Fin n) (Fin n) ℝ)} (hc : IsNpCholesky chol)
    {s : Fin n → Fin d → ℝ} (hs : Function.Injective s) {N : ℕ} (hN : 0 < N)
    (r1 r2 : Fin N → Fin n → Ω → ℝ)
    (i11 : ∀ k a b, Integrable (fun ω => r1 k a ω * r1 k b ω) μ) (i12 : ∀ k a b, Integrable (fun ω => r1 k a ω * r2 k b ω) μ)
    (i22 : ∀ k a b, Integrable (fun ω => r2 k a ω * r2 k b ω) μ)
    (e11 : ∀ k a b, ∫ ω, r1 k a ω * r1 k b ω ∂μ = if a = b then 1 else 0)
    (e12 : ∀ k a b, ∫ ω, r1 k a ω * r2 k b ω ∂μ = 0)
    (e22 : ∀ k a b, ∫ ω, r2 k a ω * r2 k b ω ∂μ = if a = b then 1 else 0) :
    ∃ Y : Ω → Matrix (Fin n) (Fin n) ℝ,
      (∀ ω, create2dIsotropic chol s (List.ofFn fun k => (fun a => r1 k a ω, fun a => r2 k a ω)) = .ok (Y ω)) ∧
      ∀ i j, ∫ ω, Y ω i j ∂μ = 4 * Real.exp (-(12 / 100) *
        dist (WithLp.toLp 2 (s i) : EuclideanSpace ℝ (Fin d)) (WithLp.toLp 2 (s j)) ^ 2) +
          if i = j then (1 / 10 ^ 10 : ℝ) else 0 := by
  obtain ⟨A, hA, hAA, -⟩ := hc.ok _ ((C88_kernel_pd s).2 hs)
  refine ⟨fun ω => ((N : ℝ)⁻¹ • isoLoop A (List.ofFn fun k => (fun a => r1 k a ω, fun a => r2 k a ω)) 0), ?_, ?_⟩
  · intro ω
    simp [create2dIsotropic, hA]
  intro i j
  rw [← C88_kernel]
  have hent : ∀ ω, ((N : ℝ)⁻¹ • isoLoop A (List.ofFn fun k => (fun a => r1 k a ω, fun a => r2 k a ω)) 0) i j =
      (N : ℝ)⁻¹ * ∑ k, (∑ a, ∑ b, 4 * (A i a * A j b) * (r1 k a ω * r1 k b ω) +
        ((∑ a, 2 / 10 ^ 5 * A i a * (r1 k a ω * r2 k j ω) + ∑ b, 2 / 10 ^ 5 * A j b * (r1 k b ω * r2 k i ω)) +
          1 / 10 ^ 10 * (r2 k i ω * r2 k j ω))) := by
    intro ω
    rw [isoLoop_eq, zero_add, List.map_ofFn, List.sum_ofFn, Matrix.smul_apply, Matrix.sum_apply, smul_eq_mul]
    congr 1
    refine sum_congr rfl fun k _ => ?_
    simp only [Function.comp_apply, vecMulVec_apply, Pi.add_apply, mulVec, dotProduct, Pi.smul_apply, smul_eq_mul]
    have h1 : ∀ i, ∑ a, A i a * (2 * r1 k a ω) = 2 * ∑ a, A i a * r1 k a ω := fun i => by
      rw [mul_sum]; exact sum_congr rfl fun a _ => by ring
    have h2 : ∑ a, ∑ b, 4 * (A i a * A j b) * (r1 k a ω * r1 k b ω) =
        4 * ((∑ a, A i a * r1 k a ω) * ∑ b, A j b * r1 k b ω) := by
      rw [sum_mul_sum, mul_sum]
      refine sum_congr rfl fun a _ => ?_
      rw [mul_sum]; exact sum_congr rfl fun b _ => by ring
    have h3 : ∀ i j, ∑ a, 2 / 10 ^ 5 * A i a * (r1 k a ω * r2 k j ω) = 2 / 10 ^ 5 * r2 k j ω * ∑ a, A i a * r1 k a ω := by
      intro i j; rw [mul_sum]; exact sum_congr rfl fun a _ => by ring
    rw [h1, h1, h2, h3, h3]; ring
  simp only [hent]
  have I1 : ∀ k, Integrable (fun ω => ∑ a, ∑ b, 4 * (A i a * A j b) * (r1 k a ω * r1 k b ω)) μ := fun k =>
    integrable_finsetSum _ fun a _ => integrable_finsetSum _ fun b _ => (i11 k a b).const_mul _
  have I2 : ∀ k i j, Integrable (fun ω => ∑ a, 2 / 10 ^ 5 * A i a * (r1 k a ω * r2 k j ω)) μ := fun k i j =>
    integrable_finsetSum _ fun a _ => (i12 k a j).const_mul _
  have I3 : ∀ k, Integrable (fun ω => 1 / 10 ^ 10 * (r2 k i ω * r2 k j ω)) μ := fun k => (i22 k i j).const_mul _
  have I4 : ∀ k, Integrable (fun ω => ∑ a, 2 / 10 ^ 5 * A i a * (r1 k a ω * r2 k j ω) +
      ∑ b, 2 / 10 ^ 5 * A j b * (r1 k b ω * r2 k i ω)) μ := fun k => (I2 k i j).add (I2 k j i)
  have I5 : ∀ k, Integrable (fun ω => (∑ a, 2 / 10 ^ 5 * A i a * (r1 k a ω * r2 k j ω) +
      ∑ b, 2 / 10 ^ 5 * A j b * (r1 k b ω * r2 k i ω)) + 1 / 10 ^ 10 * (r2 k i ω * r2 k j ω)) μ := fun k =>
    (I4 k).add (I3 k)
  have I6 : ∀ k, Integrable (fun ω => ∑ a, ∑ b, 4 * (A i a * A j b) * (r1 k a ω * r1 k b ω) +
      ((∑ a, 2 / 10 ^ 5 * A i a * (r1 k a ω * r2 k j ω) + ∑ b, 2 / 10 ^ 5 * A j b * (r1 k b ω * r2 k i ω)) +
        1 / 10 ^ 10 * (r2 k i ω * r2 k j ω))) μ := fun k => (I1 k).add (I5 k)
  rw [integral_const_mul, integral_finsetSum _ fun k _ => I6 k]
  have hk : ∀ k, ∫ ω, (∑ a, ∑ b, 4 * (A i a * A j b) * (r1 k a ω * r1 k b ω) +
        ((∑ a, 2 / 10 ^ 5 * A i a * (r1 k a ω * r2 k j ω) + ∑ b, 2 / 10 ^ 5 * A j b * (r1 k b ω * r2 k i ω)) +
          1 / 10 ^ 10 * (r2 k i ω * r2 k j ω))) ∂μ = 4 * isoSig s i j + if i = j then (1 / 10 ^ 10 : ℝ) else 0 := by
    intro k
    rw [integral_add (I1 k) (I5 k), integral_add (I4 k) (I3 k),
      integral_add (I2 k i j) (I2 k j i)]
    have z : ∀ i j, ∫ ω, ∑ a, 2 / 10 ^ 5 * A i a * (r1 k a ω * r2 k j ω) ∂μ = 0 := fun i j => by
      rw [integral_finsetSum _ fun a _ => (i12 k a j).const_mul _]
      exact sum_eq_zero fun a _ => by rw [integral_const_mul, e12, mul_zero]
    have m : ∫ ω, ∑ a, ∑ b, 4 * (A i a * A j b) * (r1 k a ω * r1 k b ω) ∂μ = 4 * isoSig s i j := by
      rw [integral_finsetSum _ fun a _ => integrable_finsetSum _ fun b _ => (i11 k a b).const_mul _]
      have : ∀ a, ∫ ω, ∑ b, 4 * (A i a * A j b) * (r1 k a ω * r1 k b ω) ∂μ = 4 * (A i a * A j a) := by
        intro a
        rw [integral_finsetSum _ fun b _ => (i11 k a b).const_mul _, sum_eq_single a]
        · rw [integral_const_mul, e11, if_pos rfl, mul_one]
        · intro b _ hb
          rw [integral_const_mul, e11, if_neg (Ne.symm hb), mul_zero]
        · simp
      simp only [this]
      rw [← mul_sum]
      have h := congrFun (congrFun hAA i) j
      rw [Matrix.mul_apply] at h
      exact congrArg (4 * ·) h
    rw [z, z, m, integral_const_mul, e22]
    split_ifs <;> simp
  simp only [hk]
  rw [sum_const, card_univ, Fintype.card_fin, nsmul_eq_mul, ← mul_assoc, inv_mul_cancel₀ (by positivity), one_mul]

/-- A Cholesky routine built from `chol_ext`: `factorize`, then the transpose of `sqrt`. -/
noncomputable def cholViaExt (A : Matrix (Fin n) (Fin n) ℝ) : Except PyErr (Matrix (Fin n) (Fin n) ℝ) :=
  match (CholExt.init n).factorize n (arr A) with
  | .error e => .error e
  | .ok (c, _) => match c.sqrt with
    | .error e => .error e
    | .ok R => .ok (Matrix.of fun i j => R j i)

/-- **C88** (the contract can be met).  `chol_ext` itself meets the contract asked of `np.linalg.cholesky`. -/
theorem C88_chol_ext_contract : IsNpCholesky (cholViaExt (n := n)) := by
  constructor
  · intro A hA
    obtain ⟨c', b, h1, h2⟩ := C29_factorize_posDef A hA.isHermitian
    obtain rfl := h2.2 hA
    have hS : Serves (W := Unit) (readAt n (arr A)) (arr A) n (fun _ _ => True) (fun _ _ => True) :=
      serves_readAt le_rfl _ _ fun i j _ _ => rfl
    have hf : ∃ w', (CholExt.init n).factor (readAt n (arr A)) () = .ok (w', c', true) := by
      unfold CholExt.factorize at h1
      split at h1
      · simp at h1
      · rename_i h3
        simp only [Except.ok.injEq] at h1
        subst h1
        exact ⟨_, h3⟩
    obtain ⟨w', hf⟩ := hf
    obtain ⟨R, hR, hlow, hpos, hRR⟩ := C31_sqrt (CholExt.init n) hS (symOn_arr hA.isHermitian) trivial hf (.inl rfl)
    refine ⟨Matrix.of fun i j => R j i, ?_, ?_, fun i j h => hlow j i h, fun i => hpos i i.2⟩
    · simp [cholViaExt, h1, hR]
    · ext i j
      have := hRR i j i.2 j.2
      rw [show (CholExt.init n : CholExt ℝ).n = n from rfl, Finset.sum_range] at this
      rw [Matrix.mul_apply]
      simpa [arr] using this
  · intro A hsym hA
    obtain ⟨c', b, h1, h2⟩ := C29_factorize_posDef A (by simpa [IsHermitian] using hsym)
    obtain rfl : b = false := by
      cases b
      · rfl
      · exact absurd (h2.1 rfl) hA
    have hf : ∃ w', (CholExt.init n).factor (W := Unit) (readAt n (arr A)) () = .ok (w', c', false) := by
      unfold CholExt.factorize at h1
      split at h1
      · simp at h1
      · rename_i h3
        simp only [Except.ok.injEq] at h1
        subst h1
        exact ⟨_, h3⟩
    obtain ⟨w', hf⟩ := hf
    exact ⟨.assertion, by simp [cholViaExt, h1, C31_sqrt_raises _ hf]⟩

/-- Sign patterns of a Hadamard matrix of order 4. -/
def had (a ω : Fin 4) : ℤ := ![![1, 1, 1, 1], ![1, -1, 1, -1], ![1, 1, -1, -1], ![1, -1, -1, 1]] a ω

theorem had_orth (a b : Fin 4) : ∑ ω, (had a ω : ℝ) * had b ω = if a = b then 4 else 0 := by
  have h : ∀ a b : Fin 4, ∑ ω, had a ω * had b ω = if a = b then 4 else 0 := by decide
  have := congrArg (Int.cast : ℤ → ℝ) (h a b)
  push_cast at this
  exact this

/-- Non-vacuity: two different sites in the plane, one round, four equally likely outcomes of the draws. -/
example : ∃ Y : Fin 4 → Matrix (Fin 2) (Fin 2) ℝ,
    (∀ ω, create2dIsotropic cholViaExt ![![0, 0], ![1, 2]]
      (List.ofFn fun _ : Fin 1 => (fun a => (had (![0, 1] a) ω : ℝ), fun a => (had (![2, 3] a) ω : ℝ))) = .ok (Y ω)) ∧
    ∫ ω, Y ω 0 1 ∂((4 : ENNReal)⁻¹ • Measure.count) = 4 * Real.exp (-(12 / 100) * 5) := by
  have hint : ∀ f : Fin 4 → ℝ, Integrable f ((4 : ENNReal)⁻¹ • Measure.count) := fun f =>
    (Integrable.of_finite).smul_measure (by simp)
  have hval : ∀ f : Fin 4 → ℝ, ∫ ω, f ω ∂((4 : ENNReal)⁻¹ • Measure.count) = (∑ ω, f ω) / 4 := fun f => by
    rw [integral_smul_measure, integral_count]; simp; ring
  have hinj : Function.Injective (![![0, 0], ![1, 2]] : Fin 2 → Fin 2 → ℝ) := by
    intro i j h
    have := congrFun h 0
    fin_cases i <;> fin_cases j <;> simp at this ⊢
  obtain ⟨Y, h1, h2⟩ := C88_expectation ((4 : ENNReal)⁻¹ • Measure.count) C88_chol_ext_contract hinj one_pos
    (fun _ a ω => (had (![0, 1] a) ω : ℝ)) (fun _ a ω => (had (![2, 3] a) ω : ℝ)) (fun _ _ _ => hint _) (fun _ _ _ => hint _)
    (fun _ _ _ => hint _)
    (fun _ a b => by rw [hval, had_orth]; fin_cases a <;> fin_cases b <;> simp)
    (fun _ a b => by rw [hval, had_orth]; fin_cases a <;> fin_cases b <;> simp)
    (fun _ a b => by rw [hval, had_orth]; fin_cases a <;> fin_cases b <;> simp)
  refine ⟨Y, h1, ?_⟩
  rw [h2, if_neg (by decide), add_zero, EuclideanSpace.dist_sq_eq]
  norm_num [Fin.sum_univ_two, Real.dist_eq]

end iso
end Verif
