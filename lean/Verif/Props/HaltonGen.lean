import Verif.Model.HaltonGen
import Verif.Props.LowDiscr
import Mathlib.Data.Nat.Prime.Basic
import Mathlib.Data.Nat.Nth
import Mathlib.Data.Nat.Count
import Mathlib.Data.List.OfFn

/-!
# C124, C125: the generator functions `vdcorput`, `halton_n` and the table of primes
-/
namespace Verif
namespace LowDiscr

/-! ### The point of a given index -/

/-- The Halton point of index `i`: the radical inverses of `i` in the given bases (`i < b ^ i`, so `i` digits are enough). -/
def haltonPt (bs : List ℕ) (i : ℕ) : List ℚ := bs.map fun b => radInv b i i

theorem vdc_fuel {b : ℕ} (hb : 2 ≤ b) (i : ℕ) : vdc i i b = .ok (some (radInv b i i)) := by
  obtain ⟨L, hL, h⟩ := vdcLoop_eq hb i i 0 (by simp)
  have hi : i < b ^ i := Nat.lt_pow_self (by omega)
  have e : radInv b L i = radInv b i i := by
    rw [← radInv_stable (by omega) hL (le_max_left L i), ← radInv_stable (by omega) hi (le_max_right L i)]
  rw [← e, ← h, vdc]
  simp [radInv]

theorem vdcLoop_mono' {b : ℕ} : ∀ fuel k d v r, vdcLoop b fuel k d v = r → r ≠ .ok none →
    ∀ fuel' ≥ fuel, vdcLoop b fuel' k d v = r := by
  intro fuel
  induction fuel with
  | zero =>
    intro k d v r h hr fuel' _
    by_cases h0 : k = 0
    · subst h0
      rw [vdcLoop_done] at h ⊢
      exact h
    · rw [vdcLoop_stop h0] at h
      exact absurd h.symm hr
  | succ fuel ih =>
    intro k d v r h hr fuel' hf
    obtain ⟨f, rfl⟩ : ∃ f, fuel' = f + 1 := ⟨fuel' - 1, by omega⟩
    by_cases h0 : k = 0
    · subst h0
      rw [vdcLoop_done] at h ⊢
      exact h
    · by_cases hb : b = 0
      · conv_lhs => rw [vdcLoop.eq_def]
        conv_lhs at h => rw [vdcLoop.eq_def]
        simpa [h0, hb] using h
      · rw [vdcLoop_step h0 hb] at h ⊢
        exact ih _ _ _ _ h hr f (by omega)

theorem VGen.next_mono {fuel fuel' : ℕ} {g : VGen} (h : g.next fuel ≠ .running) (hf : fuel ≤ fuel') : g.next fuel' = g.next fuel := by
  unfold VGen.next at *
  split_ifs with h1
  · rw [if_pos h1] at h
    have h2 : vdc fuel g.i g.base ≠ .ok none := fun h2 => h (by rw [h2])
    have : vdc fuel' g.i g.base = vdc fuel g.i g.base := vdcLoop_mono' _ _ _ _ _ rfl h2 _ hf
    rw [this]
  · rfl

theorem HGen.ofOne_running {r : GenRes VGen ℚ} (h : ofOne r ≠ .running) : r ≠ .running := by
  rintro rfl; exact h rfl

theorem HGen.start_mono {fuel fuel' : ℕ} {k : ℤ} (hf : fuel ≤ fuel') : ∀ b n, start fuel k b n ≠ .running →
    start fuel' k b n = start fuel k b n := by
  intro b
  induction b with
  | nil => intro n _; rfl
  | cons b0 bs ih =>
    intro n h
    rw [start] at h ⊢
    rw [start]
    split_ifs with h1
    · rw [if_pos h1] at h
      rw [VGen.next_mono (ofOne_running h) hf]
    · rw [if_neg h1] at h
      have h2 : VGen.next fuel ⟨0, k, b0⟩ ≠ .running := by intro h2; rw [h2] at h; exact h rfl
      rw [VGen.next_mono h2 hf]
      cases hv : VGen.next fuel ⟨0, k, b0⟩ with
      | yield v g =>
        rw [hv] at h
        rw [ih (n - 1) (fun h3 => by rw [h3] at h; exact h rfl)]
      | running => exact absurd hv h2
      | stop => rfl
      | error e => rfl
      | runtime => rfl

theorem HGen.next_mono {fuel fuel' : ℕ} (hf : fuel ≤ fuel') : ∀ g : HGen, g.next fuel ≠ .running → g.next fuel' = g.next fuel := by
  intro g
  induction g with
  | fresh k n b => exact HGen.start_mono hf b n
  | single g => intro h; rw [next, next, VGen.next_mono (ofOne_running h) hf]
  | many g S ih =>
    intro h
    rw [next] at h ⊢
    rw [next]
    have h2 : g.next fuel ≠ .running := by intro h2; rw [h2] at h; exact h rfl
    rw [VGen.next_mono h2 hf]
    cases hv : g.next fuel with
    | yield v g =>
      rw [hv] at h
      rw [ih (fun h3 => by rw [h3] at h; exact h rfl)]
    | running => exact absurd hv h2
    | stop => rfl
    | error e => rfl
    | runtime => rfl

/-- `next` is deterministic: two observations after enough rounds agree. -/
theorem HGen.next_unique {f f' : ℕ} {g : HGen} {r r' : GenRes HGen (List ℚ)} (h : g.next f = r) (h' : g.next f' = r')
    (hr : r ≠ .running) (hr' : r' ≠ .running) : r = r' := by
  rw [← h, ← h']
  rw [← HGen.next_mono (le_max_left f f') g (h ▸ hr), ← HGen.next_mono (le_max_right f f') g (h' ▸ hr')]

theorem HGen.Lists.unique {g : HGen} {l l' : List (List ℚ)} (h : g.Lists l) (h' : g.Lists l') : l = l' := by
  induction h generalizing l' with
  | stop h =>
    cases h' with
    | stop => rfl
    | yield h1 h2 => exact absurd (HGen.next_unique h h1 (by simp) (by simp)) (by simp)
  | yield h ht ih =>
    cases h' with
    | stop h1 => exact absurd (HGen.next_unique h h1 (by simp) (by simp)) (by simp)
    | yield h1 h2 =>
      have := HGen.next_unique h h1 (by simp) (by simp)
      simp only [GenRes.yield.injEq] at this
      obtain ⟨rfl, rfl⟩ := this
      rw [ih h2]

/-- The state of `halton_n(k, n, b)` before its point of index `i`, once started. -/
def HGen.at_ (k : ℤ) (i : ℕ) : ℕ → List ℕ → HGen
  | b0, [] => .single ⟨i, k, b0⟩
  | b0, b1 :: bs => .many ⟨i, k, b0⟩ (at_ k i b1 bs)

theorem VGen.next_lt {i : ℕ} {k : ℤ} {b : ℕ} (hb : 2 ≤ b) (h : (i : ℤ) < k) : VGen.next i ⟨i, k, b⟩ = .yield (radInv b i i) ⟨i + 1, k, b⟩ := by
  simp only [VGen.next, h, if_true, vdc_fuel hb]

theorem VGen.next_ge {fuel i : ℕ} {k : ℤ} {b : ℕ} (h : ¬ (i : ℤ) < k) : VGen.next fuel ⟨i, k, b⟩ = .stop := by
  simp only [VGen.next, h, if_false]

theorem HGen.next_at_lt {i : ℕ} {k : ℤ} (h : (i : ℤ) < k) : ∀ (bs : List ℕ) (b0 : ℕ), (∀ b ∈ b0 :: bs, 2 ≤ b) →
    (at_ k i b0 bs).next i = .yield (haltonPt (b0 :: bs) i) (at_ k (i + 1) b0 bs) := by
  intro bs
  induction bs with
  | nil => intro b0 hb; simp only [at_, next, VGen.next_lt (hb b0 (by simp)) h, ofOne]; rfl
  | cons b1 bs ih =>
    intro b0 hb
    simp only [at_, next, VGen.next_lt (hb b0 (by simp)) h, ih b1 (fun b hb' => hb b (by simp_all)), combine]
    rfl

theorem HGen.next_at_ge {fuel i : ℕ} {k : ℤ} (h : ¬ (i : ℤ) < k) (bs : List ℕ) (b0 : ℕ) : (at_ k i b0 bs).next fuel = .stop := by
  cases bs <;> simp only [at_, next, VGen.next_ge h, ofOne, combine]

theorem HGen.start_eq {fuel : ℕ} {k : ℤ} : ∀ (b : List ℕ) (n : ℕ) (b0 : ℕ), n ≤ b.length →
    start fuel k (b0 :: b) (n + 1) = (at_ k 0 b0 (b.take n)).next fuel := by
  intro b
  induction b with
  | nil =>
    intro n b0 h
    obtain rfl : n = 0 := by simpa using h
    simp [start, at_, next]
  | cons b1 bs ih =>
    intro n b0 h
    rcases Nat.eq_zero_or_pos n with rfl | hn
    · simp [start, at_, next]
    · obtain ⟨m, rfl⟩ : ∃ m, n = m + 1 := ⟨n - 1, by omega⟩
      rw [start, if_neg (by push_cast; omega)]
      have e : ((m + 1 : ℕ) : ℤ) + 1 - 1 = (m : ℤ) + 1 := by push_cast; ring
      rw [e, ih m b1 (by simpa using h), List.take_succ_cons]
      rfl

theorem HGen.lists_at (k : ℕ) (bs : List ℕ) (b0 : ℕ) (hb : ∀ b ∈ b0 :: bs, 2 ≤ b) : ∀ r i, i + r = k →
    (at_ k i b0 bs).Lists ((List.range' i r).map (haltonPt (b0 :: bs))) := by
  intro r
  induction r with
  | zero => intro i h; exact .stop (fuel := 0) (next_at_ge (by omega) bs b0)
  | succ r ih =>
    intro i h
    rw [List.range'_succ, List.map_cons]
    exact .yield (next_at_lt (by omega) bs b0 hb) (ih (i + 1) (by omega))

/-- **C124** (the points).  For `1 ≤ n ≤ len(b)` and bases at least 2, `list(halton_n(k, n, b))` exists and consists of the Halton points of the indices
`0, ..., k-1` in the first `n` bases - `k` points (the docstring promises the indices `0, ..., k`); for a negative `k` there are none.  In particular `next(S)` never ends early. -/
theorem C124_halton_n {k : ℤ} {n : ℕ} {b : List ℕ} (hn : 1 ≤ n) (hlen : n ≤ b.length) (hb : ∀ x ∈ b.take n, 2 ≤ x) (l : List (List ℚ)) :
    (HGen.fresh k n b).Lists l ↔ l = (List.range k.toNat).map (haltonPt (b.take n)) := by
  have key : (HGen.fresh k n b).Lists ((List.range k.toNat).map (haltonPt (b.take n))) := by
    obtain ⟨m, rfl⟩ : ∃ m, n = m + 1 := ⟨n - 1, by omega⟩
    obtain _ | ⟨b0, bs⟩ := b
    · simp at hlen
    have hs : ∀ fuel, (HGen.fresh k (m + 1 : ℕ) (b0 :: bs)).next fuel = (HGen.at_ k 0 b0 (bs.take m)).next fuel := fun fuel => by
      rw [HGen.next]; push_cast; exact HGen.start_eq bs m b0 (by simpa using hlen)
    rw [List.take_succ_cons] at hb ⊢
    rcases lt_or_ge 0 k with hk | hk
    · obtain ⟨K, rfl⟩ : ∃ K : ℕ, k = K := ⟨k.toNat, by omega⟩
      have h := HGen.lists_at K (bs.take m) b0 hb K 0 (by simp)
      rw [Int.toNat_natCast, List.range_eq_range']
      cases hl : (List.range' 0 K).map (haltonPt (b0 :: bs.take m)) with
      | nil => simp at hl; omega
      | cons p l =>
        rw [hl] at h
        cases h with
        | yield h ht => exact .yield ((hs _).trans h) ht
    · rw [Int.toNat_of_nonpos hk]
      exact .stop (fuel := 0) ((hs 0).trans (HGen.next_at_ge (by push_cast; omega) _ _))
  exact ⟨fun h => h.unique key, fun h => h ▸ key⟩

/-- **C124** (too few bases).  If `n` is zero, negative or larger than the number of bases, and at least one point is wanted, the first `next` raises `IndexError`
(bases at least 2). -/
theorem C124_halton_n_error {k n : ℤ} {b : List ℕ} (hk : 1 ≤ k) (hn : n ≤ 0 ∨ (b.length : ℤ) < n) (hb : ∀ x ∈ b, 2 ≤ x) :
    (HGen.fresh k n b).Raises .indexError := by
  refine ⟨0, ?_⟩
  rw [HGen.next]
  induction b generalizing n with
  | nil => rfl
  | cons b0 bs ih =>
    have h1 : n ≠ 1 := by
      rcases hn with h | h
      · omega
      · simp only [List.length_cons] at h; push_cast at h; omega
    rw [HGen.start, if_neg h1, VGen.next_lt (hb b0 (by simp)) (by push_cast; omega),
      ih (by rcases hn with h | h <;> [left; right] <;> [omega; (simp only [List.length_cons] at h; push_cast at h; omega)])
        (fun x hx => hb x (by simp [hx]))]
    rfl

/-- **C124** (the generator and the class).  The point of index `i + 1` is what call number `i + 1` of an object of the class `halton_n` of `low_discr_seq.tpy` returns: the class
leaves out the point of index 0, which is the origin. -/
theorem C124_class {n : ℕ} {b : List ℕ} {g : Halton} (hg : Halton.init n b = .ok g) (hb : ∀ x ∈ b.take n, 2 ≤ x) (i : ℕ) :
    (Halton.next^[i] g).Yields (haltonPt (b.take n) (i + 1)) ∧ haltonPt (b.take n) 0 = (b.take n).map fun _ => 0 := by
  constructor
  · have h3 : g.gens = (b.take n).map Vdcorput.init := by
      unfold Halton.init at hg
      split at hg
      · simp at hg
      · simp only [Except.ok.injEq] at hg; rw [← hg]
    rw [Halton.Yields, Halton.gens_iterate, h3, List.map_map, haltonPt, List.forall₂_map_left_iff, List.forall₂_map_right_iff, List.forall₂_same]
    intro x hx
    have h := (C79_vdc (hb x hx) (Nat.lt_pow_self (n := i + 1) (by have := hb x hx; omega)) _).2 rfl
    simp only [Function.comp_apply, Vdcorput.Yields, Vdcorput.init]
    convert h using 1
    push_cast; ring
  · simp [haltonPt, radInv]

/-- **C124** (different points). -/
theorem C124_distinct {b : List ℕ} (hne : b ≠ []) (hb : ∀ x ∈ b, 2 ≤ x) : Function.Injective (haltonPt b) := by
  obtain _ | ⟨b0, bs⟩ := b
  · exact absurd rfl hne
  intro i j h
  simp only [haltonPt, List.map_cons, List.cons.injEq] at h
  have h2 : 2 ≤ b0 := hb b0 (by simp)
  have h1 := (C79_vdc h2 (Nat.lt_pow_self (n := i) (by omega)) _).2 rfl
  have h3 := (C79_vdc h2 (Nat.lt_pow_self (n := j) (by omega)) _).2 rfl
  rw [← h.1] at h3
  exact C79_vdc_injective h2 h1 h3

/-- **C124** (equidistribution).  With pairwise coprime bases, among any `∏ b_i^m_i` consecutive points exactly one lies in each box. -/
theorem C124_equidistributed {n : ℕ} {b m a : Fin n → ℕ} (hb : ∀ i, 2 ≤ b i) (hco : ∀ i j, i ≠ j → Nat.Coprime (b i) (b j))
    (ha : ∀ i, a i < b i ^ m i) (s : ℕ) :
    ∃! k, (s ≤ k ∧ k < s + ∏ i, b i ^ m i) ∧ ∀ i, InCell (b i) (m i) (a i) ((haltonPt (List.ofFn b) k)[i]'(by simp [haltonPt])) := by
  have hN : 0 < ∏ i, b i ^ m i := Finset.prod_pos fun i _ => pow_pos (by have := hb i; omega) _
  have hr : ∀ k i, VdcReturns (k : ℕ) (b i) ((haltonPt (List.ofFn b) k)[i]'(by simp [haltonPt])) := fun k i => by
    simp only [haltonPt, Fin.getElem_fin, List.getElem_map, List.getElem_ofFn]
    exact (C79_vdc (hb i) (Nat.lt_pow_self (by have := hb i; omega)) _).2 rfl
  have hC : ∃ C, ∀ k, (∀ i, InCell (b i) (m i) (a i) ((haltonPt (List.ofFn b) k)[i]'(by simp [haltonPt]))) ↔ k ≡ C [MOD ∏ i, b i ^ m i] := by
    have hc : ∀ i, ∃ c, rev (b i) (m i) c = a i := fun i => rev_surj (by have := hb i; omega) (ha i)
    choose c hc using hc
    obtain ⟨C, hC⟩ := Nat.chineseRemainderOfFinset c (fun i => b i ^ m i) Finset.univ
      (fun i _ => pow_ne_zero _ (by have := hb i; omega)) (fun i _ j _ hij => Nat.Coprime.pow _ _ (hco i j hij))
    refine ⟨C, fun k => ?_⟩
    have h2 : ∀ i, (InCell (b i) (m i) (a i) ((haltonPt (List.ofFn b) k)[i]'(by simp [haltonPt])) ↔ k ≡ C [MOD b i ^ m i]) := by
      intro i
      have h3 := hC i (Finset.mem_univ i)
      rw [inCell_iff (hb i) (hr k i), ← hc i, rev_eq_iff (by have := hb i; omega)]
      exact ⟨fun h => h.trans h3.symm, fun h => h.trans h3⟩
    simp only [h2]
    constructor
    · intro h
      rw [Nat.modEq_iff_dvd]
      push_cast
      refine Finset.prod_dvd_of_coprime (fun i _ j _ hij => ?_) fun i _ => ?_
      · exact (Nat.isCoprime_iff_coprime.2 (hco i j hij)).pow
      · have := (Nat.modEq_iff_dvd.1 (h i))
        push_cast at this
        exact this
    · intro h i
      exact h.of_dvd (Finset.dvd_prod_of_mem (fun i => b i ^ m i) (Finset.mem_univ i))
  obtain ⟨C, hC⟩ := hC
  simp only [hC]
  exact existsUnique_window hN s

/-! ### The table of primes -/

/-- Trial division by the primes below 89. -/
def trial (n : ℕ) : Bool :=
  decide (2 ≤ n) && [2, 3, 5, 7, 11, 13, 17, 19, 23, 29, 31, 37, 41, 43, 47, 53, 59, 61, 67, 71, 73, 79, 83].all fun d => n == d || n % d != 0

theorem trial_iff {n : ℕ} (hn : n < 89 * 89) : trial n = true ↔ n.Prime := by
  constructor
  · intro h
    simp only [trial, Bool.and_eq_true, decide_eq_true_eq, List.all_eq_true, Bool.or_eq_true, beq_iff_eq, bne_iff_ne] at h
    obtain ⟨h2, h⟩ := h
    by_contra hp
    have h3 := Nat.minFac_prime (n := n) (by omega)
    have h4 := Nat.minFac_sq_le_self (by omega) hp
    have h5 : n.minFac < 89 := by nlinarith
    have h6 : ∀ p < 89, p.Prime → p ∈ [2, 3, 5, 7, 11, 13, 17, 19, 23, 29, 31, 37, 41, 43, 47, 53, 59, 61, 67, 71, 73, 79, 83] := by
      decide
    rcases h _ (h6 _ h5 h3) with h7 | h7
    · exact hp (h7 ▸ h3)
    · exact h7 (Nat.mod_eq_zero_of_dvd (Nat.minFac_dvd n))
  · intro h
    simp only [trial, Bool.and_eq_true, decide_eq_true_eq, List.all_eq_true, Bool.or_eq_true, beq_iff_eq, bne_iff_ne]
    refine ⟨h.two_le, fun d hd => ?_⟩
    by_cases h1 : n = d
    · exact .inl h1
    · right
      intro h2
      rcases (Nat.dvd_prime h).1 (Nat.dvd_of_mod_eq_zero h2) with h3 | h3
      · subst h3; simp at hd
      · exact h1 h3.symm

/-- The numbers `n, n+1, ..., n+f-1` that pass. -/
def trialList : ℕ → ℕ → List ℕ
  | 0, _ => []
  | f + 1, n => bif trial n then n :: trialList f (n + 1) else trialList f (n + 1)

theorem trialList_eq : ∀ f n, trialList f n = (List.range' n f).filter trial
  | 0, n => rfl
  | f + 1, n => by
    rw [trialList, List.range'_succ, List.filter_cons, trialList_eq f (n + 1)]
    cases trial n <;> rfl

set_option maxRecDepth 100000 in
theorem trialList_table : trialList 7920 0 = primeTable := by decide +kernel

theorem primeTable_length : primeTable.length = 1000 := by decide +kernel

attribute [local irreducible] primeTable

theorem primeTable_eq : primeTable = (List.range 7920).filter fun n => decide n.Prime := by
  rw [← trialList_table, trialList_eq, List.range_eq_range']
  refine List.filter_congr fun n hn => ?_
  have h : n < 89 * 89 := by have := List.mem_range'_1.1 hn; omega
  rw [Bool.eq_iff_iff, trial_iff h, decide_eq_true_eq]

theorem filter_range_length (p : ℕ → Prop) [DecidablePred p] (N : ℕ) : ((List.range N).filter fun n => decide (p n)).length = Nat.count p N := by
  rw [Nat.count, List.countP_eq_length_filter]

theorem filter_range_getElem (p : ℕ → Prop) [DecidablePred p] : ∀ N i (h : i < ((List.range N).filter fun n => decide (p n)).length),
    ((List.range N).filter fun n => decide (p n))[i] = Nat.nth p i := by
  intro N
  induction N with
  | zero => intro i h; simp at h
  | succ N ih =>
    intro i h
    by_cases hp : p N
    · have e : ((List.range (N + 1)).filter fun n => decide (p n)) = ((List.range N).filter fun n => decide (p n)) ++ [N] := by
        rw [List.range_succ, List.filter_append]; simp [hp]
      simp only [e] at h ⊢
      by_cases hi : i < ((List.range N).filter fun n => decide (p n)).length
      · rw [List.getElem_append_left hi]; exact ih i hi
      · have : i = Nat.count p N := by
          rw [← filter_range_length]; simp at h hi ⊢; omega
        rw [List.getElem_append_right (by omega)]
        subst this
        simp [Nat.nth_count hp]
    · have e : ((List.range (N + 1)).filter fun n => decide (p n)) = ((List.range N).filter fun n => decide (p n)) := by
        rw [List.range_succ, List.filter_append]; simp [hp]
      simp only [e] at h ⊢
      exact ih i h

theorem nth_of_filter (p : ℕ → Prop) [DecidablePred p] {N : ℕ} {l : List ℕ} (hl : l = (List.range N).filter fun n => decide (p n)) (i : ℕ) (h : i < l.length) :
    l[i] = Nat.nth p i := by
  subst hl
  exact filter_range_getElem p N i h

/-- **C125** (the table).  `prime_table` has 1000 entries, and its entry `i` is the prime number with `i` smaller ones. -/
theorem C125_prime_table : primeTable.length = 1000 ∧ ∀ i (h : i < primeTable.length), primeTable[i] = Nat.nth Nat.Prime i := by
  refine ⟨primeTable_length, fun i h => ?_⟩
  exact nth_of_filter Nat.Prime primeTable_eq i h

/-- **C125** (fit for use).  The table's entries are at least 2 and pairwise coprime, so for every `n ≤ 1000` the points of `halton_n(k, n, prime_table)` are the equidistributed ones of C124. -/
theorem C125_halton_primes {n : ℕ} (hn : n ≤ 1000) {m a : Fin n → ℕ} (ha : ∀ i : Fin n, a i < Nat.nth Nat.Prime i ^ m i) (s : ℕ) (k : ℤ) (hk : 1 ≤ n)
    (l : List (List ℚ)) (hl : (HGen.fresh k n primeTable).Lists l) (hs : ((s + ∏ i : Fin n, Nat.nth Nat.Prime i ^ m i : ℕ) : ℤ) ≤ k) :
    ∃! j, (s ≤ j ∧ j < s + ∏ i : Fin n, Nat.nth Nat.Prime i ^ m i) ∧
      ∃ p : List ℚ, l[j]? = some p ∧ ∀ i : Fin n, ∃ v, p[(i : ℕ)]? = some v ∧ InCell (Nat.nth Nat.Prime i) (m i) (a i) v := by
  have hpr : ∀ i, (Nat.nth Nat.Prime i).Prime := fun i => Nat.nth_mem_of_infinite Nat.infinite_setOfPred_prime i
  have htake : primeTable.take n = List.ofFn fun i : Fin n => Nat.nth Nat.Prime i := by
    refine List.ext_getElem (by simp [C125_prime_table.1, hn]) fun i h1 h2 => ?_
    simp only [List.getElem_take, List.getElem_ofFn]
    exact C125_prime_table.2 i _
  have h2 : ∀ x ∈ primeTable.take n, 2 ≤ x := by
    rw [htake]
    intro x hx
    obtain ⟨i, rfl⟩ := (List.mem_ofFn' _ _).1 hx
    exact (hpr i).two_le
  have hl' := (C124_halton_n hk (by rw [C125_prime_table.1]; exact hn) h2 l).1 hl
  obtain ⟨j, ⟨h3, h4⟩, h5⟩ := C124_equidistributed (b := fun i : Fin n => Nat.nth Nat.Prime i) (m := m) (a := a) (fun i => (hpr i).two_le)
    (fun i j hij => (Nat.coprime_primes (hpr i) (hpr j)).2 fun h => hij (Fin.ext (Nat.nth_injective Nat.infinite_setOfPred_prime h))) ha s
  have key : ∀ j, j < s + ∏ i : Fin n, Nat.nth Nat.Prime i ^ m i →
      ((∃ p : List ℚ, l[j]? = some p ∧ ∀ i : Fin n, ∃ v, p[(i : ℕ)]? = some v ∧ InCell (Nat.nth Nat.Prime i) (m i) (a i) v) ↔
        ∀ i : Fin n, InCell (Nat.nth Nat.Prime i) (m i) (a i) ((haltonPt (List.ofFn fun i : Fin n => Nat.nth Nat.Prime i) j)[i]'(by simp [haltonPt]))) := by
    intro j hj
    have hjk : j < k.toNat := by omega
    have e : l[j]? = some (haltonPt (List.ofFn fun i : Fin n => Nat.nth Nat.Prime i) j) := by
      rw [hl', htake, List.getElem?_map, List.getElem?_range hjk]; rfl
    rw [e]
    constructor
    · rintro ⟨p, hp, h⟩ i
      cases hp
      obtain ⟨v, hv, hc⟩ := h i
      rw [List.getElem?_eq_getElem (by simp [haltonPt])] at hv
      cases hv
      exact hc
    · intro h
      exact ⟨_, rfl, fun i => ⟨_, List.getElem?_eq_getElem (by simp [haltonPt]), h i⟩⟩
  refine ⟨j, ⟨h3, (key j h3.2).2 h4⟩, ?_⟩
  rintro j' ⟨h6, h7⟩
  exact h5 j' ⟨h6, (key j' h6.2).1 h7⟩

/-- `list(halton_n(4, 2, [2, 3]))`: four points. -/
example : (HGen.fresh 4 2 [2, 3]).Lists [[0, 0], [1 / 2, 1 / 3], [1 / 4, 2 / 3], [3 / 4, 1 / 9]] := by
  refine (C124_halton_n (n := 2) (by norm_num) (by simp) (by simp) _).2 ?_
  simp [haltonPt, radInv, digit, List.range_succ, Finset.sum_range_succ]
  norm_num

end LowDiscr
end Verif
