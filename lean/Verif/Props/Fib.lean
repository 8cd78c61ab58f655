import Mathlib.Data.Nat.Fib.Basic
import Verif.Model.Fib

/-! # C66: `fib` -/
namespace Verif

theorem fib_loop : ∀ (r i : ℕ) (last : Option ℕ) (k : ℕ), ∃ l,
    forLoop (fun _ (s : Int × Int) => .ok (.cont (s.2, s.1 + s.2))) r i last ((Nat.fib k : Int), (Nat.fib (k + 1) : Int)) =
      .ok (((Nat.fib (k + r) : Int), (Nat.fib (k + r + 1) : Int)), l)
  | 0, _, last, k => ⟨last, rfl⟩
  | r + 1, i, last, k => by
    obtain ⟨l, h⟩ := fib_loop r (i + 1) (some i) (k + 1)
    refine ⟨l, ?_⟩
    have e : ((Nat.fib k : Int) + (Nat.fib (k + 1) : Int)) = (Nat.fib (k + 1 + 1) : Int) := by
      rw [Nat.fib_add_two]; push_cast; rfl
    simp only [forLoop, e]
    rw [h]
    simp only [show k + 1 + r = k + (r + 1) by omega]

/-- **C66.**  `fib(n)` is the `n`-th Fibonacci number for `n ≥ 1`. -/
theorem C66_fib (n : ℕ) (hn : 1 ≤ n) : pyFib n = .ok (Nat.fib n : Int) := by
  obtain ⟨l, h⟩ := fib_loop (n - 1) 0 none 1
  have e : ((n : Int) - 1).toNat = n - 1 := by omega
  have e0 : ((Nat.fib 1 : Int), (Nat.fib (1 + 1) : Int)) = (1, 1) := rfl
  rw [e0] at h
  unfold pyFib forRange
  rw [if_neg (by omega), e, h]
  simp only [show 1 + (n - 1) = n by omega]

/-- **C66.**  Anything else is refused. -/
theorem C66_fib_assert (n : Int) : pyFib n = .error .assertion ↔ n ≤ 0 := by
  constructor
  · intro h
    by_contra hc
    obtain ⟨m, rfl⟩ : ∃ m : ℕ, n = m := ⟨n.toNat, by omega⟩
    rw [C66_fib m (by omega)] at h
    cases h
  · intro h
    unfold pyFib
    rw [if_pos (by omega)]

/-- The values of `tests/test_skeleton.py`. -/
example : pyFib 1 = .ok 1 ∧ pyFib 2 = .ok 1 ∧ pyFib 7 = .ok 13 ∧ pyFib (-10) = .error .assertion := by
  refine ⟨rfl, rfl, rfl, rfl⟩

end Verif
