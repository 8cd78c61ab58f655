import Verif.Spec.Log

/-! # What a history of `cutting_plane_feas` looks like (independent of the driver's code) -/
namespace Verif
variable {W X C α : Type _}

abbrev FeasEvent (W X C α : Type _) := Event W X (Option C) C α

/-- `PassingRounds Ω S tol w0 k l w`: `l` consists of `k` consecutive rounds starting in world `w0` and
ending in `w`; in each round the oracle is asked once, at the current centre, answers with a cut, and
the space is updated once with exactly this cut, successfully and with `tsq ≥ tol`.  Nothing else
happens in between: each call starts in the world the previous one left. -/
inductive PassingRounds [LT α] (Ω : X → W → Except PyErr (W × Option C)) (S : Space W X C α) (tol : α)
    (w0 : W) : Nat → List (FeasEvent W X C α) → W → Prop
  | nil : PassingRounds Ω S tol w0 0 [] w0
  | snoc {k l w w1 w2} {c : C} {tsq : α} : PassingRounds Ω S tol w0 k l w →
      Ω (S.xc w) w = .ok (w1, some c) → S.update c w1 = .ok (w2, .success, tsq) → ¬ tsq < tol →
      PassingRounds Ω S tol w0 (k + 1)
        (l ++ [.query w (S.xc w) (some c) w1, .update w1 c .success tsq w2]) w2

/-- The four ways a run may end, with the history and the reported information. -/
inductive FeasOutcome [LT α] (Ω : X → W → Except PyErr (W × Option C)) (S : Space W X C α) (tol : α)
    (maxIt : Int) (w0 : W) : List (FeasEvent W X C α) → W → CInfo → Prop
  /-- the oracle accepted the current centre -/
  | accepted {k l w w'} : PassingRounds Ω S tol w0 k l w → (k : Int) < maxIt →
      Ω (S.xc w) w = .ok (w', none) →
      FeasOutcome Ω S tol maxIt w0 (l ++ [.query w (S.xc w) none w']) w' ⟨true, k + 1, .success⟩
  /-- the update did not succeed -/
  | stopped {k l w w1 w2} {c : C} {st : CUTStatus} {tsq : α} : PassingRounds Ω S tol w0 k l w →
      (k : Int) < maxIt → Ω (S.xc w) w = .ok (w1, some c) → S.update c w1 = .ok (w2, st, tsq) →
      st ≠ .success →
      FeasOutcome Ω S tol maxIt w0
        (l ++ [.query w (S.xc w) (some c) w1, .update w1 c st tsq w2]) w2 ⟨false, k + 1, st⟩
  /-- the update succeeded but the space became small -/
  | small {k l w w1 w2} {c : C} {tsq : α} : PassingRounds Ω S tol w0 k l w → (k : Int) < maxIt →
      Ω (S.xc w) w = .ok (w1, some c) → S.update c w1 = .ok (w2, .success, tsq) → tsq < tol →
      FeasOutcome Ω S tol maxIt w0
        (l ++ [.query w (S.xc w) (some c) w1, .update w1 c .success tsq w2]) w2
        ⟨false, k + 1, .smallenough⟩
  /-- the iteration limit was reached -/
  | exhausted {k l w} : PassingRounds Ω S tol w0 k l w → (k : Int) = maxIt → 0 < k →
      FeasOutcome Ω S tol maxIt w0 l w ⟨false, k, .success⟩

end Verif
