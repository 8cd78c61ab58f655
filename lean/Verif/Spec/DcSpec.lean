import Verif.Spec.Log

/-! # What a history of `cutting_plane_dc` looks like (independent of the driver's code) -/
namespace Verif
variable {W X C α T : Type _}

abbrev DcEvent (W X C α T : Type _) := Event W (X × T) (C × Option T) C α

/-- The improving oracle answers of a history, in order: the world the oracle left and the value. -/
def improvements (log : List (DcEvent W X C α T)) : List (W × T) :=
  log.filterMap fun
    | .query _ _ (_, some t') w' => some (w', t')
    | _ => none

/-- The best-so-far value after a history that started with `t0`. -/
def bestT (t0 : T) (log : List (DcEvent W X C α T)) : T :=
  match (improvements log).getLast? with
  | none => t0
  | some (_, t) => t

/-- `k` consecutive full rounds: query at the current centre with the current best value, then one
successful update with the returned cut and `tsq ≥ tol`. -/
inductive DcRounds [LT α] (Ω : X → T → W → Except PyErr (W × C × Option T)) (S : Space W X C α)
    (tol : α) (t0 : T) (w0 : W) : Nat → List (DcEvent W X C α T) → W → Prop
  | nil : DcRounds Ω S tol t0 w0 0 [] w0
  | snoc {k l w w1 w2} {c : C} {t1 : Option T} {tsq : α} : DcRounds Ω S tol t0 w0 k l w →
      Ω (S.xc w) (bestT t0 l) w = .ok (w1, c, t1) → S.update c w1 = .ok (w2, .success, tsq) →
      ¬ tsq < tol →
      DcRounds Ω S tol t0 w0 (k + 1)
        (l ++ [.query w (S.xc w, bestT t0 l) (c, t1) w1, .update w1 c .success tsq w2]) w2

/-- How a run may end: history, final world, number of iterations, status. -/
inductive DcOutcome [LT α] (Ω : X → T → W → Except PyErr (W × C × Option T)) (S : Space W X C α)
    (tol : α) (maxIt : Int) (t0 : T) (w0 : W) :
    List (DcEvent W X C α T) → W → Nat → CUTStatus → Prop
  | stopped {k l w w1 w2} {c : C} {t1 : Option T} {st : CUTStatus} {tsq : α} :
      DcRounds Ω S tol t0 w0 k l w → (k : Int) < maxIt →
      Ω (S.xc w) (bestT t0 l) w = .ok (w1, c, t1) → S.update c w1 = .ok (w2, st, tsq) →
      st ≠ .success →
      DcOutcome Ω S tol maxIt t0 w0
        (l ++ [.query w (S.xc w, bestT t0 l) (c, t1) w1, .update w1 c st tsq w2]) w2 (k + 1) st
  | small {k l w w1 w2} {c : C} {t1 : Option T} {tsq : α} :
      DcRounds Ω S tol t0 w0 k l w → (k : Int) < maxIt →
      Ω (S.xc w) (bestT t0 l) w = .ok (w1, c, t1) → S.update c w1 = .ok (w2, .success, tsq) →
      tsq < tol →
      DcOutcome Ω S tol maxIt t0 w0
        (l ++ [.query w (S.xc w, bestT t0 l) (c, t1) w1, .update w1 c .success tsq w2]) w2 (k + 1)
        .smallenough
  | exhausted {k l w} : DcRounds Ω S tol t0 w0 k l w → (k : Int) = maxIt → 0 < k →
      DcOutcome Ω S tol maxIt t0 w0 l w k .success

end Verif
