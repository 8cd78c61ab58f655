import Verif.Spec.Log

/-! # What a history of `cutting_plane_q` looks like (independent of the driver's code) -/
namespace Verif
variable {W X C α T X0 Y : Type _}

abbrev QEvent (W X C α T X0 : Type _) := Event W (X × T × Bool) (C × X0 × Option T × Bool) C α

/-- The improving answers: private copy of the evaluation point taken right after the oracle call, and
the value. -/
def improvementsQ (copy : X0 → W → Y) (log : List (QEvent W X C α T X0)) : List (Y × T) :=
  log.filterMap fun
    | .query _ _ (_, x0, some t', _) w' => some (copy x0 w', t')
    | _ => none

/-- The best-so-far value after a history that started with `t0`. -/
def bestTQ (copy : X0 → W → Y) (t0 : T) (log : List (QEvent W X C α T X0)) : T :=
  match (improvementsQ copy log).getLast? with
  | none => t0
  | some (_, t) => t

/-- Did the history end with an update that had no effect? -/
def endsNoEffect (log : List (QEvent W X C α T X0)) : Bool :=
  match log.getLast? with
  | some (.update _ _ .noeffect _ _) => true
  | _ => false

/-- `k` rounds that did not stop the run. -/
inductive QRounds [LT α] (Ω : X → T → Bool → W → Except PyErr (W × C × X0 × Option T × Bool))
    (copy : X0 → W → Y) (S : Space W X C α) (tol : α) (t0 : T) (w0 : W) :
    Nat → List (QEvent W X C α T X0) → W → Prop
  | nil : QRounds Ω copy S tol t0 w0 0 [] w0
  | snoc {k l w w1 w2} {c : C} {x0 : X0} {t1 : Option T} {alt : Bool} {st : CUTStatus} {tsq : α} :
      QRounds Ω copy S tol t0 w0 k l w →
      Ω (S.xc w) (bestTQ copy t0 l) (endsNoEffect l) w = .ok (w1, c, x0, t1, alt) →
      S.update c w1 = .ok (w2, st, tsq) → st ≠ .nosoln → (st = .noeffect → alt = true) →
      ¬ tsq < tol →
      QRounds Ω copy S tol t0 w0 (k + 1)
        (l ++ [.query w (S.xc w, bestTQ copy t0 l, endsNoEffect l) (c, x0, t1, alt) w1,
               .update w1 c st tsq w2]) w2

/-- How a run may end: either a last round that stops it, or the iteration limit. -/
inductive QOutcome [LT α] (Ω : X → T → Bool → W → Except PyErr (W × C × X0 × Option T × Bool))
    (copy : X0 → W → Y) (S : Space W X C α) (tol : α) (maxIt : Int) (t0 : T) (w0 : W) :
    List (QEvent W X C α T X0) → W → Nat → CUTStatus → Prop
  | stopped {k l w w1 w2} {c : C} {x0 : X0} {t1 : Option T} {alt : Bool} {st st' : CUTStatus}
      {tsq : α} :
      QRounds Ω copy S tol t0 w0 k l w → (k : Int) < maxIt →
      Ω (S.xc w) (bestTQ copy t0 l) (endsNoEffect l) w = .ok (w1, c, x0, t1, alt) →
      S.update c w1 = .ok (w2, st, tsq) →
      (st = .noeffect ∧ alt = false ∧ st' = .noeffect ∨ st = .nosoln ∧ st' = .nosoln ∨
        st ≠ .nosoln ∧ (st = .noeffect → alt = true) ∧ tsq < tol ∧ st' = .smallenough) →
      QOutcome Ω copy S tol maxIt t0 w0
        (l ++ [.query w (S.xc w, bestTQ copy t0 l, endsNoEffect l) (c, x0, t1, alt) w1,
               .update w1 c st tsq w2]) w2 (k + 1) st'
  | exhausted {k l w st} : QRounds Ω copy S tol t0 w0 k l w → (k : Int) = maxIt → 0 < k →
      (∃ w1 c tsq, l.getLast? = some (.update w1 c st tsq w)) →
      QOutcome Ω copy S tol maxIt t0 w0 l w k st

end Verif
