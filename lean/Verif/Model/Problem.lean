import Verif.Model.CuttingPlane

/-! # Model of `src/ellpy/problem.py` -/
namespace Verif

/-- The strings stored in `_status`, `problem.py:137-145`. -/
inductive PStatus where
  | optimal | feasible | infeasible
  deriving DecidableEq, Repr

/-- Result attributes of a `Problem` (`problem.py:5-8`); `none` is the class-level `None`.
`numIters` is `_solver_stats.num_iters`.  `optimVar` is `None` or the driver's `x_best`. -/
structure PState (X T : Type _) where
  optimValue : Option T
  optimVar : Option X
  status : Option PStatus
  numIters : Option Nat

/-- Before the first solve, every attribute is `None`. -/
def PState.fresh (X T : Type _) : PState X T := ⟨none, none, none, none⟩

section
variable {W X C α T : Type _} [LT α] [DecidableLT α] [DecidableEq T]

/-- `solve(t)` = `_solve(t)`, `problem.py:60-86, 101-151`; `self.S` and `self.oracle` live in the world `W`,
which persists between calls.  Returns the new attributes and `self.optim_value`. -/
def solve (Ω : X → T → W → Except PyErr (W × C × Option T)) (S : Space W X C α) (o : Options α) (t : T)
    (p : PState X T) (w : W) : Except PyErr (W × PState X T × Option T) :=
  match cuttingPlaneDc Ω S t o w with                           -- 133
  | .error e => .error e
  | .ok (w', xb, fb, info) =>
    let p1 : PState X T :=
      if info.feasible then                                     -- 137-143
        { p with
          status := some (if info.status = .smallenough then .optimal else .feasible)
          optimValue := some fb
          optimVar := xb }
      else { p with status := some .infeasible }                -- 144-145
    let p2 : PState X T := { p1 with numIters := some info.numIters }   -- 147-149
    .ok (w', p2, p2.optimValue)                                 -- 151

end
end Verif
