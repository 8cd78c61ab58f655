import Verif.Model.ProfitFloat

/-!
# `profit_q_oracle` with a rounding after every operation

As in `Verif/Model/Profit.lean` and `Verif/Model/ProfitFloat.lean`.  `np.round` and the replacement of 0 by 1 are exact: the result is an integer no larger than what was rounded, up to one.
-/
namespace Verif
namespace ProfitQ

/-- `profit_q_oracle.__init__`, `profit_oracle.py:161-171`. -/
def initF (fl ln : ℝ → ℝ) (p A k : ℝ) (a v : Fin 2 → ℝ) : ProfitQ := ⟨none, Profit.initF fl ln p A k a v⟩

/-- The rounded point, `profit_oracle.py:191-195`, from the computed exponential. -/
noncomputable def roundPtF (ex : ℝ → ℝ) (y : Fin 2 → ℝ) : Fin 2 → ℝ := fun i =>
  if npRound (ex (y i)) = 0 then 1 else npRound (ex (y i))

/-- `profit_q_oracle.__call__`, `profit_oracle.py:173-200`.  A first call with `retry=True` subscripts `None` (`TypeError`), here `.oracle`. -/
noncomputable def callF (fl ln ex : ℝ → ℝ) (dot : (Fin 2 → ℝ) → (Fin 2 → ℝ) → ℝ) (y : Fin 2 → ℝ) (t : ℝ) (retry : Bool) (o : ProfitQ) :
    Except PyErr (ProfitQ × ((Fin 2 → ℝ) × ℝ) × (Fin 2 → ℝ) × Option ℝ × Bool) :=
  let o : ProfitQ := if retry then o else ⟨some fun i => ln (roundPtF ex y i), o.P⟩  -- 190-196
  match o.yd with
  | none => .error .oracle
  | some yd =>
    match o.P.callF fl ln ex dot yd t with                              -- 198
    | .error e => .error e
    | .ok ((g, h), t1) => .ok (o, (g, fl (h + dot g fun i => fl (yd i - y i))), yd, t1, !retry)  -- 199-200

end ProfitQ
end Verif
