import Verif.Model.Profit

/-!
# `profit_oracle`, `profit_rb_oracle` with a rounding after every operation

As in `Verif/Model/Profit.lean`; `fl` rounds sums, differences, products and quotients, `ln` and `ex` are numpy's `log` and `exp`, `dot` is numpy's `@`.
Changing a sign and comparing are exact.
-/
namespace Verif
variable {fl ln ex : ℝ → ℝ}

namespace Profit

/-- `profit_oracle.__init__`, `profit_oracle.py:29-41`. -/
def initF (fl ln : ℝ → ℝ) (p A k : ℝ) (a v : Fin 2 → ℝ) : Profit := ⟨ln (fl (p * A)), ln k, v, a⟩

/-- `profit_oracle.__call__`, `profit_oracle.py:43-73`. -/
noncomputable def callF (fl ln ex : ℝ → ℝ) (dot : (Fin 2 → ℝ) → (Fin 2 → ℝ) → ℝ) (P : Profit) (y : Fin 2 → ℝ) (t : ℝ) :
    Except PyErr (((Fin 2 → ℝ) × ℝ) × Option ℝ) :=
  let fj := fl (y 0 - P.logK)                                           -- 56
  if 0 < fj then .ok ((![1, 0], fj), none) else                         -- 57-59
  let logCobb := fl (P.logPA + dot P.a y)                               -- 61
  let q : Fin 2 → ℝ := fun i => fl (P.v i * ex (y i))                   -- 62
  let vx := fl (q 0 + q 1)                                              -- 63
  let te := fl (t + vx)                                                 -- 64
  if te < 0 then .error .oracle else                                    -- 65, `nan`
  if te = 0 ∨ fl (ln te - logCobb) < 0 then                             -- 65-67 (`log 0 = -inf`)
    let te := ex logCobb                                                -- 68
    .ok ((fun i => fl (fl (q i / te) - P.a i), 0), some (fl (te - vx)))       -- 69-70
  else .ok ((fun i => fl (fl (q i / te) - P.a i), fl (ln te - logCobb)), none)  -- 72-73

end Profit

namespace ProfitRb

/-- `profit_rb_oracle.__init__`, `profit_oracle.py:96-116`. -/
def initF (fl ln : ℝ → ℝ) (p A k : ℝ) (a v : Fin 2 → ℝ) (e1 e2 e3 e4 e5 : ℝ) : ProfitRb :=
  ⟨a, ![e1, e2], Profit.initF fl ln (fl (p - e3)) A (fl (k - e4)) a (fun i => fl (v i + e5))⟩

/-- The elasticities `a_rb` of `profit_oracle.py:131-133`. -/
noncomputable def aRbF (fl : ℝ → ℝ) (o : ProfitRb) (y : Fin 2 → ℝ) : Fin 2 → ℝ :=
  fun i => fl (o.a i + if 0 < y i then -o.e i else o.e i)

/-- `profit_rb_oracle.__call__`, `profit_oracle.py:118-135`. -/
noncomputable def callF (fl ln ex : ℝ → ℝ) (dot : (Fin 2 → ℝ) → (Fin 2 → ℝ) → ℝ) (y : Fin 2 → ℝ) (t : ℝ) (o : ProfitRb) :
    Except PyErr (ProfitRb × ((Fin 2 → ℝ) × ℝ) × Option ℝ) :=
  let o' : ProfitRb := ⟨o.a, o.e, ⟨o.P.logPA, o.P.logK, o.P.v, o.aRbF fl y⟩⟩  -- 134
  match o'.P.callF fl ln ex dot y t with                                -- 135
  | .error e => .error e
  | .ok (cut, t1) => .ok (o', cut, t1)

end ProfitRb
end Verif
