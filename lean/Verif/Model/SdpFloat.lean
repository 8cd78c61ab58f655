import Verif.Model.MatOracleFloat
import Verif.Model.Sdp

/-!
# The semidefinite program of `tests/test_lmi.py` in floating point

`Model/Sdp.lean` again, with rounded LMI oracles, a rounded dot product and a rounded difference.
-/
namespace Verif
variable {k : ℕ}

/-- `my_oracle.__call__`, `tests/test_lmi.py:45-68`. -/
noncomputable def sdpCallF (fl : ℝ → ℝ) (vdot : (Fin k → ℝ) → (Fin k → ℝ) → ℝ) (l1 l2 : LmiCall k) (c : Fin k → ℝ) (x : Fin k → ℝ) (t : WithTop ℝ)
    (Q : CholExt ℝ × CholExt ℝ) : Except PyErr ((CholExt ℝ × CholExt ℝ) × ((Fin k → ℝ) × Beta) × Option (WithTop ℝ)) :=
  match l1 x Q.1 with                                                   -- 55
  | .error e => .error e
  | .ok (Q1, some cut) => .ok ((Q1, Q.2), (cut.1, .scalar cut.2), none) -- 56-57
  | .ok (Q1, none) =>
    match l2 x Q.2 with                                                 -- 59
    | .error e => .error e
    | .ok (Q2, some cut) => .ok ((Q1, Q2), (cut.1, .scalar cut.2), none)  -- 60-61
    | .ok (Q2, none) =>
      let f0 := vdot c x                                                -- 63
      match t with                                                      -- 64-67: `fj = f0 - t`
      | ⊤ => .ok ((Q1, Q2), (c, .scalar 0), some (f0 : ℝ))
      | (t : ℝ) =>
        if 0 < fl (f0 - t) then .ok ((Q1, Q2), (c, .scalar (fl (f0 - t))), none)
        else .ok ((Q1, Q2), (c, .scalar 0), some (f0 : ℝ))

/-- With `lmi_oracle`. -/
noncomputable def sdpLazyF (fl : ℝ → ℝ) (dot : ℕ → ℕ → (ℕ → ℝ) → (ℕ → ℝ) → ℝ) (vdot : (Fin k → ℝ) → (Fin k → ℝ) → ℝ) (F1 : Fin k → ℕ → ℕ → ℝ) (B1 : ℕ → ℕ → ℝ) (m1 : ℕ)
    (F2 : Fin k → ℕ → ℕ → ℝ) (B2 : ℕ → ℕ → ℝ) (m2 : ℕ) (c : Fin k → ℝ) :=
  sdpCallF fl vdot (lmiCallF fl dot F1 B1 m1) (lmiCallF fl dot F2 B2 m2) c

/-- With `lmi_old_oracle`. -/
noncomputable def sdpOldF (fl : ℝ → ℝ) (dot : ℕ → ℕ → (ℕ → ℝ) → (ℕ → ℝ) → ℝ) (vdot : (Fin k → ℝ) → (Fin k → ℝ) → ℝ) (F1 : Fin k → ℕ → ℕ → ℝ) (B1 : ℕ → ℕ → ℝ) (m1 : ℕ)
    (F2 : Fin k → ℕ → ℕ → ℝ) (B2 : ℕ → ℕ → ℝ) (m2 : ℕ) (c : Fin k → ℝ) :=
  sdpCallF fl vdot (lmiOldCallF fl dot F1 B1 m1) (lmiOldCallF fl dot F2 B2 m2) c

end Verif
