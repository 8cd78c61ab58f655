import Verif.Model.Lowpass

/-!
# `lowpass_oracle` with a rounding after every operation

`lowpass_oracle.py` as in `Verif/Model/Lowpass.lean`; `dot` is numpy's `@` on a row and `x` (the order of the additions is
numpy's business), `fl` rounds the differences.  Changing a sign, comparing and storing are exact.
-/
namespace Verif
variable {n : ℕ}

/-- Passband loop, `lowpass_oracle.py:62-74`. -/
noncomputable def passScanF (fl : ℝ → ℝ) (dot : (Fin n → ℝ) → (Fin n → ℝ) → ℝ) (A : Band n) (L U : ℝ) (x : Fin n → ℝ) :
    List ℕ → Except PyErr (Option (ℕ × LpCut n))
  | [] => .ok none
  | k :: ks =>
    match A.get k with
    | .error e => .error e
    | .ok a =>
      let v := dot a x                                                          -- 63
      if U < v then .ok (some (k, a, .seq [fl (v - U), fl (v - L)])) else       -- 64-68
      if v < L then .ok (some (k, -a, .seq [fl (-v + L), fl (-v + U)])) else    -- 70-74
      passScanF fl dot A L U x ks

/-- Stopband loop, `lowpass_oracle.py:82-98`. -/
noncomputable def stopScanF (fl : ℝ → ℝ) (dot : (Fin n → ℝ) → (Fin n → ℝ) → ℝ) (A : Band n) (S : ℝ) (x : Fin n → ℝ) :
    WithBot ℝ → ℕ → List ℕ → Except PyErr ((ℕ × LpCut n) ⊕ (WithBot ℝ × ℕ))
  | fmax, imax, [] => .ok (.inr (fmax, imax))
  | fmax, imax, k :: ks =>
    match A.get k with
    | .error e => .error e
    | .ok a =>
      let v := dot a x                                                          -- 83
      if S < v then .ok (.inl (k, a, .seq [fl (v - S), v])) else                -- 84-88
      if v < 0 then .ok (.inl (k, -a, .seq [-v, fl (-v + S)])) else             -- 90-94
      if fmax < (v : WithBot ℝ) then stopScanF fl dot A S x v k ks              -- 96-98
      else stopScanF fl dot A S x fmax imax ks

/-- Nonnegativity loop, `lowpass_oracle.py:104-110`. -/
noncomputable def nonnegScanF (dot : (Fin n → ℝ) → (Fin n → ℝ) → ℝ) (A : Band n) (x : Fin n → ℝ) :
    List ℕ → Except PyErr (Option (ℕ × LpCut n))
  | [] => .ok none
  | k :: ks =>
    match A.get k with
    | .error e => .error e
    | .ok a =>
      let v := dot a x                                                          -- 105
      if v < 0 then .ok (some (k, -a, .scalar (-v))) else                       -- 106-110
      nonnegScanF dot A x ks

/-- `lowpass_oracle.__call__`, `lowpass_oracle.py:44-126`; after the loops no arithmetic is left, so `Lowpass.finish`
(lines 112-126) is shared with the exact model. -/
noncomputable def Lowpass.callF [NeZero n] (fl : ℝ → ℝ) (dot : (Fin n → ℝ) → (Fin n → ℝ) → ℝ) (x : Fin n → ℝ) (S : ℝ)
    (o : Lowpass n) : Except PyErr (Lowpass n × LpCut n × Option ℝ) :=
  let o : Lowpass n := ⟨true, o.iAnr, o.iAs, o.iAp, o.Ap, o.As, o.Anr, o.Lpsq, o.Upsq⟩   -- 56
  match passScanF fl dot o.Ap o.Lpsq o.Upsq x (scanOrder o.iAp o.Ap.N) with     -- 60-74
  | .error e => .error e
  | .ok (some (k, cut)) => .ok (⟨o.moreAlt, o.iAnr, o.iAs, k + 1, o.Ap, o.As, o.Anr, o.Lpsq, o.Upsq⟩, cut, none)
  | .ok none =>
    match stopScanF fl dot o.As S x ⊥ 0 (scanOrder o.iAs o.As.N) with           -- 78-98
    | .error e => .error e
    | .ok (.inl (k, cut)) => .ok (⟨o.moreAlt, o.iAnr, k + 1, o.iAp, o.Ap, o.As, o.Anr, o.Lpsq, o.Upsq⟩, cut, none)
    | .ok (.inr (fmax, imax)) =>
      match nonnegScanF dot o.Anr x (scanOrder o.iAnr o.Anr.N) with             -- 102-110
      | .error e => .error e
      | .ok (some (k, cut)) => .ok (⟨o.moreAlt, k + 1, o.iAs, o.iAp, o.Ap, o.As, o.Anr, o.Lpsq, o.Upsq⟩, cut, none)
      | .ok none => o.finish x fmax imax

end Verif
