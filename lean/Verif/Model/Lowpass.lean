import Verif.Model.Ell

/-! # `lowpass_oracle` (`lowpass_oracle.py`) and `inverse_spectral_fact` (`spectral_fact.py:62-75`) -/
namespace Verif
open Matrix
variable {n : ℕ}

/-- A matrix with `N` rows. -/
structure Band (n : ℕ) where
  N : ℕ
  row : Fin N → Fin n → ℝ

/-- `A[k, :]`; `IndexError` past the end. -/
def Band.get (A : Band n) (k : ℕ) : Except PyErr (Fin n → ℝ) :=
  if h : k < A.N then .ok (A.row ⟨k, h⟩) else .error .indexError

/-- `chain(range(i, N), range(i))`. -/
def scanOrder (i N : ℕ) : List ℕ := List.range' i (N - i) ++ List.range i

/-- Attributes of `lowpass_oracle` (`lowpass_oracle.py:20-42`). -/
structure Lowpass (n : ℕ) where
  moreAlt : Bool := true
  iAnr : ℕ := 0
  iAs : ℕ := 0
  iAp : ℕ := 0
  Ap : Band n
  As : Band n
  Anr : Band n
  Lpsq : ℝ
  Upsq : ℝ

abbrev LpCut (n : ℕ) := (Fin n → ℝ) × Beta

/-- Passband loop, `lowpass_oracle.py:62-74`: the row found violated, with its cut. -/
noncomputable def passScan (A : Band n) (L U : ℝ) (x : Fin n → ℝ) : List ℕ → Except PyErr (Option (ℕ × LpCut n))
  | [] => .ok none
  | k :: ks =>
    match A.get k with
    | .error e => .error e
    | .ok a =>
      let v := a ⬝ᵥ x                                                   -- 63
      if U < v then .ok (some (k, a, .seq [v - U, v - L])) else         -- 64-68
      if v < L then .ok (some (k, -a, .seq [-v + L, -v + U])) else      -- 70-74
      passScan A L U x ks

/-- Stopband loop, `lowpass_oracle.py:82-98`: a violated row with its cut, or `(fmax, imax)`. -/
noncomputable def stopScan (A : Band n) (S : ℝ) (x : Fin n → ℝ) :
    WithBot ℝ → ℕ → List ℕ → Except PyErr ((ℕ × LpCut n) ⊕ (WithBot ℝ × ℕ))
  | fmax, imax, [] => .ok (.inr (fmax, imax))
  | fmax, imax, k :: ks =>
    match A.get k with
    | .error e => .error e
    | .ok a =>
      let v := a ⬝ᵥ x                                                   -- 83
      if S < v then .ok (.inl (k, a, .seq [v - S, v])) else             -- 84-88
      if v < 0 then .ok (.inl (k, -a, .seq [-v, -v + S])) else          -- 90-94
      if fmax < (v : WithBot ℝ) then stopScan A S x v k ks              -- 96-98
      else stopScan A S x fmax imax ks

/-- Nonnegativity loop, `lowpass_oracle.py:104-110`. -/
noncomputable def nonnegScan (A : Band n) (x : Fin n → ℝ) : List ℕ → Except PyErr (Option (ℕ × LpCut n))
  | [] => .ok none
  | k :: ks =>
    match A.get k with
    | .error e => .error e
    | .ok a =>
      let v := a ⬝ᵥ x                                                   -- 105
      if v < 0 then .ok (some (k, -a, .scalar (-v))) else               -- 106-110
      nonnegScan A x ks

namespace Lowpass

/-- `lowpass_oracle.__call__`, `lowpass_oracle.py:112-126`, after the three loops. -/
noncomputable def finish [NeZero n] (o : Lowpass n) (x : Fin n → ℝ) (fmax : WithBot ℝ) (imax : ℕ) :
    Except PyErr (Lowpass n × LpCut n × Option ℝ) :=
  let o : Lowpass n := ⟨false, o.iAnr, o.iAs, o.iAp, o.Ap, o.As, o.Anr, o.Lpsq, o.Upsq⟩   -- 112
  if x 0 < 0 then .ok (o, (fun i => if i = 0 then -1 else 0, .scalar (-x 0)), none) else   -- 115-119
  match o.As.get imax, fmax with                                        -- 125 (`fmax = -inf` only without rows)
  | .error e, _ => .error e
  | .ok _, ⊥ => .error .indexError
  | .ok a, WithBot.some f => .ok (o, (a, .seq [0, f]), some f)          -- 122-126

/-- `lowpass_oracle.__call__`, `lowpass_oracle.py:100-126`: third loop and the rest. -/
noncomputable def call3 [NeZero n] (o : Lowpass n) (x : Fin n → ℝ) (fmax : WithBot ℝ) (imax : ℕ) :
    Except PyErr (Lowpass n × LpCut n × Option ℝ) :=
  match nonnegScan o.Anr x (scanOrder o.iAnr o.Anr.N) with              -- 102-110
  | .error e => .error e
  | .ok (some (k, cut)) => .ok (⟨o.moreAlt, k + 1, o.iAs, o.iAp, o.Ap, o.As, o.Anr, o.Lpsq, o.Upsq⟩, cut, none)
  | .ok none => o.finish x fmax imax

/-- `lowpass_oracle.__call__`, `lowpass_oracle.py:76-126`: second loop and the rest. -/
noncomputable def call2 [NeZero n] (o : Lowpass n) (x : Fin n → ℝ) (S : ℝ) :
    Except PyErr (Lowpass n × LpCut n × Option ℝ) :=
  match stopScan o.As S x ⊥ 0 (scanOrder o.iAs o.As.N) with             -- 78-98
  | .error e => .error e
  | .ok (.inl (k, cut)) => .ok (⟨o.moreAlt, o.iAnr, k + 1, o.iAp, o.Ap, o.As, o.Anr, o.Lpsq, o.Upsq⟩, cut, none)
  | .ok (.inr (fmax, imax)) => o.call3 x fmax imax

/-- `lowpass_oracle.__call__`, `lowpass_oracle.py:44-126`.  The object is the state.  `count` is never
used.  Vectors whose length differs from the number of columns (numpy `ValueError`) are not represented. -/
noncomputable def call [NeZero n] (x : Fin n → ℝ) (S : ℝ) (o : Lowpass n) :
    Except PyErr (Lowpass n × LpCut n × Option ℝ) :=
  let o : Lowpass n := ⟨true, o.iAnr, o.iAs, o.iAp, o.Ap, o.As, o.Anr, o.Lpsq, o.Upsq⟩   -- 56
  match passScan o.Ap o.Lpsq o.Upsq x (scanOrder o.iAp o.Ap.N) with     -- 60-74
  | .error e => .error e
  | .ok (some (k, cut)) => .ok (⟨o.moreAlt, o.iAnr, o.iAs, k + 1, o.Ap, o.As, o.Anr, o.Lpsq, o.Upsq⟩, cut, none)
  | .ok none => o.call2 x S

end Lowpass
end Verif
