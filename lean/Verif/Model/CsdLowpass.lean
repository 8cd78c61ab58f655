import Verif.Model.Csd
import Verif.Model.Lowpass
import Verif.Model.Spectral
import Mathlib.Data.Fin.Tuple.Basic
import Mathlib.Algebra.Order.Archimedean.Real.Basic

/-! # `csdlowpass_oracle` (`csdlowpass_oracle.py`) -/
namespace Verif
open Matrix
variable {n : ℕ}

/-- `np.array([f(i) for i in range(n)])` where `f` may raise; the first exception is raised. -/
def seqFin {β : Type _} : {n : ℕ} → (Fin n → Except PyErr β) → Except PyErr (Fin n → β)
  | 0, _ => .ok Fin.elim0
  | _ + 1, f =>
    match f 0 with
    | .error e => .error e
    | .ok x =>
      match seqFin fun i => f i.succ with
      | .error e => .error e
      | .ok xs => .ok (Fin.cons x xs)

/-- `to_decimal(to_csdfixed(hi, nnz))`, `csdlowpass_oracle.py:51`.  The `none` case never happens
(`C63_csdfixed_terminates`). -/
noncomputable def csdTap (nnz : ℤ) (hi : ℝ) : Except PyErr ℝ :=
  match toCsdFixed (fixedRounds hi) hi nnz with
  | none => .error .oracle
  | some s => toDecimal s

/-- `b + d` for a scalar or, through numpy broadcasting, for both entries of a tuple. -/
def Beta.shift : Beta → ℝ → Beta
  | .scalar b, d => .scalar (b + d)
  | .seq bs, d => .seq (bs.map (· + d))

/-- Attributes of `csdlowpass_oracle`, `csdlowpass_oracle.py:22-32`. -/
structure CsdLowpass (n : ℕ) where
  nnz : ℤ
  lowpass : Lowpass n
  rcsd : Option (Fin n → ℝ)

namespace CsdLowpass

/-- Lines 45-52.  `some cut` means that the call returns at line 49.  `spectral_fact` is a parameter.  The
assignment to `lowpass.retry` sets an attribute that is never read. -/
noncomputable def prepare [NeZero n] (spectralFact : (Fin n → ℝ) → Fin n → ℝ) (r : Fin n → ℝ) (Spsq : ℝ)
    (o : CsdLowpass n) : Except PyErr (CsdLowpass n × Option (LpCut n)) :=
  match Lowpass.call r Spsq o.lowpass with                              -- 47
  | .error e => .error e
  | .ok (lp, cut, none) => .ok (⟨o.nnz, lp, o.rcsd⟩, some cut)          -- 48-49
  | .ok (lp, _, some _) =>
    let h := spectralFact r                                             -- 50
    match seqFin fun i => csdTap o.nnz (h i) with                       -- 51
    | .error e => .error e
    | .ok hcsd => .ok (⟨o.nnz, lp, some (inverseSpectralFact hcsd)⟩, none)  -- 52

/-- Lines 54-58.  Without a stored point `lowpass(None, ..)` raises, here `.oracle`. -/
noncomputable def answer [NeZero n] (r : Fin n → ℝ) (Spsq : ℝ) (retry : Bool) (o : CsdLowpass n) :
    Except PyErr (CsdLowpass n × LpCut n × (Fin n → ℝ) × Option ℝ × Bool) :=
  match o.rcsd with
  | none => .error .oracle
  | some q =>
    match Lowpass.call q Spsq o.lowpass with                            -- 54
    | .error e => .error e
    | .ok (lp, (gc, hc), Spsq2) =>
      .ok (⟨o.nnz, lp, o.rcsd⟩, (gc, hc.shift (gc ⬝ᵥ (q - r))), q, Spsq2, lp.moreAlt && !retry)  -- 56-58

/-- `csdlowpass_oracle.__call__`, `csdlowpass_oracle.py:34-58`. -/
noncomputable def call [NeZero n] (spectralFact : (Fin n → ℝ) → Fin n → ℝ) (r : Fin n → ℝ) (Spsq : ℝ)
    (retry : Bool) (o : CsdLowpass n) :
    Except PyErr (CsdLowpass n × LpCut n × (Fin n → ℝ) × Option ℝ × Bool) :=
  if retry then o.answer r Spsq retry else                              -- 45
  match o.prepare spectralFact r Spsq with
  | .error e => .error e
  | .ok (o, some cut) => .ok (o, cut, r, none, true)                    -- 49
  | .ok (o, none) => o.answer r Spsq retry

end CsdLowpass
end Verif
