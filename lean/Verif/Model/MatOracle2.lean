import Verif.Model.MatOracle

/-!
# Further matrix-inequality oracles: `lmi2_oracle.tpy`, `lmi3_oracle.tpy`, `cholutil.pyx`, `qmi_c_oracle.tpy`

Same conventions as `Verif.Model.MatOracle`.
-/
namespace Verif
open Finset

section
variable {α : Type _} [Field α] [LinearOrder α] {k : ℕ}

/-- `lmi2_oracle.__call__`, `lmi2_oracle.tpy:22-51`, on `m × m` arrays: constraint `0 ⪯ Σ x_k F_k ⪯ U`;
a rejected point is answered with the parallel cut `(g, (f, fj))`. -/
def lmi2Call (F : Fin k → ℕ → ℕ → α) (U : ℕ → ℕ → α) (m : ℕ) (x : Fin k → α) (Q : CholExt α) :
    Except PyErr (CholExt α × Option ((Fin k → α) × (α × α))) :=
  match Q.factor (W := Unit) (readAt m (affEntry F U x)) () with                  -- 31-36, 38
  | .error e => .error e
  | .ok (_, Q1, false) =>
    match Q1.witness with                                                         -- 39
    | .error e => .error e
    | .ok (Q2, f) =>
      let fj := f + Q2.symQuad U                                                  -- 41
      .ok (Q2, some (fun q => Q2.symQuad (F q), (f, fj)))                         -- 43-44
  | .ok (_, Q1, true) =>
    match Q1.factor (W := Unit) (readAt m (linEntry F x)) () with                 -- 27-29, 46
    | .error e => .error e
    | .ok (_, Q2, false) =>
      match Q2.witness with                                                       -- 47
      | .error e => .error e
      | .ok (Q3, f) =>
        let fj := f + Q3.symQuad U                                                -- 49
        .ok (Q3, some (fun q => -Q3.symQuad (F q), (f, fj)))                      -- 50-51
    | .ok (_, Q2, true) => .ok (Q2, none)

/-- Entry of `-B + sum(F[k] * x[k])`, `lmi3_oracle.tpy:18, 26-30`. -/
def aff3Entry (F : Fin k → ℕ → ℕ → α) (B : ℕ → ℕ → α) (x : Fin k → α) (i j : ℕ) : α :=
  -B i j + ∑ q, F q i j * x q

/-- `lmi3_oracle.__call__`, `lmi3_oracle.tpy:22-40`: constraint `B ⪯ Σ x_k F_k`. -/
def lmi3Call (F : Fin k → ℕ → ℕ → α) (B : ℕ → ℕ → α) (m : ℕ) (x : Fin k → α) (Q : CholExt α) :
    Except PyErr (CholExt α × Option ((Fin k → α) × α)) :=
  match Q.factor (W := Unit) (readAt m (aff3Entry F B x)) () with                 -- 26-32
  | .error e => .error e
  | .ok (_, Q1, true) => .ok (Q1, none)                                           -- 33
  | .ok (_, Q1, false) =>
    match Q1.witness with                                                         -- 34
    | .error e => .error e
    | .ok (Q2, f) => .ok (Q2, some (fun q => -Q2.symQuad (F q), f))               -- 38-40
end

/-! ### `cholutil.pyx` -/

/-- Attributes of a `cholutil`, `cholutil.pyx:18-20`; `N = len(self.R)`. -/
structure CholUtil where
  N : ℕ
  R : ℕ → ℕ → ℝ
  p : ℕ

section
variable {W : Type _}

/-- `cholutil.__init__`, `cholutil.pyx:18-20`. -/
def CholUtil.init (N : ℕ) : CholUtil := ⟨N, fun _ _ => 0, 0⟩

/-- Inner loop `for j in range(i+1)`, `cholutil.pyx:35-40`; `r` rounds left, loop variable `j`, `d` as left
by the last round. -/
noncomputable def cuInner (getA : ℕ → ℕ → W → Except PyErr (W × ℝ)) (i : ℕ) :
    (r j : ℕ) → (ℕ → ℕ → ℝ) → ℝ → W → Except PyErr (W × (ℕ → ℕ → ℝ) × ℝ)
  | 0, _, R, d, w => .ok (w, R, d)
  | r + 1, j, R, _, w =>
    match getA i j w with                                               -- 36
    | .error e => .error e
    | .ok (w1, a) =>
      let d := a - ∑ l ∈ range j, R l i * R l j                         -- 35-36
      if i ≠ j then                                                     -- 39
        match pyDiv 1 (R j j) with                                      -- 40
        | .error e => .error e
        | .ok q => cuInner getA i r (j + 1) (set2 R j i (q * d)) d w1   -- 40
      else cuInner getA i r (j + 1) R d w1

/-- Outer loop `for i in range(N)`, `cholutil.pyx:34-45`; `r` rounds left.  Here `sqrt` is the one of C
(`math.h`); its arguments are never negative. -/
noncomputable def cuRows (getA : ℕ → ℕ → W → Except PyErr (W × ℝ)) :
    (r i : ℕ) → (ℕ → ℕ → ℝ) → W → Except PyErr (W × (ℕ → ℕ → ℝ) × ℕ)
  | 0, _, R, w => .ok (w, R, 0)                                         -- 30
  | r + 1, i, R, w =>
    match cuInner getA i (i + 1) 0 R 0 w with                           -- 35-40
    | .error e => .error e
    | .ok (w1, R1, d) =>
      if d ≤ 0 then .ok (w1, set2 R1 i i (√(-d)), i + 1)                -- 41-44
      else cuRows getA r (i + 1) (set2 R1 i i (√d)) w1                  -- 45

/-- `cholutil.factor`, `cholutil.pyx:24-48`.  The method has no `return`: its value is `None`. -/
noncomputable def CholUtil.factor (c : CholUtil) (getA : ℕ → ℕ → W → Except PyErr (W × ℝ)) (w : W) :
    Except PyErr (W × CholUtil) :=
  match cuRows getA c.N 0 c.R w with
  | .error e => .error e
  | .ok (w', R', p') => .ok (w', { c with R := R', p := p' })

/-- `cholutil.factorize`, `cholutil.pyx:52-81`: the same loops reading an array of shape `(size, size)`
(bounds checks are switched off in the source; in the model an index outside is an error). -/
noncomputable def CholUtil.factorize (c : CholUtil) (size : ℕ) (A : ℕ → ℕ → ℝ) : Except PyErr CholUtil :=
  match c.factor (W := Unit) (readAt size A) () with
  | .error e => .error e
  | .ok (_, c') => .ok c'

/-- `cholutil.is_spd`, `cholutil.pyx:83-84`. -/
def CholUtil.isSpd (c : CholUtil) : Bool := c.p == 0

/-- Loop `for i in range(p-2, -1, -1)`, `cholutil.pyx:105-110`, with `i` = rounds left less one. -/
noncomputable def cuBack (R : ℕ → ℕ → ℝ) (p : ℕ) : ℕ → (ℕ → ℝ) → Except PyErr (ℕ → ℝ)
  | 0, v => .ok v
  | i + 1, v =>
    let s := ∑ l ∈ Ico (i + 1) p, R i l * v l                           -- 106-108
    match pyDiv (-s) (R i i) with                                       -- 110
    | .error e => .error e
    | .ok q => cuBack R p i (Function.update v i q)

/-- `cholutil.witness`, `cholutil.pyx:88-111`: `(v, f)`. -/
noncomputable def CholUtil.witness (c : CholUtil) : Except PyErr ((ℕ → ℝ) × ℝ) :=
  if c.isSpd then .error .assertion                                     -- 89-90
  else
    let r := c.R (c.p - 1) (c.p - 1)                                    -- 102
    let v := Function.update (fun _ => 0) (c.p - 1) (if r = 0 then 1 else 1 / r)   -- 95, 103
    let f := if r = 0 then 0 else 1                                     -- 104
    match cuBack c.R c.p (c.p - 1) v with                               -- 105-110
    | .error e => .error e
    | .ok v => .ok (v, f)                                               -- 111

/-- `cholutil.sym_quad`, `cholutil.pyx:115-128`. -/
noncomputable def CholUtil.symQuad (c : CholUtil) (v : ℕ → ℝ) (F : ℕ → ℕ → ℝ) : ℝ :=
  ∑ i ∈ range c.p, v i * ∑ j ∈ range c.p, F i j * v j
end

/-! ### `qmi_c_oracle.tpy` -/

variable {k : ℕ}

/-- Attributes `t`, `count`, `Fx` of a `qmi_c_oracle`, `qmi_c_oracle.tpy:14-26`; `count` is an `int` starting at `-1`. -/
structure QmiCSt where
  t : ℝ
  count : ℤ
  Fx : ℕ → ℕ → ℝ

/-- `getA` of `qmi_c_oracle.__call__`, `qmi_c_oracle.tpy:34-45`; rows have length `nc`. -/
noncomputable def qmiCGetA (F : Fin k → ℕ → ℕ → ℝ) (F0 : ℕ → ℕ → ℝ) (nc : ℕ) (x : Fin k → ℝ) (i j : ℕ) (s : QmiCSt) :
    Except PyErr (QmiCSt × ℝ) :=
  if i < j then .error .assertion                                       -- 37-38
  else
    let s1 : QmiCSt := if s.count < i then                              -- 37
        { s with
          count := i                                                    -- 38
          Fx := Function.update s.Fx i fun l => F0 i l - ∑ q, F q i l * x q }   -- 39-41
      else s
    let a := -(∑ l ∈ range nc, s1.Fx i l * s1.Fx j l)                   -- 42
    .ok (s1, if i = j then a + s1.t else a)                             -- 43-45

/-- `qmi_c_oracle.__call__`, `qmi_c_oracle.tpy:28-54`, `F0` of shape `(m, nc)`.  `factor` returns `None`, so
the branch of line 48 is never taken. -/
noncomputable def qmiCCall (F : Fin k → ℕ → ℕ → ℝ) (F0 : ℕ → ℕ → ℝ) (nc : ℕ) (x : Fin k → ℝ) (s : QmiCSt) (Q : CholUtil) :
    Except PyErr (QmiCSt × CholUtil × ((Fin k → ℝ) × ℝ)) :=
  let s0 : QmiCSt := { s with count := -1 }                             -- 29
  match Q.factor (qmiCGetA F F0 nc x) s0 with                           -- 47
  | .error e => .error e
  | .ok (s1, Q1) =>
    match Q1.witness with                                               -- 49
    | .error e => .error e
    | .ok (v, f) =>
      let p := Q1.p                                                     -- 50
      let Av : ℕ → ℝ := fun l => ∑ i ∈ range p, v i * s1.Fx i l         -- 51
      .ok (s1, Q1, (fun q => -2 * ∑ l ∈ range nc, (∑ i ∈ range p, v i * F q i l) * Av l, f))   -- 52-54

end Verif
