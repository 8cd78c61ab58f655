import Mathlib.LinearAlgebra.Matrix.PosDef
import Verif.Model.Corr
import Verif.Model.EllHeap
import Verif.Model.Mle

/-!
# The fitting procedures of `tests/test_corr_fn.py`

The same functions are in `tests/test_corr_bspline_fn.tpy` and `experiments/corr_fn.py`.  Arrays whose aliasing
matters (the centre of the ellipsoid, which is also what `cutting_plane_dc` and `bsearch_adaptor.x_best` hand out) live
in a heap; the start vector `x` is cell 0.  Indexing or slicing `None` (`TypeError`) is `.oracle`.  `opt` are the options of the
drivers; the code uses the default `Options()`.

The flag `copied` distinguishes the code (`false`: `x_best = S.xc` keeps a reference to the centre array, which later updates
overwrite, `cutting_plane.py:103`) from the code with that line changed to `x_best = S.xc.copy()` (`true`).
-/
namespace Verif
open Matrix

/-- An `n × n` array, as the oracles index it. -/
def npArr {n : ℕ} (A : Fin n → Fin n → ℝ) (i j : ℕ) : ℝ := if h : i < n ∧ j < n then A ⟨i, h.1⟩ ⟨j, h.2⟩ else 0

/-- `np.linalg.norm(Y, "fro")`. -/
noncomputable def normFro {n : ℕ} (Y : Fin n → Fin n → ℝ) : ℝ := √(∑ i, ∑ j, Y i j ^ 2)

/-- An oracle object as used by `cutting_plane_dc`: its state and its `__call__`. -/
structure DcObj (k : ℕ) (W : Type _) where
  state : W
  call : (Fin k → ℝ) → WithTop ℝ → W → Except PyErr (W × ((Fin k → ℝ) × Beta) × Option (WithTop ℝ))

/-- `mle_oracle(Sig, Y)`, `mle_corr_oracle.py:17-29`, called with vectors of length `m`. -/
noncomputable def mleDcObj {n : ℕ} (m : ℕ) (Sig : List (Fin n → Fin n → ℝ)) (Y : Fin n → Fin n → ℝ) : DcObj m MleOracle where
  state := ⟨CholExt.init n, CholExt.init n⟩
  call x t o := (mleCall (fun q => npArr (Sig.getD q 0)) (npArr Y) n x t o).map fun r =>
    (r.1, (r.2.1.1, .scalar r.2.1.2), r.2.2)

/-- `lsq_oracle(Sig, Y)`, `lsq_corr_oracle.py:34-42`, called with vectors of length `m + 1`. -/
noncomputable def lsqDcObj {n : ℕ} (m : ℕ) (Sig : List (Fin n → Fin n → ℝ)) (Y : Fin n → Fin n → ℝ) :
    DcObj (m + 1) (LsqOracle ℝ) where
  state := ⟨⟨⟨0, 0, fun _ _ => 0⟩, CholExt.init n⟩, CholExt.init n⟩
  call x t o := (lsqCall (fun q : Fin m => npArr (Sig.getD q 0)) (npArr Y) n x t o).map fun r =>
    (r.1, (r.2.1.1, .scalar r.2.1.2), r.2.2)

/-- `xb, _, ell_info = cutting_plane_dc(P, E, float("inf"))` followed by the conversion of `xb` to a list of
coefficients by the caller; `val`, `x` are the arguments of `ell`. -/
noncomputable def corrRun {k : ℕ} {W : Type _} (opt : Options ℝ) (val : EllVal k) (x : Fin k → ℝ) (P : DcObj k W) :
    Except PyErr ((Fin k → ℝ) × ℕ × Bool) :=
  match HEll.init (n := k) val 0 with
  | .error e => .error e
  | .ok E =>
    match cuttingPlaneDc (fun x t => HEll.readOracle (fun x => P.call x t) x) (HEll.space W k) ⊤ opt
        (P.state, (fun _ => x), E) with
    | .error e => .error e
    | .ok (_, none, _, _) => .error .oracle
    | .ok ((_, h, _), some r, _, info) => .ok (h r, info.numIters, info.feasible)

/-- The same with the best point copied when it is recorded. -/
noncomputable def corrRunCopied {k : ℕ} {W : Type _} (opt : Options ℝ) (val : EllVal k) (x : Fin k → ℝ) (P : DcObj k W) :
    Except PyErr ((Fin k → ℝ) × ℕ × Bool) :=
  match Ell.init val x with
  | .error e => .error e
  | .ok E =>
    match cuttingPlaneDc (fun x t => liftOracle (P.call x t)) (Ell.space W k) ⊤ opt (P.state, E) with
    | .error e => .error e
    | .ok (_, none, _, _) => .error .oracle
    | .ok (_, some a, _, info) => .ok (a, info.numIters, info.feasible)

/-- One of the two. -/
noncomputable def corrSolve {k : ℕ} {W : Type _} (copied : Bool) (opt : Options ℝ) (val : EllVal k) (x : Fin k → ℝ)
    (P : DcObj k W) : Except PyErr ((Fin k → ℝ) × ℕ × Bool) :=
  if copied then corrRunCopied opt val x P else corrRun opt val x P

/-- `mle_corr_core`, `test_corr_fn.py:78-98`. -/
noncomputable def mleCorrCore {m : ℕ} {W : Type _} (copied : Bool) (opt : Options ℝ) (P : DcObj m W) :
    Except PyErr (List ℝ × ℕ × Bool) :=
  if m = 0 then .error .indexError else                                   -- 90
  match corrSolve copied opt (.scalar 50) (fun i => if (i : ℕ) = 0 then 1 else 0) P with   -- 89-96
  | .error e => .error e
  | .ok (a, it, fe) => .ok (List.ofFn a, it, fe)                          -- 98

/-- `lsq_corr_core2`, `test_corr_fn.py:17-37`. -/
noncomputable def lsqCorrCore2 {n m : ℕ} {W : Type _} (copied : Bool) (opt : Options ℝ) (Y : Fin n → Fin n → ℝ)
    (P : DcObj (m + 1) W) :
    Except PyErr (List ℝ × ℕ × Bool) :=
  let normY := normFro Y                                                  -- 28
  let normY2 := 32 * normY * normY                                        -- 29
  let val : Fin (m + 1) → ℝ := Fin.snoc (fun _ => 256) (normY2 * normY2)  -- 30-31
  let x : Fin (m + 1) → ℝ := Fin.snoc (fun i => if (i : ℕ) = 0 then 1 else 0) (normY2 / 2)   -- 32-34
  match corrSolve copied opt (.diag val) x P with                                  -- 35-36
  | .error e => .error e
  | .ok (xb, it, fe) => .ok (List.ofFn (fun i : Fin m => xb i.castSucc), it, fe)   -- 37

/-- `lsq_corr_core`, `test_corr_fn.py:54-61`, with `qmi_oracle(Sig, Y)` as `Q`; `opt` for the inner
`cutting_plane_feas`, `optb` for `bsearch`. -/
noncomputable def lsqCorrCore {n m : ℕ} (opt optb : Options ℝ) (Y : Fin n → Fin n → ℝ)
    (Q : QmiOracle ℝ × ((Fin m → ℝ) → QmiOracle ℝ → Except PyErr (QmiOracle ℝ × Option ((Fin m → ℝ) × Beta)))) :
    Except PyErr (List ℝ × ℕ × Bool) :=
  if m = 0 then .error .indexError else                                   -- 56
  match HEll.init (n := m) (.scalar 256) 0 with                           -- 57
  | .error e => .error e
  | .ok E =>
    let normY := normFro Y                                                -- 59
    match bsearch (probeEll (fun t w => .ok (w.setT t)) Q.2 opt) id 0 (normY * normY) optb   -- 58, 60
        (Q.1, (fun _ => fun i => if (i : ℕ) = 0 then 1 else 0), E) with
    | .error e => .error e
    | .ok ((_, h, E), _, info) => .ok (List.ofFn (h E.xc), info.numIters, info.feasible)   -- 61

/-- `mle_corr_poly`, `test_corr_fn.py:101-113`.  `np.linalg.cholesky` reads the lower triangle and raises `LinAlgError` (here
`valueError`) unless it is that of a positive definite matrix. -/
noncomputable def mleCorrPoly {n d : ℕ} (copied : Bool) (opt : Options ℝ) (Y : Fin n → Fin n → ℝ) (s : Fin n → Fin d → ℝ) (m : ℕ) :
    Except PyErr (List ℝ × ℕ × Bool) :=
  open Classical in
  if ¬ (Matrix.of fun i j => if j ≤ i then Y i j else Y j i : Matrix (Fin n) (Fin n) ℝ).PosDef then .error .valueError else   -- 112
  corrPoly Y s m (mleDcObj m) fun _ _ P => mleCorrCore copied opt P               -- 113

/-- `lsq_corr_poly2`, `test_corr_fn.py:40-51`. -/
noncomputable def lsqCorrPoly2 {n d : ℕ} (copied : Bool) (opt : Options ℝ) (Y : Fin n → Fin n → ℝ) (s : Fin n → Fin d → ℝ) (m : ℕ) :
    Except PyErr (List ℝ × ℕ × Bool) :=
  corrPoly Y s m (lsqDcObj m) fun Y _ P => lsqCorrCore2 copied opt Y P   -- 51

/-- `lsq_corr_poly`, `test_corr_fn.py:64-75`. -/
noncomputable def lsqCorrPoly {n d : ℕ} (opt optb : Options ℝ) (Y : Fin n → Fin n → ℝ) (s : Fin n → Fin d → ℝ) (m : ℕ) :
    Except PyErr (List ℝ × ℕ × Bool) :=
  corrPoly Y s m (fun Sig Y => ((⟨⟨0, 0, fun _ _ => 0⟩, CholExt.init n⟩ : QmiOracle ℝ),
      fun x w => (qmiCall (fun q : Fin m => npArr (Sig.getD q 0)) (npArr Y) n n x w).map fun r =>
        (r.1, r.2.map fun c => (c.1, Beta.scalar c.2))))
    fun Y _ Q => lsqCorrCore opt optb Y Q                                 -- 75

end Verif
