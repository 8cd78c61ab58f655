# Formal model of ellpy in Lean 4: design

Source: `/repo` (luk036/ellpy at the pinned commit). The code is read as text only.
Model and proofs: `/verif/lean` (Lean 4.33.0, Mathlib, `lake build`).

## 1. Trusted base

* Lean's kernel.
* The three standard axioms `propext`, `Classical.choice`, `Quot.sound`. No theorem uses any other
  axiom. There is no `sorry`, `admit`, `axiom`, `native_decide`, `bv_decide`, `implemented_by`,
  `unsafe` in the project.
* The reading of Python: that each Lean definition says what the cited lines of `/repo` say. Every
  model definition cites its file and lines. Simplifications are listed below and at the definition.
* The specifications (`Verif/Spec/*.lean` and the statements in `Verif/Props/*.lean`).

## 2. What is modelled, and how

| code | Lean | remarks |
|---|---|---|
| Python `for .. in range(k)` with `break`, unbound loop variable | `Verif/Model/Py.lean` | `forRange`; `k : Int`, so `k <= 0` is the empty range |
| `cutting_plane.py` feas/dc/q/bsearch/bsearch_adaptor | `Verif/Model/CuttingPlane.lean` | generic over the world `W` threaded through oracle and space |
| `ell.py` class ell | `Verif/Model/Ell.lean` | over ℝ; `math.sqrt` raises on negatives, division is checked |
| `ell.py` class ell with references | `Verif/Model/EllHeap.lean` | the centre array lives in a heap; `S.xc` hands out the reference |
| `ell.py` class ell1d | `Verif/Model/Ell1d.lean` | over any linearly ordered field |
| `problem.py` | `Verif/Model/Problem.lean` | |
| `oracles/chol_ext.py` | `Verif/Model/Chol.lean` | buffers `_T`, `v` are mutable state; `getA` may be stateful |
| `oracles/lmi_oracle.py, lmi0_oracle.py, gmi_oracle.py, qmi_oracle.py, lsq_corr_oracle.py` | `Verif/Model/MatOracle.lean` | |
| `oracles/mle_corr_oracle.py` | `Verif/Model/Mle.lean` | over ℝ with `Real.log`; `np.linalg.inv` is the matrix inverse |
| `oracles/corr_oracle.py, corr_bspline_oracle.py` | `Verif/Model/Corr.lean` | solver and oracle are parameters; scipy spline evaluation is a parameter |
| `oracles/network_oracle.py, cycle_ratio_oracle.py, optscaling_oracle.py` | `Verif/Model/Network.lean` | cycle finder is a parameter with a contract |
| `oracles/neg_cycle.tpy` | `Verif/Model/NegCycle.lean` | meets the contract, see C41_repoFinder, C67 |
| `oracles/profit_oracle.py` | `Verif/Model/Profit.lean` | over ℝ with `Real.exp`, `Real.log` |
| `oracles/lowpass_oracle.py` | `Verif/Model/Lowpass.lean` | matrices of band rows are data |
| `tests/test_lowpass.py` create_lowpass_case | `Verif/Model/LowpassCase.lean` | comparisons `w <= wpass` exact |
| `tests/test_firfilter.py` my_oracle, data | `Verif/Model/Fir.lean` | `-inf` as `none`; desired response arbitrary |
| `oracles/csdlowpass_oracle.py` | `Verif/Model/CsdLowpass.lean` | `spectral_fact` is a parameter |
| `oracles/spectral_fact.py` | `Verif/Model/Spectral.lean`, `SpectralFact.lean` | `np.fft` by its defining sums over ℂ; `log 0` not modelled |
| `oracles/lmi2_oracle.tpy`, `lmi3_oracle.tpy`, `cholutil.pyx`, `qmi_c_oracle.tpy` | `Verif/Model/MatOracle2.lean` | numbers are reals; missing imports of `Optional`, `List` in these files ignored |
| `oracles/low_discr_seq.tpy`, `vdcorput.tpy`, `halton_n.tpy` | `Verif/Model/LowDiscr.lean` | exact rationals; of the last two only `vdc` (generators: `HaltonGen.lean`) |
| `oracles/corr_oracle.py` create_2d_sites, create_2d_isotropic | `Verif/Model/Sites.lean` | `pylds.halton` taken to be the in-repository `halton`; `np.linalg.cholesky` is a parameter with a contract; the normal draws are an arbitrary list |
| `pycsd/csd/csd.py`, `pycsd/dev/csd_numbers.py` | `Verif/Model/Csd.lean`, `CsdNumbers.lean` | over any linearly ordered field with floor; `ceil(log2 x)` in its exact meaning |
| `src/csdigit.m` | `Verif/Model/Csdigit.lean` | Octave; `range`, `resolution` ≥ 0; warnings are Booleans of the result |
| `tests/test_quasicvx.py`, `test_quasicvx2.py`, `test_example1.py`, `test_example2.py` oracles | `Verif/Model/Quasi.lean` | pure functions of point and level |
| `tests/test_lmi.py` my_oracle and data | `Verif/Model/Sdp.lean` | arbitrary data and the data of the test; levels in `WithTop ℝ` |
| `tests/test_cycle_ratio.py` graphs, costs, times (28-59, 64-66, 83-89) | `Verif/Model/CycleCase.lean` | node names become `Fin n` |
| `tests/test_lowpass.py` create_csdlowpass_case | `Verif/Model/CsdLowpassCase.lean` | |
| `tests/test_firfilter.py` Hdes | `Verif/Model/FirTest.lean` | exact `exp` |
| `tests/test_corr_fn.py` `lsq_corr_core2`, `lsq_corr_poly2`, `lsq_corr_core`, `lsq_corr_poly`, `mle_corr_core`, `mle_corr_poly` | Verif/Model/CorrTest.lean | flag `copied` switches between the code (a reference to the centre is kept) and a copy; `np.linalg.cholesky` raises unless the lower triangle is that of a positive definite matrix |
| `pycsd/csd/csd.py` to_csd, to_decimal, to_csdfixed in floating point | `Verif/Model/CsdFloat.lean` | rounding `fl` after each operation, unbounded exponent range; the computed `ceil(log(y,2))` is a parameter |
| `oracles/corr_bspline_oracle.py` generate_bspline_info, corr_bspline with scipy's BSpline | `Verif/Model/Bspline.lean` | documented behaviour of scipy.interpolate.BSpline written out, exact arithmetic |
| `tests/test_corr_bspline_fn.tpy` lsq_corr_bspline2, mle_corr_bspline | `Verif/Model/CorrBsplineTest.lean` | with and without copying the best point; exact arithmetic |
| `cutting_plane.py` bsearch with float and with int ends | `Verif/Model/BsearchFloat.lean` | every operation rounded; no overflow or underflow |
| `oracles/chol_ext.py` factor, witness in floating point | `Verif/Model/CholFloat.lean` | rounding after each division, product, sum and difference; dot product left open; same control flow as `Model/Chol.lean` |
| `lmi_oracle.py`, `lmi0_oracle.py`, `lmi_old_oracle.py`, `chol_ext.sym_quad` rounded | `Verif/Model/MatOracleFloat.lean` | a rounding after every operation; dot products abstract; no overflow or underflow |
| `qmi_oracle.py`, `gmi_oracle.py`, `lsq_corr_oracle.py` `lsq_oracle` rounded | `Verif/Model/QmiFloat.lean` | as above |
| `ell.py` `update` and the `_calc` functions rounded | `Verif/Model/EllFloat.lean` | a rounding after every operation and square root; dot products abstract; the integers n, n+1, n*n, n/2 exact; no overflow or underflow |
| `ell.py` class `ell`, arrays as references, several objects | `Verif/Model/EllMem.lean` | numpy allocation is a counter; garbage collection not modelled |
| `oracles/neg_cycle.tpy` with rounded additions | `Verif/Model/NegCycleFloat.lean` | addition is a parameter; `_find_cycle` and `_cycle_list` shared with `Verif/Model/NegCycle.lean` |
| `oracles/low_discr_seq.tpy` with rounding | `Verif/Model/LowDiscrFloat.lean` | `vdc` with a rounding after every float operation; arguments of the square roots of the spheres |
| `cutting_plane.py` with rounded oracles and spaces | `Verif/Model/FloatRuns.lean` | puts the rounded oracles and the rounded `ell` in the form the drivers call; the drivers themselves do no float arithmetic |
| `oracles/lowpass_oracle.py` with rounding | `Verif/Model/LowpassFloat.lean` | `@` is a parameter with an error bound, differences are rounded |
| `oracles/vdcorput.tpy` vdcorput, prime_table; `oracles/halton_n.tpy` | `Verif/Model/HaltonGen.lean` | generators as suspended states; exact rationals |
| `oracles/imi_oracle.tpy` | `Verif/Model/Imi.lean` | three variants: as written, with the old `witness`, without line 61 |
| `ell.py` ell1d with rounding | `Verif/Model/Ell1dFloat.lean` | a rounding after every operation; `tau**2` is `tau * tau` rounded |
| `network_oracle.py`, `cycle_ratio_oracle.py` with rounding | `Verif/Model/NetworkFloat.lean` | a rounding after every operation; `sum` is a parameter (CPython adds from the left up to 3.11 and compensates from 3.12 on) |
| `oracles/profit_oracle.py` profit_oracle, profit_rb_oracle with rounding | `Verif/Model/ProfitFloat.lean` | a rounding after every operation; `log`, `exp` and `@` are parameters with an error bound |
| `oracles/optscaling_oracle.py` with rounding | `Verif/Model/ScalingFloat.lean` | a rounding after every operation; `sum` of the edge values is a parameter, `sum` of the gradients adds from the left |
| `ell.py` update on shared centre arrays, rounded; `bsearch_adaptor`; `qmi_oracle` as its problem | `Verif/Model/EllHeapFloat.lean` | the rounded update of `Verif/Model/EllFloat.lean` applied to the array the centre refers to |
| `tests/test_lmi.py` `my_oracle.__call__`, rounded | `Verif/Model/SdpFloat.lean` | as `Verif/Model/Sdp.lean`, on the rounded `lmi_oracle` / `lmi_old_oracle` |
| `tests/test_firfilter.py` `my_oracle.__call__`, rounded | `Verif/Model/FirFloat.lean` | as `Verif/Model/Fir.lean`; the stored arrays are data; `**2` is a rounded product |
| `tests/test_quasicvx.py`, `test_quasicvx2.py`, `test_example1.py` oracles, rounded | `Verif/Model/QuasiFloat.lean` | as `Verif/Model/Quasi.lean`; `math.exp` is any function with a small relative error |
| `experiments/FIR_oracle2.tpy` | `Verif/Model/FirOracle2.lean` | Matlab; exact reals; `max([])` is an error |
| `oracles/corr_oracle.py`, rounded | `Verif/Model/CorrFloat.lean` | distances, powers and `np.poly1d`; `fl` rounds one operation, `vdot` is `@` |
| `oracles/corr_bspline_oracle.py`, rounded | `Verif/Model/MonoFloat.lean` | `mono_oracle` and `mono_decreasing_oracle2`; `fl` rounds the difference; `BSpline` not modelled |
| `oracles/low_discr_seq.tpy` (spheres) and `create_2d_sites`, rounded | `Verif/Model/SphereFloat.lean` | `fl` rounds one operation, `fsin`, `fcos` are the math library, `twoPI` the float of line 4 |
| `create_2d_isotropic`, kernel matrix, rounded | `Verif/Model/KernFloat.lean` | `fl` rounds one operation, `vdot` is `@`, `fexp` is `np.exp`, `κ` the float 0.12 |
| `profit_q_oracle`, rounded | `Verif/Model/ProfitQFloat.lean` | `fl` rounds one operation, `ln`, `ex` are `np.log`, `np.exp`, `dot` is `@`; `np.round` exact |
| `csdigit.m`, rounded | `Verif/Model/CsdigitFloat.lean` | `fl` rounds one operation; powers of two, `floor`, `dec2bin` exact; default range left out |
| `skeleton.py` fib | `Verif/Model/Fib.lean` | |

Conventions:

* **Exact arithmetic.** Numbers are elements of an ordered field (ℝ where `sqrt/exp/log` is used,
  any linearly ordered field otherwise). IEEE rounding is *not* modelled there. Separate models with a rounding
  after every operation (an arbitrary rounding to nearest; overflow, underflow, nan and inf excluded) exist for
  `csd.py` (C110), `bsearch` (C113), `chol_ext` (C114), the matrix oracles (C115, C116), `ell.update` (C117), the
  negative-cycle finder (C119), the van der Corput generator (C120), whole runs with the matrix oracles (C121),
  `lowpass_oracle` (C122), `profit_oracle` and `profit_rb_oracle` (C136), `ell1d` (C128), the cycle ratio search (C129) and whole runs with `ell` (C130, C131, C133, C134), also with `lmi_oracle` (C132, C133), `lowpass_oracle` (C135), the profit oracles (C137), `optscaling_oracle` (C138), `lsq_oracle` (C139), for the probes and searches of `bsearch_adaptor` with `qmi_oracle` (C140), for the semidefinite programs of `test_lmi.py` (C141), for the Chebyshev filters of `test_firfilter.py` (C142), and for the quasi-convex and linear programs of `test_quasicvx.py`, `test_quasicvx2.py` and `test_example1.py` (C143), for the feasibility runs of `test_example2.py` (C144), for polynomial least-squares fits including the computation of their matrices (C146), for monotone spline fits (C147), for points on spheres and sites (C148), for the kernel matrix of `create_2d_isotropic` (C149), for the discrete profit oracle (C150), and for `csdigit.m` (C151).
* **Errors are values.** Model functions return `Except PyErr _`. Division by zero is an error (for a
  numpy scalar the code would go on with nan/inf plus a warning; the model stops there). `math.sqrt`
  of a negative number is `ValueError`. Unbound `niter` is `UnboundLocalError`. No theorem relies on
  Lean's `x / 0 = 0`: either the model's checked division is used or nonzeroness is shown.
* **Oracles and spaces are arbitrary.** The drivers are generic over a world type `W` and over
  state-passing functions for the oracle and for `S.update`, so stateful, adversarial and raising
  oracles are included. Call histories are observed by instantiating `W` with a logging world
  (`Verif/Spec/Log.lean`): the driver is unchanged and the wrapped oracle/space record each call.
* **Aliasing.** numpy in-place updates are modelled where they matter (`ell._xc`): the heap model.
  Shape matrices are never shared between objects (`np.eye`, `np.diag`, `.copy()` allocate), so they
  are values; that this is right is C118.

Not modelled: `parse_args/setup_logging/main` (I/O), plotting, test code other than the oracles listed
above, the external packages `netoptim` and `pylds` (absent from the repository; `network_oracle` takes the
cycle finder as a parameter with a contract, and the in-repository copy `neg_cycle.tpy` is modelled
separately), `generate_csv`, the pseudo-random generator itself, `sdp_oracle.tpy` (calls `lmi_oracle.chk_spd`, which does not
exist), `rank1_oracle.tpy` (calls a function interface of `chol_ext` that does not exist), `experiments/*` other than `FIR_oracle2.tpy` and what C107 says.

## 3. Findings (where the code does not have the property)

Each is proved as a negation with a concrete witness, next to the true statement.

* **C08** `cutting_plane_dc` with `ell`: `x_best` aliases the live centre array, so it holds the final
  centre, not the best point.
* **C14** `ell.copy()` shares the centre array: an infeasible `bsearch_adaptor` probe moves the
  centre of the original space.
* **C96** Consequence of C14 for `lsq_corr_core`: `P.x_best` read after `bsearch` is the final centre of the last
  probe; if that probe was rejected it need not satisfy the constraints at the returned (or even the initial) level.
* **C20** exact division by zero for `beta = -tau/n` (only to compute the unused `_mu`) and for
  `b0 = -b1`; `n = 1` cannot be constructed (C24).
* **C26** `ell1d` with the zero cut (0,0) drops half of the interval.
* **C31/C34** `allow_semidefinite=True` accepts indefinite matrices; `sqrt` is then wrong.
* **C38** `qmi_oracle.neg_grad` uses rows instead of columns: invalid cut for non-symmetric `F_k`.
* **C47/C51** re-basing of the cut to the continuous centre has the wrong sign.
* **C58** `to_csd` is not canonical for 2/3 < |v| < 1.
* **C61** `to_csdfixed(v, 0)` with |v| >= 1 ignores the limit.
* **C15** `Problem.solve` returns the stale value of an earlier run when infeasible.
* **C02** `max_it <= 0` raises `UnboundLocalError`.
* **C76** the `smallenough` test compares with the scale of the cut: a correct oracle with small gradients gets
  "not feasible" on a half-ball of feasible points.
* **C85** `qmi_c_oracle` can never accept a point: `cholutil.factor` has no `return`, and `witness` then raises.
* **C79** `vdc` never returns for a negative index (reachable through `reseed` with a seed below -1) or for base 1.
* **C87** `create_2d_sites` raises `ValueError` (broadcast of shape (0,) with (2,)) when `nx*ny <= 0`.
* **C91** a design meeting the sampled specification may have a negative spectrum between samples (by at most about half a
  percent, C91_all_frequencies), and then is not the autocorrelation of any filter.
* **C103** `test_optscaling.py` builds `ell(1.5 * t, x0)` with `t = cmax - cmin`; the first argument is a squared radius, so for
  `t > 3` the initial disc need not contain an optimum (the run then returns a value bounded away from the optimum).
* **C105** whole runs of `cutting_plane_q` with `profit_q_oracle` fail because of the wrong shift of C47: a run stops with `nosoln` in
  its first iteration although the initial disc contains feasible integer quantities of positive profit.
* **C106** `lowpass_oracle` returns the cut `(0, 0)` at a point whose stopband level is exactly 0 (a perfect filter); `ell.update` then divides
  zero by zero (an error in the model, nan with numpy scalars), so a run that finds the best possible filter cannot go on.
* **C107** `experiments/test_csdlowpass.tpy:97` calls `csdlowpass_oracle(nnz, Ap, As, Anr, Lpsq, Upsq)`; the class takes `(nnz, lowpass)`, so the
  script stops with a `TypeError`.
* **C108** the design problem of `test_firfilter.py` has optimum exactly 1/2 and a filter with one nonzero tap (`h[8] = 1/sqrt 2`) is optimal: a real
  filter cannot have a delay of 8.25 samples at the frequency pi. A run that reaches such a filter exactly divides zero by zero, because the
  gradient there is zero (nan with numpy scalars).
* **C109** `mle_corr_poly` with one site, `Y = [1 + 10⁻⁶]`, two coefficients and the default options returns the flag True with a polynomial whose matrix `[1 + √50/3]` is above `2Y`: the point returned is the centre moved after the feasible point was recorded (C08). `lsq_corr_poly` never asks for positive definiteness, and returns whatever the last probe left in the centre, also when that probe failed.
* **C110** `to_csd` in double precision is not always canonical: for `6004799503160662` the product
  `1.5 * v = 2^53 + 1` rounds to `2^53`, the size is one too small and the string starts `++`.
* **C111** `corr_bspline` promises a monotone decreasing correlation, but checks only the coefficients: distance 0 lies left of the base
  interval and is extrapolated, so for the accepted coefficients `0, 0, -1` the function rises from -2 to 0. With `mle_oracle` the last
  coefficient is not checked at all (`x[:-1]` drops a coefficient instead of the variance), so `0, 0, 1` is accepted too.
* **C113** `bsearch` with integer ends uses the float division `(upper - lower) / 2`: on `[2**53, 2**53 + 2]` it evaluates the predicate at
  `2**53` until `max_it` and may return `2**53 + 2` although `2**53 + 1` is accepted. With float ends above about `2e8` the default tolerance is
  below the float spacing, so every search makes all 2000 evaluations.
* **C114** `chol_ext.factor` on doubles is not exact: `[[45, 13], [13, b]]` with `b = 4228379650142299/2^50` is indefinite and accepted,
  `[[3, 5], [5, b]]` with `b = 4691249611844267/2^49` is positive definite and rejected (both with every way of rounding ties).
* **C117** `ell.update` (ell.py:105-147) in doubles: on a badly conditioned matrix the rank-one downdate loses positive definiteness in one step (`C117_loses_pd`, from [[1, 1-4η],[1-4η, 1-7η]], η = 2^-53). The following central cut finds `g'Qg < 0`; the exception of `math.sqrt` is caught (ell.py:232-237), the update reports success with `tsq = 0`, and the drivers take that as "small enough".
* **C117** `_calc_ll_cc` (ell.py:205-219) in doubles: `1 - xi` cancels for thin parallel cuts. A slab of width about 10⁻⁷ through the centre of the *unit disc* gives `sigma > 1` and an indefinite matrix (`C117_thin_indefinite`); for every width up to 2^-28 the computed `xi` is 1 and the "smaller" ellipse has an area larger than the disc (`C117_thin_grows`).
* **C119** answers the comment "Will zero cycle be found???" (`neg_cycle.tpy:46`): in exact arithmetic no (C67), in double precision even a cycle of weight +0.25 can be returned, the `assert` of line 47 can fail although the cycle found is negative, and a cycle of weight -0.5 can be missed (`C119_positive_cycle`, `C119_assertion_fails`, `C119_missed`). Since `assert` is used, these are crashes of the caller rather than wrong verdicts, and disappear under `python -O`.
* **C120** exact values of `vdc` lie in [0,1); in doubles `vdc(2**54 - 1)` is exactly 1.0. No practical consequence below index 2^53.
* **C124** generator `halton_n(k, n, b)` yields the indices 0..k-1, not 0..k as documented, and starts with the origin, while the class of the same name starts with index 1.
* **C126** `imi_oracle` raises `TypeError` on every rejection (stale interface), and line 61 adds the constant part of the quadratic form to the gradient: the cut excludes all feasible points.
* **C127** A parallel cut whose first bound lies beyond the ellipsoid (`b0 < -tau`; the half-space is then redundant) still enters the formulas of `_calc_ll_core`: the update is valid but not the smallest ellipsoid, so the cut removes less volume than the code could.  Only `b1` is compared with `tau` (line 179).  Example: the disc with `kappa = 5/2` and `beta = (-2, 0)`.
* **C128** `ell1d.update` compares `beta` with a rounded `tau`; in double precision a deep cut can be accepted whose bound lies beyond the far end, and the new radius is negative (`r = 4003199668773781`, cut `(9, 36028797018964032)` gives `r = -0.25`, status success).  `ell1d.copy` rebuilds the interval from its rounded ends, so the copy is not always the same interval (`r = 1, xc = 2^55` becomes `r = 0`).
* **C129** `cutting_plane_dc` with `cycle_ratio_oracle` can raise `AssertionError` in double precision: the finder meets a cycle whose rounded weights are all tight (circle of three edges with costs `-2^53, 2^53 - 1, 0.75`, times 1, interval `[-100, 100]`).
* **C50** the position of the round robin in `lowpass_oracle` survives an assignment of a matrix with fewer rows: the next call can raise `IndexError`.
* **C136** `profit_oracle` replaces the best-so-far value by a recomputed one, which with rounding can be smaller than the one it replaces.
* **C100** `my_oracle` of `test_example1.py` returns the level as second component even when the point is infeasible or worse, so
  `cutting_plane_dc` records every centre: `x_best` is the last point queried (a run ending with an infeasible `x_best` is proved).
* **C31** after a `factor` call interrupted by an exception `is_spd()` is `True`, and `sqrt()` may then raise `ValueError` on a stale
  negative pivot; without exceptions it never does.
* **C98** the oracle of `test_quasicvx.py` is wrong for negative start levels: its cut `(-1, t e^y)` is then not a subgradient
  inequality of a convex function and removes points with a better value (counterexample proved).
* **C99** a cut that is exactly tangent to the ellipsoid is accepted as `success` and collapses it to a point (`delta = 0`);
  the next central cut along the same direction divides by zero (nan with numpy scalars).
* **C97** `csdigit.m` lets `num = 2^(range+resolution)` and everything above two thirds of it through the size check with
  only a warning: the string is then one place longer than asked for.
* **C13** `bsearch` reports one less than the number of evaluations on exhaustion.

## 4. Per property: model and proof method

| id | modelled by | proof |
|---|---|---|
| C01-C03 | `feas` on the logging world | induction over rounds of `forRange`; log shape invariant |
| C04 | `feas` + abstract sound space | induction; instantiated with ell and ell1d |
| C05-C07 | `dc` on the logging world / sound space | induction with best-so-far invariant |
| C08 | `dc` on the heap model | the reference never changes, so deref = final centre; concrete counterexample run |
| C09, C10 | `cuttingPlaneQ` on the logging world | induction |
| C11-C13 | `bsearch` | bracket invariant, halving |
| C14 | `bsearchAdaptor` on heap ell / ell1d | unfolding + C01/C04; concrete counterexample |
| C15 | `Problem.solve` | induction over histories |
| C16-C18 | `Ell.update` | 2-dimensional reduction (component along Qg and Q-orthogonal rest), Cauchy-Schwarz |
| C19 | `Ell.update` | case analysis |
| C20 | `Ell.update` | invariant: PosDef, kappa>0; sigma in [0,1), delta>0 |
| C21 | `Ell.update` | matrix determinant lemma, weighted AM-GM / Bernoulli |
| C22 | `Ell.update` | simulation relation kappa*Q equal |
| C23 | `Ell.update` | Cauchy-Schwarz and an explicit maximiser |
| C24 | `Ell.mk'`, heap copy | computation |
| C25 | `feas` + `Ell` | volume argument |
| C26-C28 | `Ell1d.update` | linear arithmetic over an ordered field; induction over histories |
| C29-C34 | `Chol.factor` etc. | loop invariants: LDL' identity row by row |
| C35-C38 | lmi/gmi/qmi oracles on `Chol` | witness identity + psd |
| C39 | lsq oracle | from C36, C38 |
| C40 | mle oracle | matrix convexity inequality |
| C41-C43, C67 | network oracles | telescoping over cycles; predecessor-graph invariant |
| C44-C47 | profit oracles | log-sum-exp gradient inequality |
| C48-C51 | lowpass oracles | scan loop invariants |
| C52 | `inverseSpectralFact` | double-sum rearrangement |
| C53 | `mono_oracle` | list induction |
| C54, C55 | corr | computation |
| C56-C64 | csd | residual invariant; NAF theory by induction |
| C65 | csd_numbers | recursion invariant over the global buffer |
| C66 | fib | loop invariant |
| C68 | `cuttingPlaneQ` + abstract sound space | induction |
| C69 | heap ell | simulation between heap and value runs |
| C70-C72 | drivers + `Ell` | frame invariant plus margin; volume argument |
| C73-C75 | drivers + `Ell` + lmi / profit / lsq oracle | from C70-C72 and the oracle theorems with margins |
| C77 | `spectralFact` | DFT inversion, parity of the discrete Hilbert transform |
| C78 | `spectralFact` | factorisation over ℂ, Taylor series of log, tail bound |
| C79 | `vdcLoop`, `vdc` | induction on digits; digit reversal is a bijection mod b^m |
| C80 | `Halton` | C79 per coordinate, Chinese remainder |
| C82, C83 | `lmi2Call`, `lmi3Call` | as C35 |
| C84 | `cuRows`, `CholUtil.witness` | loop invariant R'R = A, back substitution |
| C85 | `qmiCCall` | C84 and convexity of the quadratic form |
| C86 | `spectralFact` | Fejér-Riesz factorisation (roots outside the disc, reciprocal polynomial), C78 |
| C87 | `Create2dSites` | C79/C80, injectivity of digit reversal |
| C88 | `create2dIsotropic` | Schur products of Gram matrices, exponential series; linearity of the integral |
| C89 | `cuttingPlaneDc` + `Ell` + `Lowpass.call` | C48/C49 with margins, C71, C72 |
| C90 | `powerSpectrum`, `freq` | Bernstein's inequality (Riesz formula), convexity, compactness |
| C91 | `createLowpassCase` | C89, C90, C86; explicit cubic-cosine counterexample |
| C92 | `cuttingPlaneDc` + `Ell` for any `RoomOracle` (constraint sets given by a margin predicate) or `ConvexOracle` | C71, C72; Slater ball contracted towards the comparator |
| C93 | `FirData.call`, `solve` | loop invariant; C92 |
| C94 | `optscaling_oracle` + `cuttingPlaneDc` + `Ell` | margin form of C43, C71, C72 |
| C95 | `mleCall` + `cuttingPlaneDc` + `Ell` | margin form of C40, convexity on `0 ≺ Ω ⪯ 2Y`, C92 in its `RoomOracle` form |
| C96 | `bsearch` + `probeEll` (heap) + `qmiCall` | C14 refinement, C25 on the shared centre, invariant of the bracket; concrete counterexample for `x_best` |
| C97 | `csdigit` (`src/csdigit.m`) | loop invariant: bits minus marked digits = n, marked digits lie below the lowest pair; each round clears a one; length bound for canonical strings; least weight by C64 |
| C98 | `quasi1`, `quasi2` (test oracles) + `cuttingPlaneDc` + `ell` | sub-level sets with room are never cut (C71), volume argument (C72); log-concavity of the ratio; numerical bounds of `exp` |
| C99 | `cuttingPlaneFeas`, `cuttingPlaneDc` + `ell` | loop invariant "proper, or a point after a tangent cut"; cut with beta = tau gives delta = 0; concrete run that divides by zero |
| C100 | `lpCut`, `lpOracle` (test oracles) + drivers + `ell` | C25 with an explicit inscribed ball; C98; direct evaluation of one-round and two-round runs |
| C101 | `sdpCall` (test oracle) over either LMI oracle + driver + `ell` | both calls equal; C35 gives a room oracle, C92; explicit Slater ball, primal point and dual certificate for the data of the test |
| C102 | `cycleRatioOracle` + `ell1d` + driver, test graphs | width invariant of the interval halving, C42; explicit potentials and cycles for the test graphs |
| C103 | `scalingOmega` + `ell` + driver from the start of the test | first call improves to the start value, C94, C99; explicit path graph for the missed optimum |
| C81 | `circlePt`, `spherePt`, `hopfPt` | trigonometric identities |
| C76 | `feas` + `Ell` + scaled half-space oracle | computation for all radii and tolerances |
| C104 | `Profit`, `ProfitRb` + `ell` (array start) + driver | both oracles meet the quasi-convex contract (C98); disc with room next to any competitor; optimum of the test data by weighted AM-GM and exact powers; C99 with levels for totality |
| C105 | `ProfitQ` + `ell` + `cuttingPlaneQ` | loop invariant over the retry protocol; direct evaluation of a one-round run |
| C106 | `ell` + the three drivers, `Lowpass` | exact failure conditions (C20) as a decidable class of cuts; invariant "positive definite, kappa > 0" over rounds; shape of every low-pass cut |
| C107 | `CsdLowpass`, `createCsdlowpassCase` + `ell` + `cuttingPlaneQ` | loop invariant over the retry protocol (C51, C105); no-effect impossible for the deep cut of a violated row, so the stored point exists; C52 and C91 for the frequency response |
| C108 | `FirData`, `delayResponse` + `ell` + `Problem.solve` | at the frequency pi a real filter has a real response; one tap is optimal by monotonicity of cos; C92 for the verdict, first round finds level 1, C106 and the zeros of the gradient for exceptions |
| C109 | Props/CorrTest.lean | `C109_same_search` (heap simulation C69 applied to the driver call), `C109_mle_corr_poly` (C95 verdict plus translation between coefficient vectors and polynomials), `C109_mle_returned_infeasible` (explicit run), `C109_lsq_corr_poly2` (C75 verdict), `C109_lsq_corr_poly` (C96 search) |
| C110 | the subtraction of the power of two is exact (Sterbenz-type lemma `rep_sub_pow`), so the loop invariant `abs v < 2^k` survives rounding of the 1.5 product; Horner evaluation stays below 2^length; two unrolled steps for the counterexample | Spec/FloatSpec, Model/CsdFloat, Proofs/Float, Props/CsdFloat |
| C111 | on equally spaced knots the recursion reduces to three explicit quadratic weights; the difference of two values of a piece is the difference of the positions times a slope between two coefficient differences; pieces are glued by induction over the knot index; the converse takes the slope at the end of the span | Model/Bspline, Props/Bspline |
| C112 | Props/CorrBsplineTest.lean | the monotonicity wrapper keeps the oracle contract with the extra constraint that neighbouring coefficients drop by the margin; then the general verdicts of C92 and C71, and C111 for the fitted function |
| C113 | relative and absolute rounding error of a nearest rounding, Sterbenz's lemma for exact differences, the next point never leaves the bracket; invariants over the rounds with two phases (ends more or less than a factor of two apart) for the least float | Model/BsearchFloat, Proofs/BsearchFloat, Props/BsearchFloat |
| C114 | loop invariants with error terms (every stored entry satisfies the LDL' recurrences up to γ and u/(1-u)); entrywise backward error; Cauchy–Schwarz in the pivot-weighted inner product bounds it by the diagonal; a failed pivot's own error is absorbed by the pivot; residual of the back substitution enters squared; concrete doubles for the wrong verdicts | Model/CholFloat, Spec/RelErr, Proofs/CholFloat, Props/CholFloat |
| C115 | Props/MatOracleFloat.lean | error of a matrix entry from the left-to-right fold, perturbation of the quadratic form, then C114 on the computed matrix; the gradient adds the error of two nested dot products |
| C116 | Props/QmiFloat.lean | error of an entry of the Gram matrix from the error of a dot product of approximate vectors, then C114 on the lower triangle actually read; convexity of ‖F(x)v‖² for the cut |
| C117 | Props/EllFloat.lean, Props/EllFloatMore.lean, Props/EllFloatParallel.lean, Props/EllFloatThin.lean | calculus of relative errors for the scalars; entrywise error of the rank-one downdate compared with the lower bound (b-dependent) of the exact new form in terms of the old diagonal; `C117_loses_pd` evaluates two updates for an arbitrary rounding to nearest; so do the findings on thin parallel cuts; for parallel cuts of relative width θ the loss by cancellation in `1 - xi` is bounded by `t/θ²` (Proofs/EllFloatPar.lean) and enters the same argument (Proofs/EllFloatCore.lean) |
| C118 | Props/EllMem.lean | simulation by induction on the program; invariant: the matrix references of the objects are pairwise different and below the allocation pointer |
| C119 | `Props/NegCycleFloat.lean` | Bellman–Ford invariant with `chainF` (a chain of computed additions along predecessor pointers) in place of path weights; monotone addition suffices; error of a closed walk by telescoping; three concrete runs in 53 bits |
| C120 | `Props/LowDiscrFloat.lean` | the loop as a rounded sum; error by induction on the number of digits, the sum staying below 1; radical inverses with L digits are multiples of base^-L; base 2 by representability |
| C121 | Props/FloatRuns.lean | the accepted point was accepted by the oracle in a reachable state (Proofs/AnySpace.lean), then C115/C116, then the bound on the form as a bound on the eigenvalue by Cauchy-Schwarz |
| C122 | Props/LowpassFloat.lean | scans by induction on the list of rows; error of the dot product and of the difference against the exact constraint; run by Proofs/AnySpace.lean; `C122_exact`: without rounding this is the exact model |
| C123 | Props/EllAffine.lean | `s ω' = ω` and `s Q'g' = A Q Aᵀg'` make `tsq` equal, so `_calc_ll` takes the same branch; simulation of the three drivers with a relation on cuts |
| C124 | Props/HaltonGen.lean | induction over the list of bases: the state before point i is one nested counter; determinism of `next` gives uniqueness of the list |
| C125 | Props/HaltonGen.lean | table = filter of a range by trial division (kernel computation), trial division = primality below 89²; then C124 with coprime bases |
| C126 | Props/Imi.lean | leading certificate of C30; the quadratic form of the block matrix split at N |
| C127 | Props/EllMinimal.lean, Props/EllMinimalEx.lean | John's argument (Proofs/John.lean): the two rims where the new ellipsoid touches the slice, each weighted, have its matrix as second moment, so an ellipsoid `(c, P)` around the slice has `tr(P⁻¹S') ≤ n`, hence `det S' ≤ det P`, with equality only for `P = S'`; coordinates with `κQ = LLᵀ` and `Lᵀg = τe₀`; a single cut is the slab whose second hyperplane is tangent |
| C128 | Props/Ell1dFloat.lean | Proofs/Ell1dFloat.lean: both new ends are within `10uM` of the exact ones; the growth of `M` and the lost margin by induction over the rounds |
| C129 | Props/NetworkFloat.lean | Proofs/NetworkFloat.lean: a cut is valid up to the rounding of two sums, whatever the potentials are; they matter only for acceptance and for how shallow a cut is; then induction over the rounds as for C128 |
| C130 | Props/EllFloatRun.lean | Proofs/EllFloatRun.lean: the rounded ellipsoid contains the exact one shrunk by a factor (`update_sandwich` in Props/EllFloat.lean), so the loss is the difference of two volumes; geometric series over the rounds |
| C131 | Props/EllFloatDc.lean | the volume count of C130, applied to the points that beat the target while the level is bad; for convex programs these contain a shrunk copy of the Slater ball |
| C132 | Props/LmiFloatRun.lean | the cut of the rounded oracle (C115) evaluated at points where the inequality holds with a margin; the volume count of C130 for the ball of such points; C121 for the point found |
| C133 | Props/EllFloatSure.lean, Proofs/EllWide.lean | the longest half-axis grows at most by the factor sqrt D per update; with the volume from below this bounds the shortest half-axis and the conditioning; induction along the run together with the volume count of C130; the thresholds at eps = 0 are strict, so they hold near 0 |
| C134 | Props/EllFloatAnyCut.lean, Proofs/EllFloatParRun.lean | rounded parameters of the parallel cut for every beta1 above beta0 + theta tau; the exact parallel update contains the slab, rounding inflates it; thin slabs have small volume (an ellipsoid around the slab); volume count of C130 and width count of C133 along the run |
| C135 | Props/LowpassFloatRun.lean | the rounded cut (C122, now with room) keeps every point whose room exceeds the errors, on both sides of the slab; then C134 |
| C136 | Props/ProfitFloat.lean, Proofs/ProfitFloat.lean | a calculus of relative errors in the logarithmic scale, one lemma for each intermediate quantity; the exact inequality of C44/C46 at the perturbed data |
| C137 | Props/ProfitFloatRun.lean | invariant: after j rounds the level is at least -zeta Gamma^j times the smallest cost, so that the cuts of C136 keep the points with room; volume count of C134 while the level is below the target; afterwards the sum of the drifts |
| C138 | Props/EllFloatNear.lean, Props/ScalingFloatRun.lean | the cut of a rounded negative cycle keeps a ball around (pi + eta, psi - eta) up to a slightly negative beta (telescoping, `scale_cycle`); distances bounded round by round (`distBound`); `shallow_ok`: the rounded update with a slightly shallow cut still succeeds and shrinks; volume count |
| C139 | Props/LsqFloatRun.lean | the cut inequalities of C115, C116 with the quadratic form of any other point (`lmi0F_any`, `lsqF_any`); the gradient error against the size of the matrices (`lin_grad_le`, `quad_grad_le`); a ball around (z, z_last + h) satisfies both inequalities with room (`lsq_near`); C138_dc |
| C140 | Props/AdaptorFloat.lean | simulation of the heap run by a value run (as C14); `C133_uniform` (one precision for all first ellipsoids of the same radius); the level set by `update` is kept (`factorF_world`); one rounded `qmi_oracle` call from the bounds of C139; the rounded bracket from C113 |
| C141 | Props/RoomFloat.lean, Props/SdpFloat.lean | `C134_precise` and `C138_dc` on the ball obtained by shrinking the Slater ball towards `p`; cut and acceptance bounds of the rounded `lmi_oracle` (C132, C115, C121) made uniform over a box; the level bounds the rounding of `f0 - t` from below |
| C142 | Props/FirFloat.lean | forward error analysis of residual, square, sum and gradient in a box; the loop by induction as in C93; `C141_room` with no constraints; optimum from C108 |
| C143 | Props/{LevelFloat,QuasiFloat,LpFloat}.lean | the run equals that of the oracle guarded by "centre and level are representable" (simulation of the loop), to which `C138_dc` applies; monotone rounding for the order of the levels; tangents of exp and √ with relative errors |
| C144 | Props/Example2Float.lean | `C134_feas` with the rounded cuts; the tests by interval bounds on each rounded operation and exactness on small integers |
| C145 | Props/FirOracle2.lean | induction over the loops; the running maximum of the port is the first largest entry |
| C146 | Props/CorrFloat.lean, Props/LsqDataFloat.lean | relative errors through the loops; the room of C139 (`lsq_room`) absorbs the perturbation of the matrices (`both_near`), then C134, C138, C139 on the stored data |
| C147 | Props/MonoFloat.lean | a relative error below 1 keeps the sign of the difference; the wrapper's cuts keep the room of C146 shrunk by the drops (`mono_keeps`), then C134, C146 |
| C148 | Props/SphereFloat.lean | squares with small relative errors (`sq_near`, `scaled_norm`), Lipschitz sine and cosine; for the sites C120 and the spacing `2^-L` of the radical inverses |
| C149 | Props/KernFloat.lean | a relative error in the exponent is an absolute error of the kernel (`exp_neg_rel`); the smallest eigenvalue (`min_eig`) absorbs it; C87, C88, C148 |
| C150 | Props/ProfitQFloat.lean | the computed logarithms of the integers are near the exact ones (`lnOf_box`, `lnOf_profit`); C136 at the integer point; invariant over rounds as in C137, any `Space` |
| C151 | Props/CsdigitFloat.lean | the integer of the loop stays below `2^(range+resolution+1)` (`core_width`, `inv_bound`), so every sum is exact (`loopF_exact`); the truncated tail of a representable number is representable (`rep_err`) |

Theorem names per property: `MANIFEST.json`.
