{"id": "C01", "title": "cutting_plane_feas: feasible=True means the returned centre was accepted", "statement": "When cutting_plane_feas returns feasible=True, the last oracle query returned None, it was made at exactly the centre S.xc that the caller finds in S after the call, S was not touched after that query, and the reported status is success. When it returns feasible=False no query returned None.", "quantifier": "every oracle (stateful or not), every search space, every option setting, every run length", "why_tests_cant": "The claim is about every interleaving of oracle answers and update outcomes over an unbounded number of rounds; a test fixes one oracle and one trajectory.", "anchors": ["src/ellpy/cutting_plane.py:cutting_plane_feas (60-74)"]}
{"id": "C02", "title": "cutting_plane_feas: iteration accounting", "statement": "cutting_plane_feas returns 1 <= num_iters <= max_it, calls the oracle exactly num_iters times and S.update exactly num_iters times (one fewer when feasible). With max_it <= 0 it does not return: it raises UnboundLocalError without calling anything.", "quantifier": "every oracle, space, max_it (including 0 and negative) and tolerance", "why_tests_cant": "Needs all run lengths up to an arbitrary max_it and the empty-range corner.", "anchors": ["src/ellpy/cutting_plane.py:cutting_plane_feas (62,74)"]}
{"id": "C03", "title": "cutting_plane_feas: meaning of every exit status", "statement": "status nosoln/noeffect is returned exactly when the last S.update returned it; smallenough exactly when the last update succeeded with tsq < tol; status success with feasible=False exactly when all max_it rounds were performed and each update succeeded with tsq >= tol.", "quantifier": "every oracle, space and option setting", "why_tests_cant": "The four exits must be exhaustive and mutually exclusive over all runs.", "anchors": ["src/ellpy/cutting_plane.py:cutting_plane_feas (61-74)", "src/ellpy/cutting_plane.py:CUTStatus (1-60)"]}
{"id": "C04", "title": "cutting_plane_feas: no feasible point is ever lost", "statement": "If every cut the oracle returns is valid for the feasible set K (all of K satisfies it) and the search space's update keeps every point of its set that satisfies the cut, then at every exit each point of K that was in the initial search space is still in the final one; status nosoln therefore certifies that K has no point in the initial search space.", "quantifier": "every convex (or not) set K, every valid oracle, every sound space, every run", "why_tests_cant": "A certificate of emptiness quantifies over all points of a continuum and over all runs.", "anchors": ["src/ellpy/cutting_plane.py:cutting_plane_feas"]}
{"id": "C05", "title": "cutting_plane_dc: returned value and point belong to the last improvement", "statement": "cutting_plane_dc returns (x_best, t): if no oracle call returned a new value then x_best is None and t is the caller's t; otherwise t is the value returned by the last improving call and x_best is the object S.xc evaluated to at that call. feasible is True exactly when the returned t differs from the t passed in.", "quantifier": "every oracle, space, options, run", "why_tests_cant": "Quantifies over all sequences of improving/non-improving answers.", "anchors": ["src/ellpy/cutting_plane.py:cutting_plane_dc (95-112)"]}
{"id": "C06", "title": "cutting_plane_dc: best-so-far is monotone", "statement": "If the oracle reports a new value only when it is strictly better than the t it was given, then the returned t is at least as good as every value reported during the run and as the initial t, and feasible=True iff x_best is not None.", "quantifier": "every such oracle and every run, for either ordering (minimisation or maximisation)", "why_tests_cant": "An induction over unbounded runs.", "anchors": ["src/ellpy/cutting_plane.py:cutting_plane_dc"]}
{"id": "C07", "title": "cutting_plane_dc: optimality certificate", "statement": "If the oracle's cuts are valid for every point strictly better than the best-so-far value after that call and the space is sound, then after cutting_plane_dc each point of the initial space that is strictly better than the returned t is still in the final space; if the status is nosoln no point of the initial space is strictly better than the returned t.", "quantifier": "every objective/feasible set, every valid oracle, every sound space, every run", "why_tests_cant": "Global optimality over a continuum for all runs.", "anchors": ["src/ellpy/cutting_plane.py:cutting_plane_dc"]}
{"id": "C08", "title": "cutting_plane_dc on ell: which point x_best actually holds", "statement": "On an ell search space the array returned as x_best is the live centre array of the space: it holds the FINAL centre of the run, in every run, not the point at which the returned best value was obtained. There are runs in which the returned x_best does not attain the returned value. (Defect: a user expects f(x_best) = t; S.xc hands out the live array and ell.update changes it in place.)", "quantifier": "every oracle that leaves the centre array alone, every ell, every run; aliasing of numpy arrays included; the failure by a concrete run", "why_tests_cant": "The test-suite compares with approx() near convergence where the two points nearly coincide; only a model of references separates them for every run.", "anchors": ["src/ellpy/cutting_plane.py:cutting_plane_dc (103-104)", "src/ellpy/ell.py:ell.xc (76), ell.update_core (139)"]}
{"id": "C09", "title": "cutting_plane_q: retry protocol", "statement": "cutting_plane_q passes retry=True to the oracle exactly when the previous S.update returned noeffect, passes retry=False on the first call, and stops at a noeffect update exactly when that call reported more_alt=False.", "quantifier": "every oracle, space, options, run", "why_tests_cant": "A property of the whole call history.", "anchors": ["src/ellpy/cutting_plane.py:cutting_plane_q (134-153)"]}
{"id": "C10", "title": "cutting_plane_q: results and accounting", "statement": "cutting_plane_q returns t of the last improving call (initial t if none), x_best a private copy of the evaluation point of that call which later updates cannot change (None if none), 1 <= num_iters <= max_it = number of oracle calls; status is nosoln, noeffect, smallenough or, on exhaustion, that of the last update.", "quantifier": "every oracle, space, options, run, including oracles that keep mutating the array they returned", "why_tests_cant": "History and aliasing property.", "anchors": ["src/ellpy/cutting_plane.py:cutting_plane_q (131-153)"]}
{"id": "C11", "title": "bsearch: bracket invariant and correctness for monotone predicates", "statement": "With exact arithmetic (float model / Fraction) bsearch only ever returns either the original upper bound or a value on which Omega returned True. For a monotone Omega that is False at the lower and True at the upper end, the true threshold always lies in (lower, upper], so on exit smallenough the returned upper exceeds the threshold by less than 2*tol, and after k rounds the bracket is 2^-k of the original.", "quantifier": "every monotone predicate, every interval, every tolerance and max_it", "why_tests_cant": "Quantifies over all predicates and all numbers of halvings.", "anchors": ["src/ellpy/cutting_plane.py:bsearch (171-190)"]}
{"id": "C12", "title": "bsearch: integer search", "statement": "When the interval is integral (T=int) with lower >= 0 and Omega is monotone, False at lower and True at upper, bsearch returns the least integer on which Omega is True as soon as max_it >= log2(upper-lower)+1; every evaluation is at an integer of [lower, upper].", "quantifier": "every monotone predicate on integers and every interval", "why_tests_cant": "int() truncation makes the bracket stall at width 1: needs all intervals.", "anchors": ["src/ellpy/cutting_plane.py:bsearch (174-187)"]}
{"id": "C13", "title": "bsearch: reported number of iterations", "statement": "bsearch evaluates Omega exactly num_iters times when it stops with smallenough and num_iters+1 times when it runs out of iterations; feasible=True iff the returned upper differs from the original.", "quantifier": "every predicate, interval, options", "why_tests_cant": "Counting property over all runs.", "anchors": ["src/ellpy/cutting_plane.py:bsearch (178-190)"]}
{"id": "C14", "title": "bsearch_adaptor: a probe answers for t; what it does to its search space", "statement": "Calling a bsearch_adaptor on t updates the problem to t and returns whether cutting_plane_feas on a copy of the space succeeded. For ell1d it moves the centre to the accepted point when it succeeds and otherwise leaves the space as it was. For ell the shape is left alone, but the centre array is shared with the copy, so even a failed probe moves the centre (Defect: a failed probe changes the space; a concrete run shows it).", "quantifier": "every problem, space state, t, options", "why_tests_cant": "Aliasing through copy() over arbitrary probe runs.", "anchors": ["src/ellpy/cutting_plane.py:bsearch_adaptor (217-231)", "src/ellpy/ell.py:ell.copy (56-67)"]}
{"id": "C15", "title": "Problem.solve: state machine over repeated solves", "statement": "After any sequence of solve calls: status is 'optimal' iff the last run was feasible and ended smallenough, 'feasible' iff feasible otherwise, 'infeasible' iff not feasible; solver_stats.num_iters is that of the last run; optim_value/optim_var and the value returned by solve are those of the most recent feasible run (None before the first) - in particular an infeasible solve returns a stale value.", "quantifier": "every history of solve calls", "why_tests_cant": "History property.", "anchors": ["src/ellpy/problem.py:Problem._solve (101-151)"]}
{"id": "C16", "title": "ell.update: a deep, central or shallow cut never removes a point that satisfies it", "statement": "If update((g, beta)) on an ell with positive definite shape returns success, every x with (x-xc)'Q^-1(x-xc) <= kappa and g'(x-xc)+beta <= 0 satisfies the inequality of the new ellipsoid.", "quantifier": "every dimension n >= 2, centre, positive definite Q, kappa > 0, nonzero g, beta", "why_tests_cant": "A geometric statement about a continuum in every dimension.", "anchors": ["src/ellpy/ell.py:ell.update_core (116-147), _calc_dc (221-254), _calc_cc (256-265)"]}
{"id": "C17", "title": "ell.update: a parallel cut never removes a point of the slab", "statement": "If update((g, (b0, b1))) returns success, every x of the old ellipsoid with g'(x-xc)+b0 <= 0 and g'(x-xc)+b1 >= 0 is in the new ellipsoid, with use_parallel_cut on or off.", "quantifier": "every n >= 2, centre, positive definite Q, kappa > 0, nonzero g, b0, b1", "why_tests_cant": "As C16; in addition the square-root formulas must match for all b0,b1.", "anchors": ["src/ellpy/ell.py:_calc_ll (149-162), _calc_ll_core (164-203), _calc_ll_cc (205-219)"]}
{"id": "C18", "title": "ell.update: nosoln is a proof of emptiness", "statement": "If update returns nosoln, no point of the ellipsoid satisfies the cut (single or parallel). For a single cut the converse holds as well: if the half-space misses the ellipsoid the status is nosoln.", "quantifier": "every n >= 2, state and cut", "why_tests_cant": "Emptiness of a continuum.", "anchors": ["src/ellpy/ell.py:_calc_dc (239-241)", "src/ellpy/ell.py:_calc_ll_core (181-183)"]}
{"id": "C19", "title": "ell.update: rejected cuts leave the ellipsoid unchanged", "statement": "When update returns nosoln or noeffect the centre, shape matrix and kappa are unchanged, so the object denotes the same set.", "quantifier": "every state and cut", "why_tests_cant": "Every branch of the nested cut classification for every input.", "anchors": ["src/ellpy/ell.py:update_core (134-137)"]}
{"id": "C20", "title": "ell: well-formedness is an invariant and the arithmetic never fails", "statement": "Starting from a positive definite state, along every sequence of cuts that leave a neighbourhood (beta < tau, b0 < b1, not the two removable singularities beta = -tau/n and b0 = -b1) no square root of a negative number, division by zero or warning occurs, sigma lies in [0,1), delta > 0 and the shape stays symmetric positive definite with kappa > 0.", "quantifier": "every dimension >= 2, every finite history of cuts", "why_tests_cant": "Invariant over unbounded histories.", "anchors": ["src/ellpy/ell.py:ell"]}
{"id": "C21", "title": "ell.update: volume strictly decreases", "statement": "Every successful cut with beta > -tau/n strictly decreases kappa^n det Q (squared volume), and with beta >= 0 (central or deep) by at least the factor exp(-1/(n+1)); successful parallel cuts never increase it.", "quantifier": "every n >= 2, state, cut", "why_tests_cant": "The convergence rate for every dimension.", "anchors": ["src/ellpy/ell.py:_calc_dc, _calc_cc, _calc_ll_core"]}
{"id": "C22", "title": "ell: no_defer_trick only changes the representation", "statement": "Two ell objects that denote the same ellipsoid and differ in no_defer_trick return the same statuses and tsq values, visit the same centres and denote the same ellipsoids along every sequence of cuts.", "quantifier": "every history of cuts, every dimension", "why_tests_cant": "Relational property over unbounded histories; the test compares only iteration counts of one problem.", "anchors": ["src/ellpy/ell.py:update_core (142-145)"]}
{"id": "C23", "title": "ell.update: meaning of the returned tsq", "statement": "For the state before the update, the returned tsq is the maximum over the ellipsoid of (g'(x-xc))^2; in particular tsq < tol bounds how much any linear objective along g can still improve.", "quantifier": "every state and cut", "why_tests_cant": "Extremum over a continuum.", "anchors": ["src/ellpy/ell.py:update_core (131-134)"]}
{"id": "C24", "title": "ell constructor and copy", "statement": "ell(val, x) with n = len(x) = 1 raises ZeroDivisionError; for n >= 2 with scalar val > 0 it denotes the ball {|y-x|^2 <= val} and with a positive vector the axis-parallel ellipsoid sum (y_i-x_i)^2/val_i <= 1. copy() denotes the same ellipsoid, has the same flags and later updates of either object's shape do not affect the other's shape.", "quantifier": "every n, val, x, and every later history", "why_tests_cant": "Quantifies over all inputs and later histories.", "anchors": ["src/ellpy/ell.py:ell.__init__ (24-54), ell.copy (56-67)"]}
{"id": "C25", "title": "cutting_plane_feas with ell: iteration bound", "statement": "If the feasible set contains a ball of radius r inside the initial ball of radius R, the oracle's cuts are valid, have beta >= 0 and |g| >= 1, and tol <= r^2, then cutting_plane_feas returns feasible=True within 2n(n+1)ln(R/r)+1 iterations when max_it allows.", "quantifier": "every dimension, set, oracle", "why_tests_cant": "A complexity bound for all problems.", "anchors": ["src/ellpy/cutting_plane.py:cutting_plane_feas", "src/ellpy/ell.py:ell"]}
{"id": "C26", "title": "ell1d.update: exact intersection", "statement": "For a cut with (g, beta) != (0, 0): on success the new interval [xc-r, xc+r] is exactly the old interval intersected with {x | g(x-xc)+beta <= 0}; nosoln is returned exactly when this intersection is empty; on noeffect the whole interval satisfies the cut and nothing changes. (For the zero cut (0,0) the code wrongly halves the interval.)", "quantifier": "every interval and cut over an exact ordered field", "why_tests_cant": "Every sign combination and boundary of g and beta.", "anchors": ["src/ellpy/ell.py:ell1d.update (308-338)"]}
{"id": "C27", "title": "ell1d: history refinement", "statement": "After any sequence of updates with nonzero cuts the interval of an ell1d equals the initial interval intersected with the half-lines of all cuts, and copy() has the same centre and radius and is independent of the original.", "quantifier": "every history", "why_tests_cant": "Unbounded histories.", "anchors": ["src/ellpy/ell.py:ell1d"]}
{"id": "C28", "title": "cutting_plane_feas with ell1d: logarithmic convergence", "statement": "Every successful update with beta >= 0 at least halves the radius; hence with |g| >= 1 fixed below by gmin and cuts with |g| <= gmax, a run on ell1d of radius r stops after at most log2(...) rounds because tsq < tol, and if the feasible set contains an interval of length greater than 2*sqrt(tol)/gmin the run is feasible.", "quantifier": "every interval, oracle", "why_tests_cant": "Convergence bound.", "anchors": ["src/ellpy/ell.py:ell1d", "src/ellpy/cutting_plane.py:cutting_plane_feas"]}
{"id": "C29", "title": "chol_ext.factor decides positive definiteness", "statement": "With allow_semidefinite=False, factorize(A) (and factor(getA)) returns True exactly when the symmetric matrix A is positive definite; only the lower triangle is read.", "quantifier": "every size N, every symmetric matrix over an ordered field", "why_tests_cant": "All sizes and matrices; tests have nine 3x3/4x4 examples.", "anchors": ["src/ellpy/oracles/chol_ext.py:chol_ext.factor (50-75)"]}
{"id": "C30", "title": "chol_ext.witness certificate", "statement": "After factor returned False, witness() returns ep >= 0 and fills v so that v[n-1]=1 and v[s:n]' A[s:n,s:n] v[s:n] = -ep where (s,n)=p; ep > 0 when allow_semidefinite is on; sym_quad(A) returns that quadratic form. After factor returned True, witness raises AssertionError.", "quantifier": "every size, matrix, mode", "why_tests_cant": "Certificate correctness for all inputs.", "anchors": ["src/ellpy/oracles/chol_ext.py:witness (85-105), sym_quad (107-119)"]}
{"id": "C31", "title": "chol_ext.sqrt", "statement": "After factor returned True with allow_semidefinite=False, sqrt() returns an upper triangular R with positive diagonal and R'R = A; after False it raises AssertionError. (With allow_semidefinite=True the result can be wrong even for positive semidefinite A.)", "quantifier": "every size and matrix", "why_tests_cant": "All inputs.", "anchors": ["src/ellpy/oracles/chol_ext.py:sqrt (121-137)"]}
{"id": "C32", "title": "chol_ext: reuse does not leak state", "statement": "A chol_ext object reused for any sequence of factor/witness/sym_quad/sqrt calls gives the same factor decision, p, witness and sym_quad values (and, with allow_semidefinite=False, the same sqrt) for a matrix as a freshly constructed object.  In every reachable state p is (0,0), is_spd() is True and witness() raises AssertionError (so also on a fresh object), or p is a non-empty range within N and witness() returns. (With allow_semidefinite=True sqrt can return entries left over from an earlier matrix.)", "quantifier": "every history of earlier calls", "why_tests_cant": "History independence of the preallocated buffers _T and v.", "anchors": ["src/ellpy/oracles/chol_ext.py:__init__ (24-35), factor"]}
{"id": "C33", "title": "chol_ext.factor: lazy access pattern", "statement": "factor calls getA(i,j) only with start <= j <= i < N, row by row in order, each entry at most once, and never beyond the row that decides failure; it never divides by zero.", "quantifier": "every size, matrix, mode, stateful getA", "why_tests_cant": "Access order for all runs; required by the on-demand QMI evaluation.", "anchors": ["src/ellpy/oracles/chol_ext.py:factor (58-75)"]}
{"id": "C34", "title": "chol_ext.allow_semidefinite", "statement": "With allow_semidefinite=True, factor returning False implies A is not positive semidefinite, and True implies that every row met a pivot > 0 or a zero pivot that restarts the factorization after it. (The intended 'exactly when positive semidefinite' does not hold: the code accepts indefinite matrices such as [[0,1],[1,0]].)", "quantifier": "every size and symmetric matrix", "why_tests_cant": "The repository's own tests 6 and 9 assert acceptance of an indefinite matrix.", "anchors": ["src/ellpy/oracles/chol_ext.py:factor (71-74)"]}
{"id": "C35", "title": "lmi_oracle: decision and cut validity", "statement": "lmi_oracle(F,B)(x) returns None exactly when B - sum x_k F_k is positive definite; otherwise it returns (g, ep) with ep >= 0 and g'(z-x)+ep <= 0 for every z with B - sum z_k F_k positive semidefinite.", "quantifier": "every size, number of variables, symmetric matrices, x, z", "why_tests_cant": "Validity for all z.", "anchors": ["src/ellpy/oracles/lmi_oracle.py:lmi_oracle.__call__ (33-52)"]}
{"id": "C36", "title": "lmi0_oracle: decision and cut validity", "statement": "lmi0_oracle(F)(x) returns None exactly when sum x_k F_k is positive definite; otherwise (g, ep) with ep >= 0 and g'(z-x)+ep <= 0 for every z with sum z_k F_k positive semidefinite.", "quantifier": "every size, F, x, z", "why_tests_cant": "Validity for all z.", "anchors": ["src/ellpy/oracles/lmi0_oracle.py:lmi0_oracle.__call__ (29-47)"]}
{"id": "C37", "title": "lmi_old_oracle and lmi_oracle agree", "statement": "For every F, B, x the eager lmi_old_oracle and the lazy lmi_oracle return the same answer (None or the same cut), for any earlier use of either object.", "quantifier": "every F,B,x, every history", "why_tests_cant": "Equivalence over all inputs; the test compares iteration counts only.", "anchors": ["src/ellpy/oracles/lmi_old_oracle.py", "src/ellpy/oracles/lmi_oracle.py"]}
{"id": "C38", "title": "qmi_oracle: on-demand evaluation, decision and cut validity", "statement": "qmi_oracle(F,F0) after update(t): call(x) returns None exactly when t*I - F(x)'F(x) is positive definite with F(x)=F0-sum x_k F_k, regardless of earlier calls; otherwise, if the F_k are symmetric, it returns a cut valid for all z with t*I - F(z)'F(z) positive semidefinite. (For non-symmetric F_k the code uses rows instead of columns: the cut can be invalid, and for rectangular F_k a rejection raises ValueError.)", "quantifier": "every size, F, F0, t, x, z and earlier history", "why_tests_cant": "Caching correctness over histories; validity for all z.", "anchors": ["src/ellpy/oracles/qmi_oracle.py:qmi_oracle", "src/ellpy/oracles/gmi_oracle.py:gmi_oracle"]}
{"id": "C39", "title": "lsq_oracle", "statement": "lsq_oracle(F,F0)(x,t): a cut returned with no value is valid for every z=(y,s) with F(y) psd, s*I-(F0-F(y))'(F0-F(y)) psd and s <= t; a value is returned only if F(x) is positive definite and x_last*I-... is positive definite and x_last <= t, the value being x_last, and then the cut is valid for all points with smaller last coordinate.", "quantifier": "every F, F0 symmetric, x, t, z", "why_tests_cant": "Validity over a continuum.", "anchors": ["src/ellpy/oracles/lsq_corr_oracle.py:lsq_oracle.__call__ (44-81)"]}
{"id": "C40", "title": "mle_oracle", "statement": "mle_oracle(Sig,Y)(x,t): reports a new value only when Omega(x) and 2Y-Omega(x) are positive definite and the value is log det Omega + tr(Omega^-1 Y) < t; every returned cut is valid for all z with 0 < Omega(z) <= 2Y and objective value smaller than the best-so-far.", "quantifier": "every size, symmetric Sig, Y, x, z, t", "why_tests_cant": "The objective is convex only inside the constraint set; validity must hold for all z.", "anchors": ["src/ellpy/oracles/mle_corr_oracle.py:mle_oracle.__call__ (31-69)"]}
{"id": "C41", "title": "network_oracle: cut validity", "statement": "If the cycle finder returns only cycles of the graph and none only when potentials exist, then network_oracle(x) returns None only if some u satisfies u[j]-u[i] <= h(e,x) on all edges, and otherwise a cut valid for every z for which such potentials exist, provided h is concave with supergradient grad.", "quantifier": "every graph, h, x, z", "why_tests_cant": "Validity over all potentials and all z.", "anchors": ["src/ellpy/oracles/network_oracle.py:network_oracle.__call__ (39-64)"]}
{"id": "C42", "title": "cycle_ratio_oracle with cutting_plane_dc on ell1d", "statement": "cycle_ratio_oracle's value answers are feasible ratios not worse than t and its cuts keep every better feasible ratio; consequently cutting_plane_dc on ell1d returns a feasible ratio r and no feasible ratio larger than r in the initial interval lies outside the final interval, so that r is optimal up to the length of that interval (2R/2^(num_iters-1)); a run that found a value never ends with nosoln, and one that ends with nosoln proves that no feasible ratio >= the starting value lies in the interval.", "quantifier": "every graph with costs and times, every interval", "why_tests_cant": "End-to-end optimality over all graphs.", "anchors": ["src/ellpy/oracles/cycle_ratio_oracle.py:cycle_ratio_oracle"]}
{"id": "C43", "title": "optscaling_oracle", "statement": "optscaling_oracle(x,t) reports the value x[0]-x[1] only if it is < t and a scaling u with psi <= u_i|a_ij|/u_j <= pi (log scale) exists at x; every cut is valid for all (pi,psi) admitting a scaling with smaller ratio.", "quantifier": "every graph, cost, x, t, z", "why_tests_cant": "Validity over a continuum.", "anchors": ["src/ellpy/oracles/optscaling_oracle.py:optscaling_oracle"]}
{"id": "C44", "title": "profit_oracle: cut validity", "statement": "For t >= 0, positive prices and p*A, k > 0: every cut returned by profit_oracle(y,t) is satisfied by all z with z_0 <= log k whose profit is at least the best-so-far value after the call.", "quantifier": "every parameter vector, y, t, z", "why_tests_cant": "Log-sum-exp convexity over all z.", "anchors": ["src/ellpy/oracles/profit_oracle.py:profit_oracle.__call__ (43-73)"]}
{"id": "C45", "title": "profit_oracle: reported value", "statement": "profit_oracle reports a new value exactly when y satisfies the constraint and the profit at y exceeds t; the value is the profit at y, p*A*x1^a1*x2^a2 - v1*x1 - v2*x2.", "quantifier": "every y, t", "why_tests_cant": "All real inputs.", "anchors": ["src/ellpy/oracles/profit_oracle.py:profit_oracle.__call__"]}
{"id": "C46", "title": "profit_rb_oracle: robustness", "statement": "A value reported by profit_rb_oracle is the worst-case profit over all elasticities within e1,e2, prices and limits within e3,e4,e5; its cuts keep every z whose worst-case profit is at least the best-so-far value.", "quantifier": "every parameter, perturbation, y, t, z", "why_tests_cant": "Worst case over a continuum of perturbations.", "anchors": ["src/ellpy/oracles/profit_oracle.py:profit_rb_oracle (118-135)"]}
{"id": "C47", "title": "profit_q_oracle: discrete evaluation point and shifted cut", "statement": "profit_q_oracle evaluates at the log of a positive integer vector nearest to exp(y) (ties to the even integer), reports its profit, and repeats the same point on retry. The returned cut demands 2g'(yd-y) more than the inequality guaranteed at yd, so it keeps every better feasible point if g'(yd-y) <= 0; otherwise it can remove better feasible integer points, and a concrete run shows it. (Defect: the re-basing to y has the wrong sign; a user expects no better point to be removed.)", "quantifier": "every y, t, retry history", "why_tests_cant": "Needs all y: at integer points both signs agree.", "anchors": ["src/ellpy/oracles/profit_oracle.py:profit_q_oracle.__call__ (173-200)"]}
{"id": "C48", "title": "lowpass_oracle: acceptance", "statement": "lowpass_oracle(x, Spsq) reports a value only if all passband, stopband, nonnegativity and x[0] constraints hold at x; the value is the maximum stopband response and is <= Spsq; conversely if all constraints hold a value is reported - whatever the round-robin counters are.", "quantifier": "every matrix size, x, Spsq and counter state", "why_tests_cant": "All sizes and all reachable counters.", "anchors": ["src/ellpy/oracles/lowpass_oracle.py:lowpass_oracle.__call__ (44-126)"]}
{"id": "C49", "title": "lowpass_oracle: cut validity", "statement": "Every (parallel) cut lowpass_oracle returns is satisfied, on both sides, by all z that meet the specification with stopband level at most the best-so-far value after the call.", "quantifier": "every matrix, x, Spsq, z, counters", "why_tests_cant": "Validity over a continuum.", "anchors": ["src/ellpy/oracles/lowpass_oracle.py:lowpass_oracle.__call__"]}
{"id": "C50", "title": "lowpass_oracle: round robin", "statement": "For every reachable counter each band's scan visits every row exactly once, starting at the row after the last violated one; counters stay within [0, N].", "quantifier": "every sequence of calls", "why_tests_cant": "History property.", "anchors": ["src/ellpy/oracles/lowpass_oracle.py (61-67,81-94,103-110)"]}
{"id": "C51", "title": "csdlowpass_oracle", "statement": "csdlowpass_oracle returns as evaluation point the autocorrelation of a filter whose taps have at most nnz nonzero signed digits, reuses it on retry, reports a value only if that point meets the specification, and cuts at r itself when r violates the specification. The cut returned from an evaluation point q is the valid cut moved by 2(r-q); it keeps every better point if g'(q-r) = 0, and a concrete run removes all of them. (Defect: same sign error as profit_q_oracle.)", "quantifier": "every r, Spsq, retry history, lowpass oracle", "why_tests_cant": "History and continuum.", "anchors": ["src/ellpy/oracles/csdlowpass_oracle.py:csdlowpass_oracle.__call__ (34-58)"]}
{"id": "C52", "title": "inverse_spectral_fact", "statement": "inverse_spectral_fact(h)[t] is the autocorrelation sum_k h[k+t]h[k]; its power spectrum r0+2*sum r_t cos(tw) equals |H(e^jw)|^2 and is therefore nonnegative at every frequency.", "quantifier": "every filter length, taps, frequency", "why_tests_cant": "All lengths and frequencies.", "anchors": ["src/ellpy/oracles/spectral_fact.py:inverse_spectral_fact (62-75)"]}
{"id": "C53", "title": "mono_oracle and mono_decreasing_oracle2", "statement": "mono_oracle(x) returns None exactly when x is non-increasing; otherwise a cut with positive violation satisfied by every non-increasing z. mono_decreasing_oracle2 returns the wrapped oracle's answer unchanged when x[:-1] is non-increasing and otherwise such a cut with zero last component and no value.", "quantifier": "every length and vector", "why_tests_cant": "All vectors.", "anchors": ["src/ellpy/oracles/corr_bspline_oracle.py:mono_oracle (13-30), mono_decreasing_oracle2 (48-67)"]}
{"id": "C54", "title": "distance and polynomial matrices", "statement": "construct_distance_matrix returns a symmetric matrix with zero diagonal whose entries are the Euclidean distances; construct_poly_matrix(s,m) for m >= 1 returns m symmetric matrices, the k-th holding the k-th powers of the distances (0^0=1).", "quantifier": "every set of sites and m", "why_tests_cant": "All sizes.", "anchors": ["src/ellpy/oracles/corr_oracle.py:construct_distance_matrix (65-82), construct_poly_matrix (85-102)"]}
{"id": "C55", "title": "corr_poly returns the fitted polynomial", "statement": "The poly1d returned by corr_poly evaluates at the distance of sites i,j to entry (i,j) of sum_k a_k Sig_k where a is the solver's coefficient vector; num_iters and feasible are passed through.", "quantifier": "every sites, degree, solver answer", "why_tests_cant": "All inputs; coefficient order is easily reversed.", "anchors": ["src/ellpy/oracles/corr_oracle.py:corr_poly (105-122)"]}
{"id": "C56", "title": "to_csd then to_decimal is the identity on representable numbers", "statement": "to_decimal(to_csd(v, places)) = v for every v that is an integer multiple of 2^-places, places >= 0.", "quantifier": "every such v and every places", "why_tests_cant": "Unbounded domain; tests stop at 10 bits.", "anchors": ["src/pycsd/csd/csd.py:to_csd (22-82), to_decimal (85-108)"]}
{"id": "C57", "title": "to_csd truncation error", "statement": "For every v and places >= 0, |v - to_decimal(to_csd(v,places))| < 2^-places, and <= (2/3) 2^-places when |v| >= 1 or |v| <= 2/3.", "quantifier": "every rational/real v", "why_tests_cant": "Continuum.", "anchors": ["src/pycsd/csd/csd.py:to_csd"]}
{"id": "C58", "title": "to_csd: exactly when the output is canonical", "statement": "The string returned by to_csd(v, places) has no two adjacent nonzero digits (ignoring the point) if and only if not (2/3 < |v| < 1 and places >= 2). (Defect: a user expects it always; 0.75 gives '0.++'.)", "quantifier": "every v, places", "why_tests_cant": "Continuum; tests use no value in (2/3,1).", "anchors": ["src/pycsd/csd/csd.py:to_csd (49-77)"]}
{"id": "C59", "title": "to_decimal then to_csd is the identity on canonical strings", "statement": "For every canonical CSD string s (no adjacent nonzero digits; integer part '0', or without leading zero and value at least 1 in size; zero written '0') with q fractional digits, to_csd(to_decimal(s), q) = s.", "quantifier": "every canonical string of any length", "why_tests_cant": "Unbounded lengths.", "anchors": ["src/pycsd/csd/csd.py:to_csd, to_decimal"]}
{"id": "C60", "title": "to_decimal: value and rejection", "statement": "to_decimal raises ValueError exactly on strings that contain a character outside '+-0.'; on a string with at most one point it returns the signed binary value of the string.", "quantifier": "every string", "why_tests_cant": "All strings.", "anchors": ["src/pycsd/csd/csd.py:to_decimal (91-108)"]}
{"id": "C61", "title": "to_csdfixed: number of nonzero digits", "statement": "to_csdfixed(v, nnz) has at most nnz nonzero digits for nnz >= 1. With nnz <= 0 it returns to_csd(v, 0), which for |v| >= 1 has a nonzero digit: the limit is ignored.", "quantifier": "every v, nnz", "why_tests_cant": "Continuum.", "anchors": ["src/pycsd/csd/csd.py:to_csdfixed (145-190)"]}
{"id": "C62", "title": "to_csdfixed: approximation error", "statement": "|v - to_decimal(to_csdfixed(v,nnz))| <= |v|/2^nnz or <= 1e-100, for nnz >= 1.", "quantifier": "every v, nnz", "why_tests_cant": "Continuum.", "anchors": ["src/pycsd/csd/csd.py:to_csdfixed"]}
{"id": "C63", "title": "to_csdfixed terminates", "statement": "The while loop of to_csdfixed terminates for every v and every nnz (its exit depends on the residual, not on a counter).", "quantifier": "every v, nnz", "why_tests_cant": "Termination for all inputs.", "anchors": ["src/pycsd/csd/csd.py:to_csdfixed (161)"]}
{"id": "C64", "title": "CSD is minimal", "statement": "Among all signed-digit strings (digits +,-,0) of the same value, the string of to_csd on an integer has the fewest nonzero digits, and it is the only one without adjacent nonzeros up to leading zeros.", "quantifier": "every integer, every competing digit string", "why_tests_cant": "All competitors.", "anchors": ["src/pycsd/csd/csd.py:to_csd"]}
{"id": "C65", "title": "csd_numbers table", "statement": "is_proper_csd accepts exactly the digit lists without two adjacent nonzeros; cycle_bits(num_digits-1) fills csd_dict with exactly one entry for each proper string of num_digits digits, keyed by its value; the keys are exactly the integers k with 3|k| <= 2^(num_digits+1).", "quantifier": "every number of digits", "why_tests_cant": "All sizes, recursion over a global buffer.", "anchors": ["src/pycsd/dev/csd_numbers.py:is_proper_csd (20-29), cycle_bits (32-48)"]}
{"id": "C66", "title": "fib", "statement": "fib(n) returns the n-th Fibonacci number for every n >= 1 and raises AssertionError for n <= 0.", "quantifier": "every integer n", "why_tests_cant": "Unbounded.", "anchors": ["src/ellpy/skeleton.py:fib (43-56)"]}
{"id": "C67", "title": "negative-cycle finder (in-repository copy)", "statement": "When find_neg_cycle returns an empty list, dist is a feasible potential for the weights; when it returns a cycle, the cycle is a closed walk in the graph with strictly negative total weight, and its assertion never fails.", "quantifier": "every graph, weights, initial dist", "why_tests_cant": "The source itself asks 'Will zero cycle be found???'.", "anchors": ["src/ellpy/oracles/neg_cycle.tpy:negCycleFinder"]}
{"id": "C68", "title": "cutting_plane_q: optimality certificate", "statement": "If the space is sound and every cut returned by the oracle is valid for all points strictly better than the current t, then every point of the initial search space better than the returned t is still in the final search space, and when the run ends with nosoln there is none.", "quantifier": "every valid oracle, sound space, retry behaviour, option set", "why_tests_cant": "Quantifies over all points and all runs; retry rounds must not lose points either.", "anchors": ["src/ellpy/cutting_plane.py:cutting_plane_q (120-173)"]}
{"id": "C69", "title": "heap refinement of the drivers over ell", "statement": "Run with real (aliased, in-place) array semantics, cutting_plane_feas and cutting_plane_dc over ell compute the same verdicts, statuses, counts and values as over immutable ellipsoids; they overwrite the array the caller passed as centre with the final centre and touch no other array.", "quantifier": "every oracle that reads arrays and leaves them alone, every heap, every ell, every run", "why_tests_cant": "Statement about all heaps and all runs.", "anchors": ["src/ellpy/cutting_plane.py:cutting_plane_feas, cutting_plane_dc", "src/ellpy/ell.py:ell.update_core (139)"]}
{"id": "C70", "title": "feas on ell: what every unsuccessful exit means", "statement": "cutting_plane_feas on an ell, any oracle with valid deep or central cuts: if the run ends with nosoln, noeffect or smallenough, no point that every issued cut keeps with margin sqrt(tol) was in the initial ellipsoid; with feasible=True the oracle accepted the final centre.", "quantifier": "every dimension, oracle, private oracle state, initial ellipsoid, option set, run", "why_tests_cant": "Every point of the initial ellipsoid, every run; in particular the smallenough exit, which a test can only observe.", "anchors": ["src/ellpy/cutting_plane.py:cutting_plane_feas (32-74)", "src/ellpy/ell.py:ell.update_core"]}
{"id": "C71", "title": "dc on ell: what every unsuccessful exit means", "statement": "cutting_plane_dc on an ell, any oracle with valid deep or central cuts: if the run ends with any status but success, no point of the initial ellipsoid beats the returned value by the margin belonging to tol; the returned pair is the initial one or was reported by the oracle at the returned point.", "quantifier": "every dimension, oracle, private oracle state, initial ellipsoid, option set, run", "why_tests_cant": "Every competing point, every run.", "anchors": ["src/ellpy/cutting_plane.py:cutting_plane_dc (77-112)", "src/ellpy/ell.py:ell.update_core"]}
{"id": "C72", "title": "dc on ell converges", "statement": "If all values still to be improved leave a ball of radius r uncut, then a value that cannot be improved this way is delivered by the oracle within (n+1) ln(vol ratio) + 1 calls, no exception occurs before, and every run with a larger max_it that returns has such a value.", "quantifier": "every dimension, oracle, ellipsoid, ball, option set", "why_tests_cant": "Iteration bound for all problems.", "anchors": ["src/ellpy/cutting_plane.py:cutting_plane_dc (77-112)", "src/ellpy/ell.py:ell.update_core"]}
{"id": "C73", "title": "solving an LMI with feas + ell + lmi_oracle", "statement": "For symmetric F_k and B: status other than success means no point of the initial ellipsoid satisfies B - sum x_k F_k >= sqrt(tol) I; feasible=True means the final centre makes the pencil positive definite. If a ball of radius r inside the starting ball has slack lam > 0 with tol <= lam^2, the run finds a feasible point within 2n(n+1) ln(R/r) + 1 iterations.", "quantifier": "every size, matrices, starting ball, earlier oracle state, option set", "why_tests_cant": "All matrix inequalities; ties driver, ellipsoid, oracle and factorisation together.", "anchors": ["src/ellpy/cutting_plane.py:cutting_plane_feas", "src/ellpy/ell.py:ell", "src/ellpy/oracles/lmi_oracle.py", "src/ellpy/oracles/chol_ext.py"]}
{"id": "C74", "title": "solving the profit problem with dc + ell + profit_oracle", "statement": "Unless it is still the initial one, the returned value is attained at the returned point (after the exponential change of variable) and within the capacity; status other than success means no point of the initial ellipsoid has margin and profit above the returned value by the factor belonging to tol; if a ball of points with profit above tau and margin is in the starting ball, the run reports profit above tau within 2n(n+1) ln(R/r) + 1 calls.", "quantifier": "every parameter set, starting ball, option set", "why_tests_cant": "All market data; transcendental constraint.", "anchors": ["src/ellpy/cutting_plane.py:cutting_plane_dc", "src/ellpy/ell.py:ell", "src/ellpy/oracles/profit_oracle.py"]}
{"id": "C75", "title": "least-squares fitting with dc + ell + lsq_oracle", "statement": "Unless it is still the initial one, the returned value is the last entry of the returned point, which is strictly feasible (sum y_k F_k positive definite, value above the squared spectral norm of the misfit); status other than success means no point with slack sqrt(tol) is better by sqrt(tol); with a ball of slack points of value below tau the run reports a value below tau within 2n(n+1) ln(R/r) + 1 calls.", "quantifier": "every size, matrices, starting ball, earlier oracle state, option set", "why_tests_cant": "All data; ties driver, ellipsoid, qmi oracle, lmi0 oracle and factorisation together.", "anchors": ["src/ellpy/cutting_plane.py:cutting_plane_dc", "src/ellpy/ell.py:ell", "src/ellpy/oracles/lsq_corr_oracle.py", "src/ellpy/oracles/qmi_oracle.py", "src/ellpy/oracles/lmi0_oracle.py"]}
{"id": "C76", "title": "the tolerance of feas is relative to the scale of the cuts", "statement": "On a feasible set covering half of the starting ball, a correct oracle whose gradients have length eps is answered 'not feasible, smallenough' in the first iteration when (R eps)^2 < tol, and 'feasible' in the second otherwise: rescaling the cuts by a positive factor changes the verdict.", "quantifier": "every dimension, radius, tolerance, gradient scale, iteration limit", "why_tests_cant": "Exact threshold for all scales.", "anchors": ["src/ellpy/cutting_plane.py:cutting_plane_feas (71-73)", "src/ellpy/ell.py:ell.update_core (134)"]}
{"id": "C77", "title": "spectral_fact: magnitude response and round trip", "statement": "spectral_fact raises ValueError on an empty r and never otherwise. For every r of length n >= 1, h = spectral_fact(r) is real (the np.real calls drop nothing) and |H(e^{jw})|^2 = |R(w)| at each grid frequency w = 2 pi k/n with R(w) != 0. If R > 0 on the grid, r' = inverse_spectral_fact(h) has r'[0] = r[0] and r'[t] + r'[n-t] = r[t] + r[n-t]; for n = 2 the round trip is exact.", "quantifier": "every length, every coefficient vector", "why_tests_cant": "Continuum of inputs; relies on symmetry of the discrete Hilbert transform (sign and masking of FFT entries).", "anchors": ["src/ellpy/oracles/spectral_fact.py:spectral_fact (5-59), inverse_spectral_fact (62-75)"]}
{"id": "C78", "title": "spectral_fact recovers the minimum-phase response", "statement": "If h0 has all zeros of H(z) = sum h0[j] z^-j in |z| <= rho < 1 and h0[0] > 0, then spectral_fact(inverse_spectral_fact(h0)) differs from h0 in each entry by at most (sum|h0|)(n-1)(2/(50n)) rho^(50n)/(1-rho); for h0[0] < 0 it is near -h0. (So the result is minimum phase, not its time reversal.)", "quantifier": "every length, every minimum-phase filter", "why_tests_cant": "Error bound over a continuum; analytic statement about log, FFT and aliasing.", "anchors": ["src/ellpy/oracles/spectral_fact.py:spectral_fact (5-59)"]}
{"id": "C79", "title": "van der Corput sequence", "statement": "vdc(k, base) with k >= 0 and base >= 2 returns the radical inverse sum d_i base^-(i+1) of the digits d_i of k, in [0,1); different indices give different values, and among any base^m consecutive indices exactly one value falls in each interval [a/base^m, (a+1)/base^m). For a negative index, or base 1 and a nonzero index, it never returns. For base 0 and a nonzero index it raises ZeroDivisionError.", "quantifier": "every base, index, resolution m, interval, window", "why_tests_cant": "All windows of all lengths; non-termination is not observable.", "anchors": ["src/ellpy/oracles/low_discr_seq.tpy:vdc (7-26)", "src/ellpy/oracles/vdcorput.tpy"]}
{"id": "C80", "title": "Halton sequences", "statement": "With pairwise coprime bases, among any prod b_i^m_i consecutive points of halton_n exactly one lies in each box with sides [a_i/b_i^m_i, (a_i+1)/b_i^m_i), wherever the sequence was started; reseed(s) on a new generator equals s calls; with fewer than n bases the constructor raises IndexError and otherwise starts n generators at 0.", "quantifier": "every dimension, coprime bases, resolutions, boxes, seeds", "why_tests_cant": "All windows and boxes; Chinese remainder argument.", "anchors": ["src/ellpy/oracles/low_discr_seq.tpy:halton (52-70), halton_n (179-204)", "src/ellpy/oracles/halton_n.tpy"]}
{"id": "C81", "title": "points on spheres", "statement": "circle, sphere and sphere3_hopf return points of norm 1, and their square roots never raise, for all generator values in [0,1). circle maps [0,1) one to one onto the unit circle; sphere reaches every point but the north pole, off the south pole from one pair of values only, with height 2v-1; sphere3_hopf reaches every point off the circle x2 = x3 = 0.", "quantifier": "every generator value", "why_tests_cant": "Continuum.", "anchors": ["src/ellpy/oracles/low_discr_seq.tpy:circle (72-102), sphere (104-136), sphere3_hopf (138-177)"]}
{"id": "C82", "title": "two-sided LMI oracle", "statement": "lmi2_oracle (0 <= F x <= U): never raises, accepts exactly when both matrices are positive definite, and otherwise its parallel cut (g,(f,fj)) has f >= 0 and contains every feasible z between its two hyperplanes: -fj <= g.(z-x) <= -f.", "quantifier": "every size, symmetric data, point, earlier state of the factoriser", "why_tests_cant": "All matrices and all feasible points.", "anchors": ["src/ellpy/oracles/lmi2_oracle.tpy:lmi2_oracle (9-51)"]}
{"id": "C83", "title": "reversed LMI oracle", "statement": "lmi3_oracle (B <= F x): never raises, accepts exactly when F x - B is positive definite, and otherwise its cut is deep (f >= 0) and valid for every feasible z, strictly for strictly feasible z, with margin lam for slack lam.", "quantifier": "every size, symmetric data, point, earlier state of the factoriser", "why_tests_cant": "All matrices and all feasible points.", "anchors": ["src/ellpy/oracles/lmi3_oracle.tpy:lmi3_oracle (9-40)"]}
{"id": "C84", "title": "square-root Cholesky (Cython)", "statement": "cholutil.factor never divides by zero nor takes the root of a negative number; is_spd decides positive definiteness; if positive definite R'R = A with positive diagonal; otherwise witness returns v, f with v'A[:p,:p]v = -f, f in {0,1}, v nonzero; sym_quad is the quadratic form.", "quantifier": "every size, symmetric matrix, lazy entry supplier, earlier state", "why_tests_cant": "All matrices.", "anchors": ["src/ellpy/oracles/cholutil.pyx:cholutil (17-128)"]}
{"id": "C85", "title": "qmi_c_oracle", "statement": "At every point with t I - F(x)F(x)' positive definite the call raises AssertionError (factor returns None, so acceptance is impossible); at every other point it returns a cut valid for all z with F(z)F(z)' <= t I, for matrices of every shape.", "quantifier": "every size, shape, data, point, earlier state", "why_tests_cant": "All matrices and points.", "anchors": ["src/ellpy/oracles/qmi_c_oracle.tpy:qmi_c_oracle (7-54)", "src/ellpy/oracles/cholutil.pyx"]}
{"id": "C86", "title": "spectral_fact on every positive spectrum", "statement": "For every r of length n >= 1 with R(w) > 0 at all frequencies there is a minimum-phase h0 with |H0|^2 = R everywhere, and h = spectral_fact(r) equals h0 up to an error decaying like rho^(50n); so |H(e^{jw})|^2 is within an explicit bound of R(w) at every frequency, not only on the FFT grid.", "quantifier": "every length, every coefficient vector with positive spectrum, every frequency", "why_tests_cant": "Continuum; needs existence of the spectral factor (Fejer-Riesz).", "anchors": ["src/ellpy/oracles/spectral_fact.py:spectral_fact (5-59)"]}
{"id": "C87", "title": "create_2d_sites", "statement": "For nx*ny > 0 create_2d_sites returns exactly nx*ny pairwise distinct points in [0,10)x[0,8), spread so that any 2^m*3^l consecutive points hit every cell of the 2^m by 3^l grid exactly once; for nx*ny <= 0 it raises ValueError.", "quantifier": "all integers nx, ny; all resolutions", "why_tests_cant": "All sizes; distinctness is what makes the kernel matrix factorisable.", "anchors": ["src/ellpy/oracles/corr_oracle.py:create_2d_sites (11-25)"]}
{"id": "C88", "title": "create_2d_isotropic", "statement": "The kernel matrix is exp(-0.12 d^2), positive definite exactly when the sites are distinct, so the Cholesky step raises exactly when two sites coincide; the result Y is symmetric positive semidefinite for every noise, and its expectation is 4 exp(-0.12 d_ij^2) + 1e-10 [i=j].", "quantifier": "every number of sites, dimension, N >= 1, every noise sample / every noise law with white second moments", "why_tests_cant": "Continuum; expectation over a random law; positive definiteness of the Gaussian kernel is a theorem of analysis.", "anchors": ["src/ellpy/oracles/corr_oracle.py:create_2d_isotropic (28-62)"]}
{"id": "C89", "title": "low-pass design run end to end", "statement": "cutting_plane_dc(lowpass_oracle, ell, t0): a recorded point meets the whole band specification at the returned level and attains it on a stopband row; stopping by itself certifies that no design in the initial ellipsoid meets the specification at that level with room sqrt(tol); and if a ball of radius r of designs with room exists at level tau, the level drops below tau within 2n(n+1)ln(R/r)+1 oracle calls.", "quantifier": "every dimension, band matrices, bounds, counter states, ellipsoids, options", "why_tests_cant": "All runs of arbitrary length; quantifies over all competing designs.", "anchors": ["src/ellpy/oracles/lowpass_oracle.py:__call__ (44-126)", "src/ellpy/cutting_plane.py:cutting_plane_dc", "src/ellpy/ell.py:update"]}
{"id": "C90", "title": "error of frequency sampling", "statement": "If the spectrum of n autocorrelation coefficients is sampled at m equispaced points of [0,pi] and c = ((n-1)pi/(m-1))^2/8 < 1, then a bound G on the samples gives the bound G/(1-c) at all frequencies, and between neighbouring samples the spectrum leaves their range by at most G c/(1-c).", "quantifier": "every n, m, coefficient vector, frequency", "why_tests_cant": "Continuum of frequencies; needs Bernstein's inequality.", "anchors": ["tests/test_lowpass.py:create_lowpass_case (72-79)", "src/ellpy/oracles/lowpass_oracle.py:lowpass_oracle (13-126)"]}
{"id": "C91", "title": "create_lowpass_case and the designed filter", "statement": "create_lowpass_case(N) succeeds for every N >= 1, its three matrices cover all 15N grid frequencies exactly as the specification says; a design found by the run meets the specification at every frequency up to G/181, and with samples above G/181 spectral_fact realises it; without that room a design can meet the grid specification and have a negative spectrum.", "quantifier": "every N, run, frequency", "why_tests_cant": "Continuum of frequencies; all N.", "anchors": ["tests/test_lowpass.py:create_lowpass_case (51-107)", "src/ellpy/oracles/lowpass_oracle.py", "src/ellpy/oracles/spectral_fact.py"]}
{"id": "C92", "title": "accuracy of cutting_plane_dc + ell on convex programs", "statement": "For convex f, h and any oracle whose cut is a minorant of max(h, f - t'): the returned value is the initial one or f at a feasible point; stopping by itself certifies that no point of the initial ellipsoid with h <= -delta has f <= t - delta (tol <= delta^2); and under a Slater ball of radius rho the value is within epsilon of every feasible point of the initial ball once max_it exceeds 2n(n+1) ln(R/(theta rho)), with theta explicit in epsilon.", "quantifier": "every dimension n >= 2, convex program, oracle meeting the contract, initial ball, options", "why_tests_cant": "All programs and all run lengths; optimality quantifies over all feasible points.", "anchors": ["src/ellpy/cutting_plane.py:cutting_plane_dc (77-112)", "src/ellpy/ell.py:update", "src/ellpy/problem.py:_solve"]}
{"id": "C93", "title": "Chebyshev FIR design end to end", "statement": "The oracle of test_firfilter never fails when there is at least one frequency (and raises UnboundLocalError when there is none), improves the level exactly when the worst squared error is below t, and its cut is a subgradient inequality of the worst error; Problem.solve with status other than infeasible returns the worst error of the returned filter, 'optimal' certifies it up to sqrt(tol) against all filters of the initial ball, and max_it > 2n(n+1) ln(2Q/eps), Q = (sqrt(n) R + B)^2, guarantees accuracy eps.", "quantifier": "every n >= 2, number of frequencies, desired response, start level, options", "why_tests_cant": "All responses and filters; continuum of competitors.", "anchors": ["tests/test_firfilter.py:my_oracle (54-82)", "src/ellpy/problem.py:_solve (101-151)", "src/ellpy/cutting_plane.py:cutting_plane_dc"]}
{"id": "C94", "title": "optimal matrix scaling end to end", "statement": "cutting_plane_dc(optscaling_oracle, ell, t0) on the logarithms of the matrix: a recorded point admits potentials scaling every entry into its window and the returned level is the log ratio; stopping by itself certifies that no scaling in the initial ellipsoid beats it by 3 sqrt(tol); max_it > 12 ln(R/r) guarantees a level within 7r of every feasible window whose shifted ball lies in the initial one.", "quantifier": "every graph without loops, costs, cycle finder meeting its contract, initial ball, start level, dual values", "why_tests_cant": "All graphs and run lengths; optimality quantifies over all windows.", "anchors": ["src/ellpy/oracles/optscaling_oracle.py:__call__ (71-94)", "src/ellpy/oracles/network_oracle.py:__call__ (39-64)", "src/ellpy/cutting_plane.py:cutting_plane_dc"]}
{"id": "C95", "title": "maximum likelihood covariance fit end to end", "statement": "cutting_plane_dc(mle_oracle(Sig, Y), ell, t0), t0 possibly inf: the negative log likelihood is convex on 0 < Omega <= 2Y; the returned level is the initial one or the likelihood at a point with 0 < Omega <= 2Y; stopping by itself certifies near-optimality against all points with matrix margin delta (tol <= delta^2); and with an interior ball the level is within epsilon of every admissible point once max_it exceeds 2n(n+1) ln(R/(theta rho)).", "quantifier": "every dimension n >= 2, matrix size, symmetric data, earlier state of the factorisers, options", "why_tests_cant": "All data and competing covariances; convexity on the matrix interval.", "anchors": ["src/ellpy/oracles/mle_corr_oracle.py:mle_oracle (14-69)", "src/ellpy/oracles/corr_oracle.py:mle_corr_poly", "src/ellpy/cutting_plane.py:cutting_plane_dc"]}
{"id": "C96", "title": "binary search over a feasibility oracle and an ellipsoid", "statement": "bsearch(bsearch_adaptor(P, ell(R^2, x)), [lo, up]): every probe starts from the final centre of the previous one. A probe answers True whenever a ball of radius r inside the ball about its starting centre satisfies the constraints with margin delta (tol <= delta^2, max_it > 2n(n+1) ln(R/r)); True means the centre array holds an accepted point; a False level has no such ball. The returned u is up or attained at some point; the other end of the final bracket, at distance (up-lo)/2^k, is lo or rejected; x_best attains u if the last probe was accepted, and may violate even the initial level otherwise. Instance: lsq_corr_core with qmi_oracle.", "quantifier": "every dimension n >= 2, oracle with a level meeting the contract, earlier state of use, bracket, options", "why_tests_cant": "All runs of nested loops over an aliased object; quantifies over all balls and points.", "anchors": ["src/ellpy/cutting_plane.py:bsearch (156-190)", "src/ellpy/cutting_plane.py:bsearch_adaptor (193-231)", "src/ellpy/oracles/qmi_oracle.py:qmi_oracle (69-99)", "src/ellpy/ell.py:copy (56-67)", "tests/test_corr_fn.py:lsq_corr_core (54-60)"]}
{"id": "C97", "title": "csdigit.m: canonical signed digits with range and resolution", "statement": "csdigit(num, range, resolution) stops with 'Insufficient precision' iff 0 < |num| 2^res < 1, with 'too large' iff floor(|num| 2^res) > 2^(range+res); otherwise its while loop terminates and the string denotes num truncated toward zero to res binary places, is canonical (no two adjacent nonzero digits) and of least weight; pos and neg are the values of the + and of the - digits; err = num - (pos - neg), |err| < 2^-res, and the precision warning appears iff err != 0; there are exactly res digits after the point, at least range before, and the overflow warning appears iff 3 floor(|num| 2^res) > 2^(range+res+1). csdigit(num) with the default range gives neither error nor overflow for |num| >= 1.", "quantifier": "every num in an ordered field, every range, resolution >= 0", "why_tests_cant": "A loop over all binary strings with a growing digit array; minimality quantifies over all digit strings; boundary at 2/3 of the range.", "anchors": ["src/csdigit.m:csdigit (1-115)"]}
{"id": "C98", "title": "quasi-convex programs end to end", "statement": "For every oracle whose cuts are valid for all points with room at the current level: the returned level is the initial one or attained at the recorded point, stopping by itself certifies that no point of the initial ellipsoid has room sqrt(tol) at the returned level, and if a ball of points with room exists the level is beaten within 2n(n+1)ln(R/r)+1 calls. For the oracles of test_quasicvx and test_quasicvx2 (start level >= 0, resp. <= 0): the recorded point is feasible with that value, and with default options the returned value is within 5e-4 of the optimum of max sqrt(x)/y, resp. min -sqrt(x)/y; from a negative start level the first oracle cuts off better points.", "quantifier": "every quasi-convex oracle meeting the contract, dimension, ellipsoid, options; both test programs", "why_tests_cant": "All runs; continuum of competing points; real exponentials.", "anchors": ["tests/test_quasicvx.py:my_quasicvx_oracle (14-44)", "tests/test_quasicvx2.py:my_quasicvx_oracle (14-48)", "src/ellpy/cutting_plane.py:cutting_plane_dc (77-112)", "src/ellpy/ell.py:update (105-147)"]}
{"id": "C99", "title": "when a run on an ellipsoid can raise", "statement": "cutting_plane_feas and cutting_plane_dc on an ell of dimension n >= 2 with positive definite shape, max_it >= 1, tol > 0 and an oracle that answers with nonzero gradients and beta >= 0: the run returns, or divides by zero in a round in which the ellipsoid has collapsed to one point because the cut of the round before was exactly tangent (beta^2 = tsq). Both happen: a concrete run collapses after one cut and divides by zero in the second.", "quantifier": "every dimension, ellipsoid, oracle, start level, options", "why_tests_cant": "All runs of arbitrary length; the failing case has measure zero.", "anchors": ["src/ellpy/cutting_plane.py:cutting_plane_feas (32-74)", "src/ellpy/cutting_plane.py:cutting_plane_dc (77-112)", "src/ellpy/ell.py:update (105-147)", "src/ellpy/ell.py:_calc_dc (221-254)"]}
{"id": "C100", "title": "the linear test programs end to end", "statement": "test_example2: cutting_plane_feas with my_oracle2 from ell(10, (0,0)) raises nothing and reports feasible/success after at most 12 iterations with a centre satisfying x+y<=3, x-y>=1; from (100,100) it stops in the first iteration with nosoln, for all options. test_example1: every run that returns has t = t0 and feasible False, or t > t0, feasible True and t = x+y at a feasible point (so t <= 3); from t0 >= 3 it is infeasible for all ellipsoids and options; max_it > 12 ln(R/r) guarantees t > 3-6r, in particular t > 2.9994 with the default options; x_best is the last point queried and may violate the constraints.", "quantifier": "all options; all ellipsoids and start levels for example1", "why_tests_cant": "The bound on the iterations and the optimality hold for the algorithm, not for one recorded run; all options.", "anchors": ["tests/test_example1.py:my_oracle (32-52)", "tests/test_example2.py:my_oracle2 (10-29)", "src/ellpy/cutting_plane.py:cutting_plane_feas (32-74)", "src/ellpy/cutting_plane.py:cutting_plane_dc (77-112)"]}
{"id": "C101", "title": "semidefinite programs end to end", "statement": "The oracle of test_lmi (two linear matrix inequalities and a linear objective) with arbitrary symmetric data: runs with lmi_oracle and lmi_old_oracle are identical in results, iteration count and exceptions; the returned level is the initial one or the objective at the returned point, which satisfies both inequalities; stopping by itself certifies near-optimality against all points with matrix margin delta (tol <= delta^2); with an interior ball the level is within epsilon of every feasible point once max_it exceeds 2n(n+1) ln(R/(theta rho)). For the data, start and default options of the test: feasible is True and the returned point is feasible with -3.15355 <= c'x < -3.1528, an interval containing the optimum (dual certificate).", "quantifier": "every dimension n >= 2, both matrix sizes, symmetric data, earlier state of the factorisers, start level, options", "why_tests_cant": "All data and competing points; a benchmark test fixes one run and only the iteration count.", "anchors": ["tests/test_lmi.py:my_oracle (15-67)", "tests/test_lmi.py:run_lmi (70-92)", "src/ellpy/oracles/lmi_oracle.py:__call__ (33-52)", "src/ellpy/oracles/lmi_old_oracle.py:__call__ (34-50)", "src/ellpy/cutting_plane.py:cutting_plane_dc (77-112)"]}
{"id": "C102", "title": "accuracy of the maximum cycle ratio search", "statement": "cutting_plane_dc(cycle_ratio_oracle(G, dist), ell1d(...), t0): if every edge takes time at least s0 in (0,1], tol <= (s0 eps)^2, the interval length is below eps 2^max_it and two feasible ratios eps apart lie in the interval, then the run returns a feasible ratio above t0 and no feasible ratio of the interval exceeds it by eps. For the two test graphs the feasible ratios are exactly those up to 9/5, resp. 1, and with the options of the tests the returned r satisfies 9/5-1e-6 < r <= 9/5, resp. 1-1e-6 < r <= 1.", "quantifier": "every graph, cost, time, finder meeting its contract, ordered field, interval, options", "why_tests_cant": "Negative cycle detection over all graphs nested in all runs; the tests compare one float run with approx.", "anchors": ["src/ellpy/oracles/cycle_ratio_oracle.py:__call__", "src/ellpy/ell.py:ell1d.update (308-350)", "src/ellpy/cutting_plane.py:cutting_plane_dc (77-112)", "tests/test_cycle_ratio.py:test_cycle_ratio (60-76)", "tests/test_cycle_ratio.py:test_cycle_ratio_timing (79-102)"]}
{"id": "C103", "title": "optimal scaling from the start of the test", "statement": "cutting_plane_dc(optscaling_oracle(G), ell(val, (cmax, cmin)), inf): every run that returns is feasible, its point admits a scaling and its value is at most cmax - cmin; when an edge and its reverse have the same cost the value is nonnegative; the run returns or divides by zero after an exactly tangent cut. ell(1.5*t, x0) uses 1.5*t as the squared radius: for a spread t = cmax - cmin > 3 there are graphs whose initial disc contains no optimum: every point of it has a value of at least t - sqrt(3t) > 0 although the optimum is 0.", "quantifier": "every graph without self-loops, cost, finder meeting its contract, ellipsoid centred at (cmax, cmin), options", "why_tests_cant": "All graphs and runs; the test fixes one random graph.", "anchors": ["src/ellpy/oracles/optscaling_oracle.py:__call__", "tests/test_optscaling.py:test_optscaling", "src/ellpy/ell.py:__init__ (29-54)", "src/ellpy/cutting_plane.py:cutting_plane_dc (77-112)"]}
{"id": "C104", "title": "profit maximisation end to end, with accuracy", "statement": "cutting_plane_dc with profit_oracle or profit_rb_oracle from any ellipsoid and start level >= 0: for every competitor z within the limit(s) with (guaranteed) profit s and cost C near which a small disc lies in the ellipsoid, the returned value exceeds s e^-kappa - C (e^r - e^-kappa), kappa = delta + |a0|(2r+delta) + |a1| r, once tol <= delta^2 and max_it > 3 ln(vol^2/r^4); when the limit is binding the run returns or divides by zero after an exactly tangent cut. test_profit: the run is feasible, its point respects the limit and has profit t, no quantities within the limit earn t + 0.8, 3403.9 < t < 3404.8. test_profit_rb: the same for guaranteed profits, 2792.3 < t < 2793.2.", "quantifier": "all data, uncertainty, start ellipsoid, options, competitors", "why_tests_cant": "All runs and a continuum of competing points and of perturbed data; the tests check only the flag and one iteration count.", "anchors": ["src/ellpy/oracles/profit_oracle.py:profit_oracle (7-73)", "src/ellpy/oracles/profit_oracle.py:profit_rb_oracle (76-135)", "tests/test_profit.py:test_profit (20-25)", "tests/test_profit.py:test_profit_rb (28-36)", "src/ellpy/cutting_plane.py:cutting_plane_dc (77-112)", "src/ellpy/ell.py:__init__ (24-54)"]}
{"id": "C105", "title": "discrete profit maximisation: what a run guarantees", "statement": "cutting_plane_q(profit_q_oracle(...), E, t0), t0 >= 0: every run that returns either found nothing (t = t0, feasible False) or returns positive integer quantities within the limit whose profit is t > t0 (feasible True); t is at least the profit at the rounded initial centre if that is within the limit. test_profit_q: feasible, integers with x1 <= 30, 755 <= t < 3404.8, for all options. Optimality fails: with p A = 100, k = 2.5, ell(0.09, (log 2.6, 0)) the run ends at once with nosoln although integer quantities within the limit with profit 97 lie in the disc.", "quantifier": "all data, ellipsoids, options", "why_tests_cant": "All runs with retries; the failure needs a particular position of the centre.", "anchors": ["src/ellpy/oracles/profit_oracle.py:profit_q_oracle (138-200)", "src/ellpy/cutting_plane.py:cutting_plane_q (115-153)", "tests/test_profit.py:test_profit_q (39-45)"]}
{"id": "C106", "title": "runs on an ellipsoid with arbitrary cuts: what must happen before an exception", "statement": "All three drivers (feasibility, optimisation, discrete optimisation) on an ellipsoid of full dimension with scalar or parallel cuts, max_it >= 1 and an oracle that answers: the run returns unless some round meets a critical cut, i.e. a zero gradient, an empty right-hand side, a plane exactly tangent to the ellipsoid, two equal planes, or one of the two divisions by zero of ell.py. A cut that is not critical is answered and leaves an ellipsoid of full dimension. For lowpass_oracle only two of these remain: the first plane exactly touches the ellipsoid, or the level has reached 0. The second one is real: started at the perfect filter (1/2, 1/4) the run divides zero by zero for all options and radii.", "quantifier": "all oracles, ellipsoids, options; all low-pass problems with Lpsq < Upsq and nonzero rows", "why_tests_cant": "Absence of exceptions over all runs; the exceptional cuts are exact coincidences that random tests do not hit.", "anchors": ["src/ellpy/ell.py:update, _calc_ll, _calc_dc (105-267)", "src/ellpy/cutting_plane.py:cutting_plane_feas (32-74)", "src/ellpy/cutting_plane.py:cutting_plane_dc (77-112)", "src/ellpy/cutting_plane.py:cutting_plane_q (115-153)", "src/ellpy/oracles/lowpass_oracle.py:__call__"]}
{"id": "C107", "title": "low-pass designs with signed-digit coefficients, whole runs", "statement": "cutting_plane_q(csdlowpass_oracle(nnz, P), E, t0), nnz >= 1, t0 >= 0, any spectral factorisation: every run that returns either found nothing (t = t0, feasible False) or returns the autocorrelation of taps with at most nnz nonzero signed digits each, meeting the whole specification at level t <= t0 and attaining t on a stopband row; feasible iff t < t0. On an ellipsoid of full dimension it returns unless a cut is critical (C106); the oracle itself never raises, since retry is asked only after a point has been stored. For create_csdlowpass_case(N, nnz): the squared magnitude of the quantised filter is within [1.025^-2, 1.025^2] on the sampled passband and at most t <= 1/64 on the sampled stopband, and between samples at most G/181 worse, G bounding the samples. run_lowpass (N >= 2, with or without parallel cuts) returns unless a plane exactly touches or the level 0 is reached.", "quantifier": "all N, nnz, spectral factorisations, ellipsoids, options", "why_tests_cant": "All runs with retries and all frequencies, for every number of taps and digits; the test checks one flag and an iteration count.", "anchors": ["src/ellpy/oracles/csdlowpass_oracle.py:__call__ (34-58)", "src/ellpy/cutting_plane.py:cutting_plane_q (115-153)", "tests/test_lowpass.py:create_csdlowpass_case (110-122)", "tests/test_lowpass.py:run_csdlowpass (172-205)", "tests/test_lowpass.py:run_lowpass (125-151)"]}
{"id": "C108", "title": "the fractional delay filter of the tests: exact optimum, verdict, exceptions", "statement": "For every delay D, grid of m >= 2 frequencies and filter length containing the nearest tap k, the smallest worst squared error is exactly sin^2(pi D), and the single tap cos(pi (D-k)) attains it. Problem.solve(t0 > 1) from any ellipsoid centred at 0, all options: if it returns, the status is optimal or feasible and sin^2(pi D) <= optim_value <= 1, optim_value being the error of optim_var; if the status is optimal it is within delta of the optimum when tol <= delta^2. test_firfilter (D = 8.25, n = 32, m = 480, ell(10, 0), both settings of no_defer_trick): optimum 1/2; status optimal implies 0.5 <= value < 0.5001. The run returns unless a cut is exactly tangent or an exactly optimal filter is found; started at the optimal tap it divides zero by zero.", "quantifier": "all delays, lengths, grids, ellipsoids, options", "why_tests_cant": "An optimum over all real filters and all runs; the test checks the status string and an iteration count.", "anchors": ["tests/test_firfilter.py:18-50", "tests/test_firfilter.py:my_oracle (54-80)", "tests/test_firfilter.py:run_firfilter (83-107)", "src/ellpy/problem.py:solve (60-151)", "src/ellpy/cutting_plane.py:cutting_plane_dc (77-112)"]}
{"id": "C109", "title": "Correlation fitting end to end (the three test drivers)", "statement": "`mle_corr_poly` and `lsq_corr_poly2` with the best point copied return a polynomial of degree below m whose correlation matrix is positive definite (and at most 2Y for the likelihood), near-optimal over every competitor with room when the iteration limit was not reached; keeping a reference instead of a copy changes nothing but the point returned, and then the returned polynomial can violate the constraint although the flag is True; `lsq_corr_poly` brackets the best squared spectral distance and the flag says whether anything below ||Y||^2 was found. On symmetric data that are not positive definite mle_corr_poly raises LinAlgError; without coefficients mle_corr_poly and lsq_corr_poly raise IndexError, with one coefficient ZeroDivisionError.", "quantifier": "all data matrices, sites, numbers of coefficients, options", "why_tests_cant": "a test runs one data set and only looks at the flag; the guarantee about the returned polynomial concerns every data set and compares with every competitor", "anchors": ["tests/test_corr_fn.py:17-113", "src/ellpy/oracles/corr_oracle.py:97-122", "src/ellpy/oracles/mle_corr_oracle.py", "src/ellpy/oracles/lsq_corr_oracle.py", "src/ellpy/cutting_plane.py:77-118"]}
{"id": "C110", "title": "Signed-digit conversion in floating point", "statement": "Run in floating point, with every product, difference, halving and quotient rounded, to_csd still returns a legal string whose value differs from the number by less than 2^-places; if the number is a multiple of 2^-places the value is exactly the number, and to_decimal reads a string no longer than the precision without any rounding error, so the round trip is the identity. to_csdfixed ends, uses at most nnz nonzero digits and errs by at most |v|/2^nnz (or 1e-100). Numbers with at most two bits less than the full precision get exactly the string of exact arithmetic; for others the canonical form can be lost: to_csd(6004799503160662) starts with two adjacent '+'.", "quantifier": "every precision of at least 2 bits, every monotone rounding exact on representable numbers (in particular IEEE round-to-nearest-even), every representable number, every number of places, every budget, every outcome of the computed logarithm that is not too small", "why_tests_cant": "tests convert a few short decimals; whether rounding errors pile up over the digits, and for which inputs the canonical form breaks, concerns all doubles at once", "anchors": ["src/pycsd/csd/csd.py:22-82", "src/pycsd/csd/csd.py:85-108", "src/pycsd/csd/csd.py:145-188"]}
{"id": "C111", "title": "The fitted spline correlation function", "statement": "generate_bspline_info raises ValueError exactly for one or two basis splines or coinciding first and last sites; otherwise its matrices are symmetric, add up to the all-ones matrix and have the diagonal entries 9/2, -11/2, 2, 0, ... because distance 0 is extrapolated. corr_bspline returns the spline with the solver's coefficients, and at the distance of any two sites it takes the value of the fitted matrix. Non-increasing coefficients make the fitted function non-increasing on the base interval [t2, tm], with values between the last and the first coefficient; on the whole span of the knots, distance 0 included, it is non-increasing exactly if also 3(c0-c1) >= 2(c1-c2) and the mirrored condition holds at the other end. So the monotonicity oracle alone does not give a monotone correlation function near distance 0, and with mle_oracle it leaves the last coefficient unchecked.", "quantifier": "every set of sites, every number of basis splines, every coefficient vector, every pair of distances, every solver and oracle passed in", "why_tests_cant": "tests compare iteration counts; that the fitted function is monotone is a statement about all pairs of distances and all coefficient vectors the solver may return", "anchors": ["src/ellpy/oracles/corr_bspline_oracle.py:70-87", "src/ellpy/oracles/corr_bspline_oracle.py:90-113", "src/ellpy/oracles/corr_bspline_oracle.py:11-67"]}
{"id": "C112", "title": "The spline correlation fits end to end", "statement": "A run of lsq_corr_bspline2 that returns always reports feasible and has at least three basis splines and different first and last sites. Its coefficients are non-increasing, the fitted function is non-increasing on the base interval, the fitted covariance matrix is positive definite, and there is a level u bounding the spectrum of Y minus the fitted matrix such that, if the run did not use up its iterations, no non-increasing coefficient vector of the start ellipsoid with a margin lam (lam squared at least the tolerance) has a level tau with tau + lam <= u. On symmetric data that are not positive definite mle_corr_bspline raises LinAlgError. A run of mle_corr_bspline that returns has positive definite fitted covariance below 2Y, coefficients non-increasing except possibly the last one, and a negative log-likelihood less than delta above that of every strictly feasible coefficient vector of margin delta in the start ball.", "quantifier": "every symmetric sample covariance matrix, every set of sites, every number of basis splines, every iteration limit and tolerance, every competing coefficient vector", "why_tests_cant": "the tests compare iteration counts of one random data set; optimality against all competing coefficient vectors is not observable in a run", "anchors": ["tests/test_corr_bspline_fn.tpy:18-92", "src/ellpy/oracles/corr_bspline_oracle.py:33-87"]}
{"id": "C113", "title": "Binary search under floating-point rounding", "statement": "With every operation of bsearch rounded to a nearest p-bit float: all evaluations are at floats inside the interval; the returned end is accepted and the other end rejected; each round halves the bracket up to rounding; smallenough means the bracket is narrower than 2 tol; a tolerance above the rounding error of the larger end is reached in the expected number of rounds. The search gets stuck only when no float is left between the ends, and for a monotone predicate on a positive interval it then returns the least accepted float, after at most n + p + 1 rounds where (7/8)^n up <= 2 lo. A tolerance below the float spacing at the lower end (the default 1e-8 from about 2e8 on) is never reached: all max_it evaluations are made and success is reported. Integer search also goes through floats: up to 2^(p-1) it equals the exact search, above 2^p it can return a wrong integer.", "quantifier": "every precision, every rounding to nearest, every pair of float or integer ends, every oracle, every tolerance and iteration limit", "why_tests_cant": "tests run a few intervals; the claims are about every rounding sequence and about numbers near the precision limit", "anchors": ["src/ellpy/cutting_plane.py:156-190"]}
{"id": "C114", "title": "Cholesky test under floating-point rounding", "statement": "With every operation of chol_ext.factor and chol_ext.witness rounded (relative error u per operation, relative error gamma per dot product whatever its order of summation, theta = 3u + 2 gamma), factor raises nothing and its verdict is right up to perturbations of size theta relative to the diagonal: a symmetric matrix accepted with the default setting has x'Ax > -(5/4) theta (sum rho_i |x_i|)^2 for every nonzero x (rho_i^2 >= a_ii); after a rejection witness succeeds, the vector v it computes ends in 1, v'Av <= 3 theta (sum rho_i |v_i|)^2 and v'Av = -ep up to 5 theta ((sum rho_i |v_i|)^2 + ep), so the cut it yields holds for every positive semidefinite matrix up to that slack. Hence a matrix positive definite with that margin is accepted and one indefinite by that margin is rejected; for p-bit rounding to nearest with left-to-right summation theta = (4n+7)/2^p. Without a margin the verdict can be wrong both ways even for 2x2 matrices of doubles.", "quantifier": "all sizes n, all symmetric matrices, all contents of the storage, all roundings meeting the error bounds (every rounding to nearest with p bits, any tie rule), all getA callables serving the matrix row by row", "why_tests_cant": "Rounding errors depend on the values; a test sees a few matrices and usually a comparison with allclose, it cannot bound the error over all matrices and sizes.", "anchors": ["src/ellpy/oracles/chol_ext.py:50-105"]}
{"id": "C115", "title": "Linear matrix inequality oracles under floating-point rounding", "statement": "With every operation rounded (relative error u per operation, gamma per dot product in any order of summation, theta = 3u + 2 gamma, eta with (1+u)^(k+2) <= 1+eta for k matrices), lmi_oracle never raises on symmetric data whatever the earlier state of the object. If it accepts x then y'(B - sum x_q F_q)y > -((5/4) theta (sum rho_i |y_i|)^2 + eta |y|'(|B| + sum |x_q||F_q|)|y|) for every nonzero y. If it returns a cut then ep >= 0, the matrix is not positive definite by more than such an error, and g'(z-x) + ep <= 5 theta ((sum rho_i |v_i|)^2 + ep) + eta |v|'(|B| + sum |x_q||F_q|)|v| + (2 gamma + gamma^2) sum_q |z_q - x_q| |v|'|F_q||v| for every feasible z. The same for lmi0_oracle; lmi_old_oracle returns bit for bit what lmi_oracle returns. For p-bit rounding to nearest and left-to-right sums theta = (4m+7)/2^p, eta = 2(k+2)/2^p: a point feasible with that margin is accepted, one infeasible by that margin is cut. Without rounding these are the oracles of C35 to C37.", "quantifier": "all m, k, symmetric F and B, all x, z, y, all earlier states of the factoriser, all roundings meeting the error bounds", "why_tests_cant": "Rounding errors depend on the data; a test compares a few cuts with allclose and cannot bound the error over all data and sizes.", "anchors": ["src/ellpy/oracles/lmi_oracle.py:33-52", "src/ellpy/oracles/lmi0_oracle.py:29-47", "src/ellpy/oracles/lmi_old_oracle.py:34-50", "src/ellpy/oracles/chol_ext.py:107-119"]}
{"id": "C116", "title": "Quadratic matrix inequality and least-squares oracles under floating-point rounding", "statement": "With every operation rounded as in C115, qmi_oracle after update(t) never raises on symmetric square data whatever the earlier state of the object. If it accepts x then t I - F(x)'F(x) is positive definite up to (5/4) theta (sum rho_i|y_i|)^2 + delta |y|'(|t| I + P'P)|y| with P = |F0| + sum |x_q||F_q| and (1+u)(1+gamma)(1+eta)^2 <= 1+delta. If it returns a cut then ep >= 0, the matrix is not positive definite by more than such an error, and the cut holds for every z with t I - F(z)'F(z) >= 0 up to 5 theta (...) + delta (...) + 2 zeta sum_q |z_q-x_q| |v F_q|.|P v|. lsq_oracle never raises; it either cuts for sum x_q F_q, or cuts for t I - F(x)'F(x) with the extra error gamma |v|^2 |z_last - x_last| in the last component, or both matrices are positive definite up to rounding and it reports t exactly when x_last <= t, and otherwise returns the objective cut with beta within the relative error u of x_last - t. For p-bit rounding to nearest and left-to-right sums delta = 2(2m+2k+7)/2^p: a point feasible with margin is accepted, one infeasible by that margin is cut. Without rounding these are the oracles of C38 and C39.", "quantifier": "all m, k, symmetric F, all F0, x, t, z, y, all earlier states of the cached rows and the factoriser, all roundings meeting the error bounds", "why_tests_cant": "Rounding errors depend on the data; a test compares a few cuts with allclose and cannot bound the error over all data and sizes.", "anchors": ["src/ellpy/oracles/qmi_oracle.py:49-99", "src/ellpy/oracles/gmi_oracle.py:35-52", "src/ellpy/oracles/lsq_corr_oracle.py:44-81"]}
{"id": "C117", "title": "An ellipsoid update under floating-point rounding", "statement": "With every operation of ell.update rounded (relative error u <= eps per operation, eps per dot product in any order of summation), let C bound the shape matrix against its own diagonal, (sum sqrt(Q_ii)|y_i|)^2 <= C^2 y'Qy. For a central or deep cut of depth 0 <= beta <= (1-b) sqrt(kappa g'Qg) with 1000 C^4 eps <= b^2: the update succeeds without raising, the new matrix is again symmetric positive definite and kappa positive, the returned tsq is right up to the relative error 5 C^2 eps, and every point of the old ellipsoid that satisfies the cut lies in the new ellipsoid enlarged by the factor 1 + 350 C^4 eps / b^2 and shifted by at most u|xc|, under both settings of no_defer_trick. 'No solution' is reported only if no point of the ellipsoid satisfies the cut with the margin 7 C^2 eps sqrt(kappa g'Qg), and always if every point violates it by that margin. Whatever the rounding and the cut (parallel cuts included) the matrix stays exactly symmetric, and an update that does not report success changes nothing. For p-bit rounding to nearest and left-to-right sums eps = 2(n+1)/2^p. Without rounding it is the update of the real-number model. The condition on C cannot be dropped: in doubles one central cut turns a representable positive definite matrix into an indefinite one, and the next central cut reports success with tsq = 0. For a parallel cut with bounds 0 <= b0, b0 + theta tau <= b1 <= tau, tau = sqrt(kappa g'Qg), and 1e7 C^4 eps <= theta^4 the same holds, whatever use_parallel_cut, with the points between the two hyperplanes and the factor 1 + 5e5 C^4 eps / theta^4. The width theta cannot be dropped either: in doubles the central parallel cut 0 <= -x_0 <= 27/2^28 (about 1e-7) of the unit disc makes the matrix indefinite (sigma > 1 by cancellation in 1 - xi), and every central parallel cut of the unit disc of width 0 < b1 <= 2^-28 yields an ellipse of larger area than the disc.", "quantifier": "all n >= 2, all ellipsoids, gradients, depths, pairs of bounds, all roundings meeting the error bounds, all orders of summation", "why_tests_cant": "Rounding errors depend on the data and accumulate with the condition of the matrix; tests run well-conditioned examples and cannot bound the error, and they never reach the negative-tsq branch.", "anchors": ["src/ellpy/ell.py:105-147", "src/ellpy/ell.py:149-265"]}
{"id": "C118", "title": "Shape matrices of ell objects are private, whatever programs do with copies", "statement": "Take any program that creates, copies and updates any number of `ell` objects, assigns centres and flags, and writes into the arrays it holds, where both `_xc` and `_Q` are references to arrays in memory. (1) It returns or raises exactly as if every object held its matrix as a value. (2) The shape, the scale and the flags of an object change only when that object itself is updated or its flags are set: updating a copy never disturbs the shape of the original, and vice versa, for any number of copies of copies. (3) `copy` (dimension other than 1) yields an object with equal centre, shape, scale and flags. The centre, by contrast, is shared (C24).", "quantifier": "all finite programs over any number of objects, all initial memories, all dimensions", "why_tests_cant": "The number of interleavings of create/copy/update over several objects is infinite; a test looks at one program. Aliasing that shows only after a particular order of copies and updates is easily missed.", "anchors": ["src/ellpy/ell.py:24-67", "src/ellpy/ell.py:105-147"]}
{"id": "C119", "title": "The negative-cycle finder in floating point", "statement": "With additions rounded to p bits (any round-to-nearest), on any finite graph, weights and initial distances, find_neg_cycle never loops forever: it finishes within max(|V|,1) passes. If it returns [], the final distances satisfy dist[v] <= dist[u] + w + err for every edge, with err = |dist[u] + w| / 2^p, and no closed walk has weight below the negative of its summed err. If it returns a list, this is a simple cycle of the graph whose weight is at most its summed err. Otherwise it raises AssertionError, and then some simple cycle has weight zero up to its summed err. These allowances are needed: in double precision a cycle of positive weight can be returned, the assertion can fail on a cycle of negative weight, and a negative cycle can be missed.", "quantifier": "all finite graphs, all weights and initial distances, all precisions and roundings to nearest (termination: any monotone computed addition)", "why_tests_cant": "Rounded relaxation may have cycles whose computed weight differs in sign from the true weight; termination of the relaxation loop under rounding depends on every order in which rounded sums can fall, which no finite set of graphs exercises.", "anchors": ["src/ellpy/oracles/neg_cycle.tpy:31-150"]}
{"id": "C120", "title": "The van der Corput sequence in floating point", "statement": "vdc(k, base) computed with p significant bits (any round-to-nearest): for indices of at most L digits with (L+1)*base^L <= 2^p (doubles: base 2 below 2^47, base 3 below 3^30) one float is returned, it lies in [0,1) and differs from the radical inverse by less than (L+1)/2^p; with one bit to spare the computed values are in the same order as the radical inverses, so no value is repeated. In base 2 all indices below 2^p are computed without any error, and every index gives a value in [0,1]; 1.0 is attained (k = 2^54 - 1 in doubles). For generator values in [0,1] the computed arguments of all square roots of sphere and sphere3_hopf are in [0,1], so these never raise ValueError.", "quantifier": "every precision, every rounding to nearest, every base >= 2, every index in the stated range", "why_tests_cant": "All indices and bases; the range [0,1) and distinctness depend on how rounding errors accumulate over all digit patterns, and the index at which the range fails lies beyond any loop a test could run.", "anchors": ["src/ellpy/oracles/low_discr_seq.tpy:vdc (7-26), sphere (122-131), sphere3_hopf (151-171)"]}
{"id": "C121", "title": "Answers of whole floating-point runs satisfy the matrix inequalities up to rounding", "statement": "Run cutting_plane_feas with lmi_oracle or lmi0_oracle, or cutting_plane_dc with lsq_oracle, with every arithmetic operation of the oracle rounded, on any search space object (in particular an ell whose updates are rounded too). If feas returns feasible=True, the smallest eigenvalue of the matrix at the point S.xc it leaves is at least -(5/4 theta (1+eta) + eta) m M, where M bounds the entries of |B| + sum |x_q||F_q|; for p-bit rounding to nearest this is -(10m+2k+22)/2^p * m * M. If dc returns a point, the value returned is its last entry, is not worse than the initial t, and both matrix inequalities hold at it up to bounds of the same kind; otherwise the value returned is the one passed in.", "quantifier": "all symmetric data, all matrix sizes and numbers of parameters, all roundings with relative error u and all orders of summation within the stated bounds, all earlier states of the oracle, all search spaces (whatever their updates do), all initial values, tolerances and iteration limits", "why_tests_cant": "The rounding errors of a run depend on all its iterates; a test sees one platform's rounding on a few matrices and cannot bound the eigenvalue for all of them.", "anchors": ["src/ellpy/cutting_plane.py:32-112", "src/ellpy/oracles/lmi_oracle.py:29-52", "src/ellpy/oracles/lmi0_oracle.py:29-47", "src/ellpy/oracles/lsq_corr_oracle.py:44-81"]}
{"id": "C122", "title": "lowpass_oracle correct up to rounding errors", "statement": "lowpass_oracle with rounded dot products (error at most e(a) = gamma * sum |a_i x_i| for row a, any order of summation) and rounded differences (relative error u): a value s is reported only if x meets the specification at level s with every bound on row a loosened by e(a), 0 <= s <= Spsq, and s is the response of some stopband row up to e; if x meets the specification at level Spsq with every bound tightened by e(a), a value is reported; every cut is satisfied on both sides, up to e(g) and a relative 2u of the right-hand side, by every z meeting the exact specification at the level after the call, and with room delta less these errors if z meets it with room delta; a cut without a value is deep; the gradient is a row of the specification, its negative, or -e0. The design returned by cutting_plane_dc on any search space meets the specification at the level returned up to e(a) on every row.", "quantifier": "all matrices, bounds with Lpsq <= Upsq, nonempty stopband, all round-robin counters in range, all x, all Spsq >= 0, all roundings within the error model, all search spaces and iteration limits", "why_tests_cant": "Whether a borderline row is accepted depends on the rounding of the dot product; tests cannot enumerate designs, summation orders and rounding modes.", "anchors": ["src/ellpy/oracles/lowpass_oracle.py:44-126", "src/ellpy/cutting_plane.py:77-112"]}
{"id": "C123", "title": "Runs on an ellipsoid do not depend on the coordinates", "statement": "Let x' = A x + c be any affine change of variables (A need not be invertible), and let E' be the ellipsoid E written in the variables x' (centre A xc + c; kappa Q becomes A kappa Q A^T, however the scale is split between kappa and Q). Then update of E' with any cut (g, beta), and update of E with the same cut in the variables x, (A^T g, beta), raise the same exception or return the same status and the same tsq, and the new ellipsoids correspond again - also for parallel cuts, with either value of no_defer_trick and in degenerate states. Hence whole runs of cutting_plane_feas, cutting_plane_dc and cutting_plane_q on a problem and on the same problem in other variables correspond: same exception or same flag, status, number of iterations, best value and oracle state, with best points mapped by A x + c. For invertible A the point set of E' is the image of that of E. In particular ell(r, x) and ell([r, ..., r], x) (r nonzero) give the same runs, and ell([d_i^2], x) is the unit ball in the variables u with x_i + d_i u_i.", "quantifier": "all dimensions, matrices A, shifts c, ellipsoids, cuts (scalar and parallel, any flags), oracles with state, options, initial values; all executions of the three drivers", "why_tests_cant": "Tests compare particular runs for particular scalings; equality of whole runs for every change of variables and every oracle is a relational statement over all executions.", "anchors": ["src/ellpy/ell.py:24-54", "src/ellpy/ell.py:105-266", "src/ellpy/cutting_plane.py:32-74", "src/ellpy/cutting_plane.py:77-112", "src/ellpy/cutting_plane.py:115-153"]}
{"id": "C124", "title": "The generator function halton_n", "statement": "For 1 <= n <= len(b) and bases at least 2, list(halton_n(k, n, b)) terminates and consists of the max(k, 0) points of indices 0, ..., k-1, the coordinates of point i being the radical inverses of i in the first n bases (the docstring promises indices 0, ..., k); the inner generator never ends early, so no RuntimeError arises. The points are pairwise different, and with pairwise coprime bases any prod b_i^m_i consecutive points put exactly one into each box with sides [a_i/b_i^m_i, (a_i+1)/b_i^m_i). Point i+1 is what call i+1 of the class halton_n of low_discr_seq.tpy returns; point 0, which the class leaves out, is the origin. If n <= 0 or n > len(b) and k >= 1 the first next raises IndexError.", "quantifier": "all k, n, lists of bases, windows, resolutions and boxes", "why_tests_cant": "Nested generators driven through next: that all levels advance in step and end together holds by induction over the dimension; equidistribution speaks of all windows.", "anchors": ["src/ellpy/oracles/halton_n.tpy:6-25", "src/ellpy/oracles/vdcorput.tpy:4-37"]}
{"id": "C125", "title": "The table of primes", "statement": "prime_table has exactly 1000 entries and its entry i is the prime number with exactly i smaller primes. Hence for every dimension n <= 1000 the points of halton_n(k, n, prime_table) are equidistributed: among any prod p_i^m_i consecutive points exactly one lies in each box with sides [a_i/p_i^m_i, (a_i+1)/p_i^m_i).", "quantifier": "every entry of the table; every dimension up to 1000, every window, resolution and box", "why_tests_cant": "A wrong or missing entry shows only in some dimension; that all entries up to dimension 1000 work for all boxes is a statement about all indices.", "anchors": ["src/ellpy/oracles/vdcorput.tpy:40-123", "src/ellpy/oracles/halton_n.tpy:6-25"]}
{"id": "C126", "title": "The inverse-matrix oracle imi_oracle", "statement": "imi_oracle for the block matrix M(x) = [sum x_k F_k, I; I, sum x_(n+k) F_k] with symmetric F_k: without line 61, and with a chol_ext whose witness returns the vector, it never raises, accepts iff M(x) is positive definite, and otherwise its cut holds at every z with M(z) positive semidefinite, strictly where M(z) is positive definite. Acceptance implies that both diagonal blocks are positive definite and (u'u)^2 < (u'Sig(x1)u)(u'Sig(x2)u) for all u nonzero. As written it is wrong twice: with the chol_ext.py of the repository every rejection raises TypeError (witness returns one number), and line 61 adds a constant to all entries of the gradient, giving cuts that exclude every feasible point.", "quantifier": "all block sizes, all numbers and values of symmetric matrices, all points, any earlier use of the factoriser", "why_tests_cant": "Validity of a cut quantifies over all feasible points; the defects show only on the rejecting path with a second-half pivot.", "anchors": ["src/ellpy/oracles/imi_oracle.tpy:12-63"]}
{"id": "C127", "title": "ell.update returns the smallest ellipsoid", "statement": "After a successful update of a full-dimensional ellipsoid, the new ellipsoid contains the part of the old one that satisfies the cut in use (only the first bound of a parallel cut when use_parallel_cut is off), and it has the least volume among all full-dimensional ellipsoids that contain this part; any other ellipsoid with that volume is the same set. For a parallel cut this needs -tau <= b0 and -tau <= b1 (tau^2 = tsq): if b0 < -tau, so that the first half-space imposes nothing, and n*b0*b1 is not exactly -tsq, a full-dimensional result is never the smallest.", "quantifier": "every dimension n >= 2, every positive definite Q, kappa > 0, centre, gradient, scalar or parallel right-hand side, every competing ellipsoid", "why_tests_cant": "A minimum over a continuum of competing ellipsoids in every dimension; a test can only compare with a few of them.", "anchors": ["src/ellpy/ell.py:update, _calc_ll_core, _calc_ll_cc, _calc_dc, _calc_cc"]}
{"id": "C128", "title": "ell1d in floating point", "statement": "With every operation of ell1d rounded (relative error at most u <= 1/100) and M a bound on both ends of the interval: an update never raises; a rejected cut changes nothing; unless the verdict is 'no solution', the new interval enlarged by 10uM at both ends contains every point of the old one that satisfies the cut; with 'no solution' all points satisfying the cut lie within uM of one another; the verdict is the exact one unless |beta/g| is within a relative u of the radius; with beta >= 0 the radius is halved up to 10uM. These errors add up, they do not multiply: in a run of cutting_plane_feas of k iterations with 20ku <= 1 and an oracle whose cuts are exact up to eta, no feasible point is lost by more than k(eta + 20uM); the run stops after N + 1 iterations as soon as N halvings bring the computed tsq below tol with 40(N + 1)uM to spare; and it finds a feasible point whenever two feasible points are far enough apart. The constructor and copy reproduce the ends up to 6uM and 7uM. Two defects: in double precision the computed radius can be negative after a successful update, and copy() can return an interval of radius zero for one that is not.", "quantifier": "every u in [0, 1/100], every rounding with relative error u, every interval, cut, oracle, tolerance and number of iterations with 20ku <= 1; the defects for every rounding to nearest with 53 bits", "why_tests_cant": "Rounding errors accumulate over runs of any length and depend on the rounding; a test sees one rounding and a few runs.", "anchors": ["src/ellpy/ell.py:268-338", "src/ellpy/cutting_plane.py:32-74"]}
{"id": "C129", "title": "Minimum cycle ratio search in floating point", "statement": "cutting_plane_dc with cycle_ratio_oracle, network_oracle, the negative-cycle finder and ell1d, every operation rounded (relative error u <= 1/100), sum accurate to gamma <= 1/100 (no order of summation prescribed), every edge with time >= s0 (0 < s0 <= 1) and |cost| <= rho*time, M a bound on both ends of the interval and D on the potentials. All errors are multiples of Delta = u*D/s0 + (u + gamma)*(rho + M). A run of k iterations with 20ku <= 1 that returns has either found nothing or returns a ratio x above t0 such that x - 10 Delta is feasible (no cycle has a smaller ratio); and a feasible ratio of the initial interval exceeds the answer by at most 27k Delta after 'no solution', 54k Delta + 10 Delta after 'no effect' and 2d + 54k Delta after 'small enough', where tol <= (1 - 4u)(0.99 s0 d)^2. The run stops after N + 1 iterations as soon as N halvings bring the computed tsq below tol with 44(N + 1) Delta to spare. D can be read off the final potentials or computed beforehand from the number of relaxations. The finder of the repository meets the contract used. The search raises only what the finder raises, which is AssertionError; in double precision it does so for a circle of three edges whose ratio is -1/12. In double precision the two graphs of tests/test_cycle_ratio.py give 9/5 and 1 up to 3e-6 within 32 iterations, or AssertionError.", "quantifier": "every u and gamma in [0, 1/100], every rounding with relative error u, every summation with error gamma, every finite graph, costs and times within the bounds, every finder meeting the contract, every initial interval and potentials, tolerance and number of iterations with 20ku <= 1", "why_tests_cant": "Whether the accumulated rounding errors of the potentials, the sums and the interval can spoil the answer depends on the graph, the data and the rounding; a test sees a few runs of one rounding.", "anchors": ["src/ellpy/oracles/cycle_ratio_oracle.py:1-93", "src/ellpy/oracles/network_oracle.py:39-64", "src/ellpy/cutting_plane.py:77-112", "src/ellpy/ell.py:268-338", "src/ellpy/oracles/neg_cycle.tpy:31-150"]}
{"id": "C130", "title": "Whole feasibility runs with rounded ellipsoids", "statement": "cutting_plane_feas with an ell whose updates round every operation (relative error u, dot products accurate to eps), and an oracle whose cuts are central or deep (scalar beta >= 0, g nonzero) and keep a set K. As long as the ellipsoids of the run are resolved (condition number of Q bounded through C, centre known to eta times the half-widths), one update with a cut not deeper than (1 - b)tau succeeds, loses points that satisfy the cut of volume at most l^n - 1 times the new volume, and has at most q times the old volume; a deeper cut leaves at most sqrt((8b/3)^n b) of the volume. So after k rounds the ellipsoid is proper, has at most q^k times the first volume, and all shells together have cost K at most loss = (l^n - 1) q/(1 - q) times the first volume, however long the run is. If K has more volume than loss + sqrt((8b/3)^n b) times the first ellipsoid, the run never says 'no solution' or 'no effect'; if more than loss + q^N times, it ends within N iterations with a point the oracle accepts, or with 'small enough', and then all of K but loss lies in a slab of width governed by tol. For a ball B(a, r) in the first ellipsoid, cuts with g'g >= 1 and the tolerance small enough, the run raises nothing and returns an accepted point within N iterations.", "quantifier": "every n >= 2, every rounding and dot product with the stated errors, every b in (0, 1], C, eta, l, q satisfying the stated inequalities, every oracle (with state) whose cuts keep K, every initial proper ellipsoid, tolerance and iteration limit", "why_tests_cant": "A rounded update does cut off feasible points; whether the losses of a long run add up to the whole feasible set depends on all iterates and on the rounding, and cannot be read off sample runs.", "anchors": ["src/ellpy/ell.py:105-265", "src/ellpy/cutting_plane.py:32-74"]}
{"id": "C131", "title": "Whole optimization runs with rounded ellipsoids", "statement": "cutting_plane_dc with an ell whose updates round every operation, resolved as in C130 (only needed while the level is bad, for at most N rounds), and an oracle that may itself be inexact: while the level is bad (not below a target) its cuts are central or deep and keep a set K, no point of K being within the tolerance of the cutting plane. If K has more volume than loss + sqrt((8b/3)^n b) and than loss + q^N times the first ellipsoid, then a run with max_it >= N that returns does not return a bad level, and a level that is not bad is reported within the first N oracle calls, before which nothing is raised. For a convex program with an oracle that errs by at most nu (points of the first ellipsoid feasible with room delta that beat the level by delta satisfy the cut with room delta - nu), a Slater ball B(a, rho) with room eta0 and f <= M, and any feasible p of the first ellipsoid: with theta(M - f(p)) <= acc/2, nu < delta <= min(acc/2, theta eta0), tol <= 199/200 (delta - nu)^2 and (theta rho)^n above the two thresholds, every run that returns has a level below f(p) + acc, and such a level is reported within N oracle calls.", "quantifier": "every n >= 2, every rounding and dot product with the stated errors, every b, C, eta, l, q satisfying the inequalities of C130, every oracle with state (levels of any type), every initial proper ellipsoid, level, tolerance and iteration limit >= N", "why_tests_cant": "Whether rounding spoils the accuracy of the answer depends on all iterates of the run, on the oracle's own errors and on the rounding; a test compares a few runs of one platform with known optima.", "anchors": ["src/ellpy/ell.py:105-265", "src/ellpy/cutting_plane.py:77-112"]}
{"id": "C132", "title": "Solving a linear matrix inequality in floating point", "statement": "cutting_plane_feas(lmi_oracle(F, B), ell) on m x m matrices with k parameters, every operation of the oracle, of the factorization and of the ellipsoid rounded. (1) A rounded call at x raises nothing; a cut it returns has beta >= 0 and satisfies g'(z - x) + beta <= -(mu - nu), nu = (29 theta + eta) m M, theta = 3u + 2 gamma <= 1/10, at every z with B - sum z_q F_q >= mu I, mu >= nu, where M bounds the entries of |B| + sum |x_q||F_q| at x and at z. (2) If B - sum z_q F_q >= mu I with mu > nu on a ball B(a, r) inside the first ellipsoid, tol <= 199/200 (mu - nu)^2, and r^k exceeds sqrt(kappa^k det Q) times loss + sqrt((8b/3)^k b) and times loss + q^N (loss, b, q as in C130), then the run raises nothing and within N iterations stops with feasible = True at a point with B - sum x_q F_q >= -(5/4 theta (1 + eta) + eta) m M I. (3) With p-bit rounding to nearest and left-to-right sums: nu <= (120 m + 2 k + 210)/2^p m M and the point found has smallest eigenvalue at least -(10 m + 2 k + 22)/2^p m M.", "quantifier": "every m, every k >= 2, all symmetric F_q and B, every rounding and dot products with the stated errors, every initial proper ellipsoid, every ball, margin, tolerance and iteration limit >= N", "why_tests_cant": "Whether a solvable matrix inequality is solved in doubles depends on the errors of the factorization at every iterate together with those of all ellipsoid updates; a test sees a few instances, and none near the limits of the precision.", "anchors": ["src/ellpy/oracles/lmi_oracle.py:29-52", "src/ellpy/oracles/chol_ext.py:50-119", "src/ellpy/ell.py:105-265", "src/ellpy/cutting_plane.py:32-74"]}
{"id": "C133", "title": "The ellipsoid method in floating point, from assumptions on the problem only", "statement": "cutting_plane_feas and cutting_plane_dc with ell, every operation rounded. (1) If the first ellipsoid has half-axes of length at most sqrt(L0), every update widens by at most D = (1 + 400 C^4 eps/b^2) n^2/(n^2-1), L0 D^N <= L, the volume of the set K that is looked for exceeds the loss of C130 by v unit balls, n L^n <= C^2 v^2, |z_i| <= A on K and u (A + sqrt L) sqrt(L^(n-1)) <= eta v, then for N rounds all ellipsoids are resolved in the sense of C130 and all centres have coordinates below A + sqrt L; so C130 to C132 hold without assumptions on the ellipsoids of the run. (2) For every first ellipsoid and every bounded K that meets it in positive volume these conditions hold, with N and the box of the centres independent of the arithmetic, for all eps <= eps0 with some eps0 > 0. (3) Hence: if B - sum z_q F_q >= mu I with mu > 0 on a ball inside the first ellipsoid, then for every nu > 0 there are N, p0 and a tolerance such that with p0 bits or more cutting_plane_feas(lmi_oracle(F, B), ell) raises nothing and within N iterations finds a point with B - sum x_q F_q >= -nu I. (4) For every convex program with a Slater ball inside the first ellipsoid and every acc > 0 there are N, eps0, a tolerance and an admissible oracle error, none of them zero, such that every run of cutting_plane_dc with max_it >= N that returns has a level below f(p) + acc for the given feasible p, and such a level is reported within N oracle calls, before which nothing is raised.", "quantifier": "every n >= 2, every proper first ellipsoid, every bounded set, every oracle, every rounding and dot products with the stated errors, every accuracy", "why_tests_cant": "Whether the matrix stays well enough conditioned for the arithmetic over a whole run cannot be seen from a few runs; a statement for all problems with an interior and all sufficiently fine arithmetics has no finite test.", "anchors": ["src/ellpy/ell.py:105-265", "src/ellpy/cutting_plane.py:32-74", "src/ellpy/cutting_plane.py:77-112", "src/ellpy/oracles/lmi_oracle.py:29-52"]}
{"id": "C134", "title": "Whole runs in floating point with parallel cuts", "statement": "cutting_plane_feas and cutting_plane_dc with ell, every operation rounded, and an oracle whose cuts are single or parallel, central or deep. Let theta in (0,1] with 10^8 C^4 eps <= theta^4. (1) One update: if the cut is not deeper than (1 - theta) tau and the slab not thinner than theta tau, the update succeeds whatever beta1 is, also when the far side is beyond the ellipsoid; the points that satisfy the cut stay in the new ellipsoid blown up by 1 + 3*10^6 C^4 eps/theta^4 + 6 eta C/theta; its volume is at most q times the old one; no half-axis is more than doubled. A deeper cut or a thinner slab leaves at most sqrt((8 theta/3)^n theta) + sqrt(3n/4) theta of the volume. (2) A whole run: if the cuts keep a set K that has more volume than these losses, and the problem data satisfy the conditions of C133 with D = 4, the run raises nothing and within N iterations finds a point the oracle accepts; an optimization run that returns has a good level, and a good level is reported within N oracle calls. (3) For every first ellipsoid and every bounded K that meets it in positive volume these conditions hold for all sufficiently small eps.", "quantifier": "every n >= 2, every proper first ellipsoid, every oracle with single or parallel cuts, every rounding and dot products with the stated errors", "why_tests_cant": "The parallel cut formulas contain cancellations and a square root whose effect on a whole run depends on all the slabs met; tests see a few of them.", "anchors": ["src/ellpy/ell.py:105-265", "src/ellpy/cutting_plane.py:32-74", "src/ellpy/cutting_plane.py:77-112"]}
{"id": "C135", "title": "The low-pass design run with every operation rounded", "statement": "cutting_plane_dc(lowpass_oracle(...), ell, t0), oracle and ellipsoid both rounded, from any state of the round-robin counters, t0 >= 0. If on some ball inside the first ellipsoid the specification is met at level tau with room delta > 0, then for every nu > 0 there are a number N of iterations, a number p0 of bits and a tolerance such that with p0 bits or more: every run with max_it >= N that returns has a level below tau, and the design it returns meets the specification at that level up to gamma sum |a_i x_i| on every row a; and if t0 >= tau, within N oracle calls, before which nothing is raised, a design is reported that meets the specification at a level below tau up to nu. Explicitly, the room has to exceed gamma B R + 4u(gamma B R + 2 B R), where B bounds the absolute row sums and R the coordinates.", "quantifier": "every number of taps n >= 2, every specification with lpsq <= upsq and a stopband row, every state of the counters, every first ellipsoid, every precision from p0 on", "why_tests_cant": "The end-to-end error of a filter design run depends on thousands of rounded operations in oracle and ellipsoid; a test that converges for one specification says nothing about the next.", "anchors": ["src/ellpy/oracles/lowpass_oracle.py:44-126", "src/ellpy/ell.py:105-265", "src/ellpy/cutting_plane.py:77-112"]}
{"id": "C136", "title": "The profit oracles in floating point", "statement": "profit_oracle and profit_rb_oracle with every operation rounded (relative error zeta, also of log, exp and the dot product), the rb oracle after any history of calls. Let M bound the logarithms that occur at the queried point and x = zeta M <= 1/100. The call succeeds and the cut is never shallow. A value is reported only if the resource limit holds up to a factor exp(4x); it equals the largest profit guaranteed at the point up to 14x (revenue + cost). It may be smaller than the level it replaces, but by at most 26x times the revenue that level asks for, and this does happen: the best-so-far value returned by cutting_plane_dc can fall from one round to the next. A value is reported wherever the constraints have room of more than 20x. Every point with room delta at the new level satisfies the cut with that room up to an error 31x (1 + weighted distance).", "quantifier": "every price, scale, limit, elasticities and costs with positive worst case, every uncertainty, every point and level, every history, every rounding with relative error zeta", "why_tests_cant": "Logarithms and exponentials are evaluated at thousands of points per run and the level is replaced by a recomputed value; a test run has no reference for the rounding and would not notice a level that falls by one unit in the last place.", "anchors": ["src/ellpy/oracles/profit_oracle.py:7-84", "src/ellpy/oracles/profit_oracle.py:87-142"]}
{"id": "C137", "title": "Profit maximization runs with every operation rounded", "statement": "cutting_plane_dc(profit_oracle(...), ell, t0) and the same with profit_rb_oracle in any state it can reach, oracle and ellipsoid both rounded, t0 >= 0. Let z be any quantities in the interior of the first ellipsoid and within the limit, with (guaranteed) profit s, and let 0 < nu <= s. There are a number N of iterations and a box such that for every larger box and every max_it >= N there are a precision and a tolerance with the following. If t0 < s - nu, a value of at least s - nu is found within N oracle calls, before which nothing is raised. A run that returns and whose centres were in the box returns a value of at least s - 2 nu. A value found, or returned with a point, is the (guaranteed) profit there up to nu, and the limit holds there up to a factor exp(nu). For the data of test_profit a value above 3404 is found; the optimum is 3404.8.", "quantifier": "every problem, every uncertainty, every proper first ellipsoid, every competitor z, every accuracy nu, every rounding with a small enough relative error", "why_tests_cant": "With rounding the best-so-far value can fall (C136), so that the usual argument that the level only improves does not apply; whether it can fall for good is not visible in any one run.", "anchors": ["src/ellpy/oracles/profit_oracle.py:7-84", "src/ellpy/oracles/profit_oracle.py:87-142", "src/ellpy/ell.py:105-265", "src/ellpy/cutting_plane.py:77-112"]}
{"id": "C138", "title": "Matrix scaling runs with every operation rounded", "statement": "cutting_plane_dc(optscaling_oracle(network_oracle(...)), ell, t0), where the network oracle keeps its distances between calls, and the oracle, the negative cycle finder and the ellipsoid all round. A network cut can then be slightly shallow, and distances drift. Let (pi, psi) be in the interior of the first ellipsoid and scalable (some scaling of the nodes puts every entry between psi and pi, in log scale), and nu > 0. There are a number N of iterations, a precision and a tolerance such that every run with max_it >= N that returns has a level of at most pi - psi + nu; and if t0 > pi - psi + nu then within N oracle calls a level s <= pi - psi + nu is found at a point (x0, x1) with |s - (x0 - x1)| <= nu for which (x0 + nu, x1 - nu) is scalable, unless the finder raises before. With neg_cycle.tpy the only exception is its AssertionError (C119). A level returned by any run, at any precision, is x0 - x1 rounded, at the returned point, below t0, and the point is scalable up to u(D + 3(R + c)), D bounding the distances, R the coordinates and c the costs.", "quantifier": "every graph without self-loops, all costs, every proper first ellipsoid, every scalable interior point, every accuracy nu, every rounding with a small enough relative error, every finder that is right up to one rounding per edge", "why_tests_cant": "Whether the drift of the stored distances over all rounds, the error of the cycle weight and the shallow cuts can add up to losing the optimum is not visible in a run; the precision that suffices depends on the graph and on N.", "anchors": ["src/ellpy/oracles/optscaling_oracle.py:13-94", "src/ellpy/oracles/network_oracle.py:13-64", "src/ellpy/oracles/neg_cycle.tpy:9-146", "src/ellpy/ell.py:105-265", "src/ellpy/cutting_plane.py:77-112"]}
{"id": "C139", "title": "Least-squares fits with every operation rounded", "statement": "cutting_plane_dc(lsq_oracle(F, F0), ell, t0) with symmetric F_q, where the oracle, its two factorizations (which keep state between calls) and the ellipsoid all round. Let z be in the interior of the first ellipsoid, sum z_q F_q positive definite and z_last I - F(z)'F(z) positive semidefinite, F(z) = F0 - sum z_q F_q, and nu > 0. There are a number N of iterations, a precision and a tolerance such that, for every start level t0 > z_last + nu (also inf): within N oracle calls, before which nothing raises, a level of at most z_last + nu is found, at a point where both matrix inequalities hold up to nu; a run with max_it >= N that returns, returns a point whose last entry is the level, at most z_last + nu, and in any given box both inequalities hold there up to nu. One rounded call never raises, all its cuts are central or deep, and a point that satisfies everything with margin mu is kept with room mu minus an explicit error.", "quantifier": "all matrix sizes and numbers of parameters, all symmetric F_q and all F0, every proper first ellipsoid, every interior z, every accuracy nu, every rounding with a small enough relative error, every state of the oracle left by earlier calls", "why_tests_cant": "The eigenvalue margin is quadratic in the parameters, the cut comes from a rounded witness of a rounded factorization at a point, and the best point lies on the boundary of the feasible set; that rounding cannot cut it away before it is reached is a statement about all of these together.", "anchors": ["src/ellpy/oracles/lsq_corr_oracle.py:44-81", "src/ellpy/oracles/qmi_oracle.py:29-99", "src/ellpy/oracles/lmi0_oracle.py:20-47", "src/ellpy/oracles/chol_ext.py:24-119", "src/ellpy/ell.py:105-265", "src/ellpy/cutting_plane.py:77-112"]}
{"id": "C140", "title": "Binary search over an ellipsoid probe with every operation rounded", "statement": "bsearch(bsearch_adaptor(qmi_oracle(F, F0), ell(R^2, x)), [lo, up]) as in lsq_corr_core, with symmetric F_q, where bisection, ellipsoid, factorization and oracle all round. A probe answers what cutting_plane_feas answers on a value copy of the ellipsoid after P.update(t), and whatever the answer it moves the centre array and nothing else. Let r, mu, nu > 0 and a box be given. There are a number N of iterations, a precision and a tolerance such that, with max_it >= N and an oracle in any state of use: if t I - F(z)'F(z) is at least mu I on a ball of radius r with its centre in the box, inside the ball of radius R about the current centre, the probe at t raises nothing and answers True, and the inequality holds at the point left in the centre array up to nu times the size of the numbers involved. Whenever the whole search returns: upper is up or was accepted in this sense at some point; the lower end of the final bracket is lo or was rejected (no such ball about the centre that probe started from); the bracket has shrunk as the rounded halving makes it; and x_best is such a point if the last probe was accepted.", "quantifier": "all matrix sizes and numbers of parameters >= 2, all symmetric F_q and all F0, every radius, box and margin, every bracket of representable ends, every rounding with a small enough relative error, every state of the oracle, ellipsoid and centre array left by earlier probes", "why_tests_cant": "A probe starts from the centre an earlier probe left, on an oracle with cached state, and False means that no ellipsoid cut by rounded cuts was left to search; that the rounding cannot turn a clear True into False at any level, from any centre, is a statement about all runs.", "anchors": ["src/ellpy/cutting_plane.py:156-231", "src/ellpy/ell.py:24-147", "src/ellpy/oracles/qmi_oracle.py:29-99", "src/ellpy/oracles/gmi_oracle.py:35-52", "src/ellpy/oracles/chol_ext.py:24-119", "tests/test_corr_fn.py:54-60"]}
{"id": "C141", "title": "Semidefinite programs reach the optimum up to any accuracy with every operation rounded", "statement": "cutting_plane_dc on ell with the oracle of tests/test_lmi.py (two linear matrix inequalities B - sum x_q F_q >= 0 with symmetric data of any size, checked by lmi_oracle or lmi_old_oracle, and the objective c'x), where the oracle, the factorizations and the ellipsoid all round. Let both inequalities hold with a margin on some ball inside the first ellipsoid, let p be any feasible point of the first ellipsoid (also an optimal one), and acc, nu > 0. There are a number N of iterations, a precision and a tolerance such that, for every state of the oracle objects and every start level (also inf): a run with max_it >= N that returns has a level below c'p + acc; and if the start level is not below that, such a level is found within N oracle calls, before which nothing is raised, at a point that satisfies both inequalities up to nu and whose true objective is the level up to nu. The returned level is the rounded objective of the returned point, and the point satisfies both inequalities up to nu if it is in a box fixed beforehand. For the data of the test, with p bits: a point with objective below -3.1531 + acc + nu is found. Runs with the two oracle classes are identical also when rounded.", "quantifier": "all matrix sizes, dimensions >= 2, symmetric data, objectives, first ellipsoids, accuracies, every rounding with a small enough relative error, every state of the oracle, every start level", "why_tests_cant": "Whether rounded cuts can cut off all good points before one is found depends on the interplay of three roundings (factorization, objective, ellipsoid) along the whole run, for every accuracy asked for; a test sees one run at one precision.", "anchors": ["tests/test_lmi.py:13-90", "src/ellpy/cutting_plane.py:78-115", "src/ellpy/ell.py:24-147", "src/ellpy/oracles/lmi_oracle.py:33-52", "src/ellpy/oracles/lmi_old_oracle.py:34-50", "src/ellpy/oracles/chol_ext.py:24-119"]}
{"id": "C142", "title": "Chebyshev FIR designs reach the optimum up to any accuracy with every operation rounded, on rounded data", "statement": "cutting_plane_dc on ell with the oracle of tests/test_firfilter.py, where the oracle and the ellipsoid round every operation and the stored arrays A_R, A_I, Hdes_r, Hdes_i are the exact ones only up to the precision. Let f be the worst squared error for the exact data, let p be any filter in the first ellipsoid (also an optimal one), and acc, nu > 0. There are a number N of iterations, a precision and a tolerance such that: a run with max_it >= N that returns has a level below f(p) + acc; and if the start level is not below that, such a level is found within N oracle calls, before which nothing is raised, at a filter whose true worst squared error is the level up to nu. The returned level is the true worst squared error of the returned filter up to nu, if the filter is in a box fixed beforehand. For the test (32 taps, 480 frequencies, delay 8.25, start level 100, with or without the deferral trick): a filter with a worst squared error below 1/2 + acc + nu is found; the optimum is 1/2.", "quantifier": "all filter lengths >= 2, all numbers of frequencies >= 1, all data and all stored data near them, all first ellipsoids that contain a ball, accuracies and start levels, every rounding with a small enough relative error", "why_tests_cant": "A test sees one precision and one set of arrays; that rounding in arrays, residuals, gradients and ellipsoid together cannot lose the optimum, for any accuracy asked for, is a statement about all runs at all precisions.", "anchors": ["tests/test_firfilter.py:18-110", "src/ellpy/cutting_plane.py:78-115", "src/ellpy/ell.py:24-147"]}
{"id": "C143", "title": "The quasi-convex and linear programs of the tests reach the optimum up to any accuracy with every operation rounded", "statement": "cutting_plane_dc on ell with the oracles of tests/test_quasicvx.py, test_quasicvx2.py and test_example1.py, where oracle and ellipsoid round every operation to nearest and math.exp has a small relative error. Quasi-convex programs (optimum opt = 0.4288...): for every r <= 1/10 and every first ellipsoid with a representable centre that contains a ball of radius r near the optimal point there are a number N of iterations, a number of bits, an accuracy of math.exp and a tolerance such that from every representable start level (for test_quasicvx.py not negative) a run with max_it >= N that returns has a level within 4r of opt or better; unless nothing was found, the level is not better than opt by more than r, is the true value at the returned point up to r, and the point is feasible up to a factor 1 - r; a run started beyond opt + r reports infeasible; and if the start level is worse than opt by 4r, such a point is found within N oracle calls, before which nothing is raised. The levels never get worse. Linear program: the returned level is above any level attained with room in the first ellipsoid, is the start level or at most 3, and a point feasible up to r with that level is found. For the tests: ell(10, (0,0)), ell(10, (1,1)), start levels 0 and -inf give levels within acc of the optimum for every acc; start levels 100 and -100 give infeasible.", "quantifier": "all accuracies, first ellipsoids that contain a small ball near the optimum, representable start levels, all numbers of bits from some p0 on, all round-to-nearest roundings with any treatment of ties, all exponential functions of that accuracy", "why_tests_cant": "The level is computed by another formula (sqrtx / tmp2) than the comparison that accepts the point (-sqrtx + t*tmp2 < 0), so with rounding it could get worse and a good level could be lost; that it cannot, and that the optimum is reached, is a statement about all runs at all precisions.", "anchors": ["tests/test_quasicvx.py:14-75", "tests/test_quasicvx2.py:14-78", "tests/test_example1.py:10-89", "src/ellpy/cutting_plane.py:78-115", "src/ellpy/ell.py:24-147"]}
{"id": "C144", "title": "The feasibility run of test_example2.py and the misplaced starts of the tests, with every operation rounded", "statement": "cutting_plane_feas on ell with the oracle of tests/test_example2.py, oracle and ellipsoid rounding every operation to nearest. For every first ellipsoid that contains a ball of radius r on which the two constraints hold with room there are a number N of iterations, a number of bits and a tolerance, not zero, for which the run raises nothing, reports feasible and success within N iterations, and ends at a centre that satisfies the constraints up to r. For the tests, to the iteration: ell(10, (0,0)) with ten bits or more, max_it >= 2 and tol <= 20 makes one cut, reports feasible, success and two iterations, and its centre satisfies the constraints exactly; from (100, 100) the runs of test_example2.py, test_example1.py (level -inf) and, with 20 bits, test_quasicvx.py (any level, any math.exp) report not feasible, nosoln and one iteration, and leave the ellipsoid as it was.", "quantifier": "all first ellipsoids with a ball of solutions inside, all numbers of bits from some p0 on (10 and 20 for the tests), all round-to-nearest roundings with any treatment of ties, all options with enough iterations", "why_tests_cant": "The tests run one arithmetic from one start; that no rounding of sqrt, division and the rank-one update can turn the accepted second centre or the missed ellipsoid into something else, and that the answer does not depend on the tie rule or on the options, is a statement about all roundings.", "anchors": ["tests/test_example2.py:10-51", "tests/test_example1.py:68-76", "tests/test_quasicvx.py:58-66", "src/ellpy/cutting_plane.py:32-74", "src/ellpy/ell.py:105-254"]}
{"id": "C145", "title": "The Matlab oracle FIR_oracle2 is correct, and lowpass_oracle is a faithful port of it up to the check of x[0]", "statement": "FIR_oracle2.evaluate (experiments/FIR_oracle2.tpy): it lowers the level Spsq exactly at points where all passband rows lie in [Lpsq, Upsq], all stopband rows in [0, Spsq] and all other rows are nonnegative; the new level is the largest stopband response and the cut is the central one of the first row that attains it. Elsewhere the level is unchanged and the cut excludes the point. Every cut keeps, on both sides, all points that meet the specification at the new level. A lowpass_oracle whose round-robin counters are 0, asked at a point with x[0] >= 0, returns the same cut and the same level. In any state it reports a level exactly where evaluate lowers it and x[0] >= 0, and the same level. Without rows that force x[0] >= 0 the two differ.", "quantifier": "all matrices with at least one stopband row, all bounds, points and levels, all states of the counters", "why_tests_cant": "The port changed the loops (round robin, a running maximum from -inf instead of max(w), an early check); that it accepts the same points with the same levels in every state of the counters is a statement about all inputs, and the Matlab file has no tests.", "anchors": ["experiments/FIR_oracle2.tpy:19-73", "src/ellpy/oracles/lowpass_oracle.py:44-126"]}
{"id": "C146", "title": "Least-squares correlation fits survive rounding from the sites to the fitted polynomial", "statement": "With every operation rounded: the distance matrix stays exactly symmetric with a zero diagonal and has a small relative error; so do the powers of construct_poly_matrix, exactly symmetric, with relative errors that grow geometrically in the power; np.poly1d evaluates the fitted coefficients with an error proportional to sum |a_k||x|^k. A least-squares run on stored matrices close to the intended ones reaches a level of at most that of any admissible point plus nu, and the point found satisfies the intended (exact) inequalities up to nu. In particular, for the polynomial fits: given sites and data such that the exact problem has an admissible point with a definite combination inside the start ellipsoid, there is a number of bits from which on the whole computation (distances, powers, oracle and ellipsoid rounded) succeeds.", "quantifier": "all sites, data matrices, start ellipsoids, accuracies nu > 0, all rounding functions with p >= p0 bits, all budgets of at least N rounds", "why_tests_cant": "Tests compare one fitted curve by eye or count iterations on fixed data; whether rounding the inputs can make a strictly solvable fit infeasible, or the answer a fit of the wrong matrices, is a statement about all data and precisions.", "anchors": ["src/ellpy/oracles/corr_oracle.py:65-102", "src/ellpy/oracles/corr_oracle.py:105-122", "src/ellpy/oracles/lsq_corr_oracle.py:34-81", "src/ellpy/cutting_plane.py:77-112"]}
{"id": "C147", "title": "Monotone spline fits survive rounding", "statement": "With every operation rounded, mono_decreasing_oracle2 gives the same verdict as in exact arithmetic: it asks the wrapped oracle exactly at points whose coefficients do not increase, and otherwise cuts with a positive depth, keeping all points whose drops exceed the rounding. A least-squares fit with monotone coefficients, on stored matrices close to the intended ones, reaches a level of at most that of any admissible point with strictly decreasing coefficients plus nu. The point found has coefficients that do not increase (exactly, not up to rounding), so its spline is non-increasing on the base interval, and satisfies the intended inequalities up to nu.", "quantifier": "all points, wrapped oracles, matrices, start ellipsoids, accuracies nu > 0, all rounding functions with p >= p0 bits, all budgets of at least N rounds", "why_tests_cant": "The test fits one spline to one data set and looks at the number of iterations; that no rounding can let an increasing coefficient pass, or cut off all strictly monotone fits, is a statement about all data and precisions.", "anchors": ["src/ellpy/oracles/corr_bspline_oracle.py:13-30", "src/ellpy/oracles/corr_bspline_oracle.py:48-67", "src/ellpy/oracles/lsq_corr_oracle.py:34-81", "src/ellpy/cutting_plane.py:73-115"]}
{"id": "C148", "title": "Points on spheres and the sites of the tests in floating point", "statement": "With every operation rounded and a math library with errors of at most u: circle, sphere and sphere3_hopf raise no exception for any generator value in [0, 1], including 1.0; the square of the norm of the point is within 3u (circle) or 12u (spheres) of 1; the point itself is within 14u (circle), 50u (3-sphere) or 10 sqrt(u) (sphere, whose height is within 3u) of the exact one. create_2d_sites(nx, ny) gives exactly nx*ny pairwise different sites in [0,10) x [0,8), each within 10/2^p and 8(M+3)/2^p of the exact site, as long as nx*ny < 2^L, nx*ny < 3^M, L + 2 <= p and (M+3) 3^M <= 2^p.", "quantifier": "all generator values in [0, 1], all roundings with relative error u <= 1/20, all libraries with errors of at most u, all nx, ny and precisions p in the stated range", "why_tests_cant": "Tests print a few points; that no rounded value makes the argument of a square root negative, that no two of the sites coincide after rounding (a repeated site makes the kernel matrix singular) and that no site leaves the rectangle are statements about all indices and roundings.", "anchors": ["src/ellpy/oracles/low_discr_seq.tpy:88-98", "src/ellpy/oracles/low_discr_seq.tpy:122-131", "src/ellpy/oracles/low_discr_seq.tpy:151-171", "src/ellpy/oracles/corr_oracle.py:11-25"]}
{"id": "C149", "title": "The kernel matrix of create_2d_isotropic in floating point", "statement": "With every operation rounded and an exponential with relative error u, the kernel matrix is exactly symmetric with ones on the diagonal, and every entry is within 2((1+u)^4(1+g) - 1) + u of exp(-0.12 |s_i - s_j|^2), however far apart the sites are. For pairwise different sites there are a precision and a distance of the stored from the intended sites from which on the computed matrix is positive definite. Hence for all nx*ny > 0 there is a number of bits from which on create_2d_sites(nx, ny) followed by the kernel matrix, both rounded, gives a positive definite matrix, and np.linalg.cholesky does not raise on it.", "quantifier": "all sites, all roundings and exponentials with small relative errors, all nx, ny with nx*ny > 0, all precisions p >= p0", "why_tests_cant": "The tests use one set of 80 sites in double precision; a kernel matrix of close sites is nearly singular, and whether rounding can make it lose symmetry or definiteness is a statement about all site sets and roundings.", "anchors": ["src/ellpy/oracles/corr_oracle.py:41-53", "src/ellpy/oracles/corr_oracle.py:11-25"]}
{"id": "C150", "title": "Discrete profit maximisation in floating point", "statement": "With every operation of profit_q_oracle rounded, numpy's log and exp with small relative errors: a call in a bounded box at a level that is not negative beyond the error never raises. It evaluates at the computed logarithms of positive integers: on a first try the integers nearest to the computed exponentials of y, on a retry those of the previous call. A value is reported as by the rounded profit_oracle there (C136), and the cut is shifted by g'(yd - y) up to rounding. For all data, bounds on the centres, max_it and nu > 0 there is a precision from which on every run of cutting_plane_q that returns, on whatever search space, has t >= t0 - nu and either found nothing (t = t0) or returns the computed logarithms of positive integers m with m_0 <= k exp(nu) whose exact profit is t up to nu. Moreover t is at least the profit, minus nu, of the positive integers nearest to the computed exponentials of the initial centre if these are unique and within the limit by a factor exp(-nu).", "quantifier": "all data, all bounds on the centres, all max_it, all search spaces, all roundings of small relative error", "why_tests_cant": "The test is one run in double precision; that a run never returns something that is not the logarithm of integers, or a value that is not its profit, whatever the roundings and retries, is a statement about all runs.", "anchors": ["src/ellpy/oracles/profit_oracle.py:profit_q_oracle (138-200)", "src/ellpy/cutting_plane.py:cutting_plane_q (115-153)"]}
{"id": "C151", "title": "csdigit.m makes no rounding error in floating point", "statement": "If num is representable with b significant bits and range + resolution < b, csdigit with every operation rounded to b bits gives exactly the result of exact arithmetic: it stops with the same error or returns the same digits, pos, neg and err with the same warnings. So all claims of C97 hold of the program as run. With range + resolution = b this is false: with b = 4 and range = 4 the digits returned for 13 have the value 12.", "quantifier": "all representable numbers, all range and resolution with range + resolution < b, all precisions b, all roundings, all iteration counts", "why_tests_cant": "There is no test of the script; the carries may lengthen the number beyond range + resolution bits, and that they never leave the exactly representable integers is a statement about all inputs.", "anchors": ["src/csdigit.m:csdigit (58-115)"]}
