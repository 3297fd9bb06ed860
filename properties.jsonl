{"id": "C01", "title": "LinfBall.prox is the Euclidean projection", "statement": "For every radius alpha >= 0 and every vector x, LinfBall(alpha).prox(x) lies in the ball max_i |p_i| <= alpha and is strictly closer (in Euclidean distance) to x than any other point of the ball.", "quantifier": "all dimensions, all real vectors x, all alpha >= 0, all competitor points of the ball", "why_tests_cant": "A test compares with finitely many competitors on finitely many random vectors; optimality quantifies over a continuum of competitors and inputs.", "anchors": ["copt/constraint.py:LinfBall.prox"]}
{"id": "C02", "title": "L2Ball.prox is the Euclidean projection", "statement": "For every alpha >= 0 and every x, L2Ball(alpha).prox(x) has Euclidean norm <= alpha and is strictly closer to x than any other point of the ball; points already inside are returned unchanged.", "quantifier": "all dimensions, all real x, all alpha >= 0, all competitors", "why_tests_cant": "Same: optimality over a continuum of competitors, including the boundary case norm == alpha and x = 0.", "anchors": ["copt/constraint.py:L2Ball.prox"]}
{"id": "C03", "title": "euclidean_proj_simplex is the exact projection on the simplex and never fails on a non-empty vector", "statement": "For every non-empty v and s > 0, euclidean_proj_simplex(v, s) returns normally a vector w >= 0 with sum s that is strictly closer to v than any other such vector. For s <= 0 it raises AssertionError, for an empty v it raises IndexError.", "quantifier": "all n >= 1, all v in R^n (ties, negatives, zeros included), all s > 0, all competitors", "why_tests_cant": "Correctness of the sort/cumsum/threshold search depends on the ordering pattern of v; there are n! patterns plus ties for every n.", "anchors": ["copt/constraint.py:euclidean_proj_simplex", "copt/constraint.py:SimplexConstraint.prox"]}
{"id": "C04", "title": "L1Ball.prox is the exact projection on the L1 ball", "statement": "For every v and s > 0, euclidean_proj_l1ball(v, s) (hence L1Ball(s).prox) returns a vector with sum of absolute values <= s that is strictly closer to v than any other point of the ball.", "quantifier": "all n, all v, all s > 0, all competitors", "why_tests_cant": "As above, with additional sign patterns.", "anchors": ["copt/constraint.py:euclidean_proj_l1ball", "copt/constraint.py:L1Ball.prox"]}
{"id": "C05", "title": "L1Ball.lmo returns a maximising vertex and a faithful representation of it", "statement": "For every u, x and alpha >= 0, L1Ball(alpha).lmo(u, x) returns update_direction = s - x where s lies in the L1 ball and <u, s> >= <u, y> for every y in the ball; the returned representation (sign, idx) denotes exactly s, i.e. s = alpha*sign*e_idx; the maximal step is 1 and x is not modified.", "quantifier": "all n >= 1, all u, x, alpha >= 0, all y in the ball", "why_tests_cant": "Maximality quantifies over the whole ball and all ties of |u|.", "anchors": ["copt/constraint.py:L1Ball.lmo"]}
{"id": "C06", "title": "L1Ball.lmo_pairwise returns s - v with v the worst active vertex and its weight as the maximal step", "statement": "For every u, x and non-empty active set, lmo_pairwise returns s - v (independent of x) with s maximal over the ball, v the vertex of an active-set entry with minimal correlation with u, and max_step_size the weight of that entry; the resulting direction has <u, s - v> >= <u, s' - x> gap whenever x is the convex combination of the active set.", "quantifier": "all active sets (any size, any insertion order, ties), all u, x", "why_tests_cant": "Unbounded active sets and tie patterns.", "anchors": ["copt/constraint.py:L1Ball.lmo_pairwise"]}
{"id": "C07", "title": "SimplexConstraint.lmo returns a feasible maximising vertex", "statement": "For every u, x, SimplexConstraint(s).lmo(u, x) returns v - x where v belongs to the constraint set handled by SimplexConstraint.prox (v >= 0, sum v = s), or at least to the documented set (v >= 0, ||v||_1 <= s), and maximises <u, .> over it.", "quantifier": "all n >= 1, all u, x, s > 0", "why_tests_cant": "Tests never exercise the sign of the largest coordinate; the claim must hold for every sign pattern.", "anchors": ["copt/constraint.py:SimplexConstraint.lmo"]}
{"id": "C08", "title": "TraceBall.prox is the projection onto the nuclear-norm ball", "statement": "For any matrix X with a valid singular value decomposition, TraceBall(alpha, shape).prox(X) lies in the nuclear-norm ball of radius alpha and is strictly closer to X (Frobenius) than any other point of the ball.", "quantifier": "all shapes, all matrices, all SVD factors satisfying the SVD contract, all alpha > 0, all competitors", "why_tests_cant": "Continuum of competitors and of matrices, and non-uniqueness of the SVD.", "anchors": ["copt/constraint.py:TraceBall.prox"]}
{"id": "C09", "title": "TraceBall.lmo returns a maximising vertex", "statement": "For any u whose leading singular triple (as returned by svds k=1) is correct, TraceBall(alpha).lmo(u, x) returns s - x with s in the nuclear-norm ball and <u, s> >= <u, y> for all y in the ball, maximal step 1.", "quantifier": "all shapes, all u, x, alpha >= 0, all y in the ball", "why_tests_cant": "Optimality over a continuum.", "anchors": ["copt/constraint.py:TraceBall.lmo"]}
{"id": "C10", "title": "L1Norm.prox is the exact proximal operator", "statement": "For alpha >= 0, step_size >= 0 and every x, L1Norm(alpha).prox(x, step) is the unique minimiser of step*L1Norm(alpha)(y) + 1/2||y - x||^2.", "quantifier": "all n, x, alpha >= 0, step >= 0, all competitors y", "why_tests_cant": "Optimality over a continuum of competitors.", "anchors": ["copt/penalty.py:L1Norm.prox", "copt/penalty.py:L1Norm.__call__"]}
{"id": "C11", "title": "L1Norm.prox_factory applies the weighted soft-threshold to exactly the sampled support", "statement": "The in-place operator returned by L1Norm.prox_factory, called on row i of a support matrix, replaces x[j] for each feature j listed once in row i by the exact prox of alpha*d[j]*step*|.| and leaves every other coordinate unchanged; with d = 1 and all features listed it equals L1Norm.prox.", "quantifier": "all x, d, rows with distinct indices, step sizes", "why_tests_cant": "All support patterns and orders.", "anchors": ["copt/penalty.py:L1Norm.prox_factory"]}
{"id": "C12", "title": "GroupL1 accepts exactly the lists of contiguous, increasing, hence disjoint groups", "statement": "For every list of non-empty groups of feature indices, the GroupL1 constructor succeeds if and only if every group is a run of consecutive integers and each group starts strictly after the previous one ends; accepted groups are pairwise disjoint.", "quantifier": "all lists of groups", "why_tests_cant": "Unbounded number and sizes of groups.", "anchors": ["copt/penalty.py:GroupL1.__init__"]}
{"id": "C13", "title": "GroupL1.prox is the exact proximal operator of the group-lasso penalty", "statement": "For accepted groups, alpha >= 0, step >= 0 and every x, GroupL1(alpha, groups).prox(x, step) is the unique minimiser of step*alpha*sum_g ||y_g||_2 + 1/2||y - x||^2, features outside all groups are left unchanged.", "quantifier": "all group structures, all x, all competitors", "why_tests_cant": "Continuum of competitors and unbounded group structures.", "anchors": ["copt/penalty.py:GroupL1.prox", "copt/penalty.py:GroupL1.__call__"]}
{"id": "C14", "title": "GroupL1.prox_factory builds a block structure that partitions the features and agrees with GroupL1.prox", "statement": "For accepted groups contained in range(n_features), the block matrix returned by prox_factory lists every feature exactly once, penalised blocks are exactly the groups and every other feature is its own unpenalised block; applying the in-place operator with unit weights to every block yields exactly GroupL1.prox, and applied to some blocks it changes no feature of other blocks.", "quantifier": "all group structures and n_features, all x", "why_tests_cant": "Pointer-bumping construction must be right for every gap pattern between groups.", "anchors": ["copt/penalty.py:GroupL1.prox_factory"]}
{"id": "C15", "title": "prox_tv1d / FusedLasso.prox is the exact proximal operator of 1-D total variation", "statement": "For every non-empty w and step >= 0, prox_tv1d(w, step) is the unique minimiser of step*sum_i |y_{i+1} - y_i| + 1/2||y - w||^2; FusedLasso(alpha).prox(x, step) is that of alpha*step.", "quantifier": "all lengths n >= 1, all signals (ties, plateaus), all step >= 0, all competitors", "why_tests_cant": "The taut-string algorithm keeps two hulls with data-dependent pops and shifts; the number of control-flow paths grows exponentially with n.", "anchors": ["copt/tv_prox.py:prox_tv1d", "copt/tv_prox.py:_prox_tv1d", "copt/penalty.py:FusedLasso.prox"]}
{"id": "C16", "title": "prox_tv1d is memory safe, total and writes every output element", "statement": "For every non-empty input, every array access of the compiled (unchecked) low level routine stays within bounds, no division by zero occurs, all loops terminate and every output element is written.", "quantifier": "all n >= 1, all inputs and step >= 0", "why_tests_cant": "The routine is compiled by numba without bounds checks: an out-of-bounds access is silent, and depends on the data.", "anchors": ["copt/tv_prox.py:_prox_tv1d"]}
{"id": "C17", "title": "FusedLasso.prox_1_factory / prox_2_factory split the total variation in two exactly-proxed halves", "statement": "For every n_features >= 1, the two block structures each partition range(n_features) into blocks of one or two consecutive features; the pairs of the two structures together are exactly the consecutive pairs, each once, so the two penalties sum to the fused-lasso penalty; each in-place operator with weights d and step s replaces an active pair by the exact prox of s*d*alpha*|x_j - x_{j+1}| and leaves singletons and other blocks unchanged, never accessing x out of bounds.", "quantifier": "all n_features (both parities), all x, d, step, all sample rows", "why_tests_cant": "All sizes and parities; in-bounds accesses in unchecked compiled code.", "anchors": ["copt/penalty.py:FusedLasso.prox_1_factory", "copt/penalty.py:FusedLasso.prox_2_factory"]}
{"id": "C18", "title": "TraceNorm.prox is the exact proximal operator of the nuclear norm", "statement": "For any matrix with a valid SVD, TraceNorm(alpha).prox(x, step) is the unique minimiser of step*alpha*||Y||_* + 1/2||Y - X||_F^2.", "quantifier": "all shapes, matrices, SVD factors, alpha, step >= 0, competitors", "why_tests_cant": "Continuum of competitors.", "anchors": ["copt/penalty.py:TraceNorm.prox"]}
{"id": "C19", "title": "prox_tv2d (TotalVariation2D.prox): convergence flag implies accuracy", "statement": "Whenever the Dykstra loop of prox_tv2d stops without the non-convergence warning (last change < tol), the returned x is within an explicit distance of the true proximal point of the 2-D total variation: ||x - x*||^2 <= 4*step*N*tol, with N = n_rows*n_cols; and x plus the two correction terms equals the input after every number of iterations. With max_iter = 0 the call fails.", "quantifier": "all image sizes, all images, all step, tol, all numbers of iterations", "why_tests_cant": "Histories of unbounded length; the true proximal point is not computable in closed form so tests only check an inequality.", "anchors": ["copt/tv_prox.py:c_prox_tv2d", "copt/tv_prox.py:prox_tv2d", "copt/tv_prox.py:prox_tv1d_cols", "copt/tv_prox.py:prox_tv1d_rows", "copt/penalty.py:TotalVariation2D"]}
{"id": "C20", "title": "tv2d_linear_operator represents the 2-D total variation", "statement": "For all n_rows, n_cols and every image x, the l1 norm of tv2d_linear_operator(n_rows, n_cols) @ x equals the value of TotalVariation2D(1, shape)(x).", "quantifier": "all shapes and images", "why_tests_cant": "All shapes, including single rows/columns.", "anchors": ["copt/tv_prox.py:tv2d_linear_operator", "copt/penalty.py:TotalVariation2D.__call__"]}
{"id": "C21", "title": "LogLoss evaluates the documented logistic loss up to a uniform tiny error", "statement": "For all A, b in [0,1]^n, alpha and x, LogLoss(A,b,alpha)(x) differs from -(1/n) sum b_i log sigma(a_i.x) + (1-b_i) log(1 - sigma(a_i.x)) + alpha/2||x||^2 by at most exp(-33) in exact arithmetic (logsig is a piecewise approximation), and the constructor rejects any b with an entry outside [0,1] and any shape mismatch.", "quantifier": "all matrices, labels, x in R^d", "why_tests_cant": "The piecewise approximation of log-sigmoid must be uniformly accurate on the whole real line, including at the four breakpoints.", "anchors": ["copt/loss.py:LogLoss.logsig", "copt/loss.py:LogLoss.f_grad", "copt/loss.py:LogLoss.__init__"]}
{"id": "C22", "title": "LogLoss.f_grad returns the gradient of the logistic loss", "statement": "For all A, b, alpha, x the second component of LogLoss.f_grad(x) is the gradient at x of the documented loss (with the alpha/2||x||^2 term).", "quantifier": "all matrices, labels, x", "why_tests_cant": "Finite-difference tests sample a handful of points with 1e-6 accuracy.", "anchors": ["copt/loss.py:LogLoss.f_grad", "copt/loss.py:LogLoss.expit_b"]}
{"id": "C23", "title": "expit_b and LogLoss.partial_deriv equal sigmoid(p) - y in both branches", "statement": "For every real p and y, expit_b(p, y) and partial_deriv(p, y) equal 1/(1+exp(-p)) - y, hence equal the derivative in p of the per-sample loss, whichever stability branch (p < 0 or p >= 0) is taken.", "quantifier": "all reals p, y", "why_tests_cant": "Continuum of arguments, two branches.", "anchors": ["copt/loss.py:LogLoss.expit_b", "copt/loss.py:LogLoss.partial_deriv"]}
{"id": "C24", "title": "LogLoss.lipschitz and max_lipschitz are valid smoothness constants", "statement": "For every data set, the gradient of the logistic loss is Lipschitz with constant LogLoss.lipschitz = s^2/(4n) + alpha (s the largest singular value of A), and every per-sample gradient is Lipschitz with constant max_lipschitz = max_i ||a_i||^2/4 + alpha.", "quantifier": "all A, b, alpha >= 0, all pairs x, y", "why_tests_cant": "A Lipschitz bound quantifies over all pairs of points.", "anchors": ["copt/loss.py:LogLoss.lipschitz", "copt/loss.py:LogLoss.max_lipschitz", "copt/utils.py:get_max_lipschitz"]}
{"id": "C25", "title": "LogLoss.hessian_mv multiplies by the Hessian of the loss", "statement": "For all A, b, alpha, x and s, LogLoss.hessian_mv(x)(s) equals the Hessian of the logistic loss (including the alpha/2||x||^2 term) at x applied to s.", "quantifier": "all data, alpha, x, s", "why_tests_cant": "The test only uses alpha = 0.", "anchors": ["copt/loss.py:LogLoss.hessian_mv"]}
{"id": "C26", "title": "SquareLoss: gradient, partial derivative and Lipschitz constant are correct", "statement": "For all A, b, alpha, x: SquareLoss.f_grad(x) returns the documented value 1/(2n)||Ax-b||^2 + alpha/2||x||^2 and its gradient; __call__ agrees; the gradient is Lipschitz with constant SquareLoss.lipschitz; partial_deriv is the derivative of the per-sample loss.", "quantifier": "all data, alpha, x, pairs of points", "why_tests_cant": "Universally quantified over data and points.", "anchors": ["copt/loss.py:SquareLoss"]}
{"id": "C27", "title": "HuberLoss: the loss is differentiable everywhere, f_grad returns its gradient and lipschitz is valid", "statement": "For all A, b, alpha, delta > 0 and x, HuberLoss.f_grad(x) returns the Huber loss and its gradient, including at residuals with |z| = delta; the gradient is Lipschitz with constant HuberLoss.lipschitz.", "quantifier": "all data, delta > 0, x", "why_tests_cant": "Random tests hit the branch boundary |z| = delta with probability zero.", "anchors": ["copt/loss.py:HuberLoss"]}
{"id": "C28", "title": "init_lipschitz terminates with a usable estimate", "statement": "For every objective, init_lipschitz returns 1e-3*10^k with k <= 100, performs at most 101 extra evaluations, and, unless k = 100, a gradient step of size 1/L0 from x0 does not increase the objective; no smaller candidate has that property; if the objective is L-smooth the result is at most max(1e-3, 5L) (for L below 1e97).", "quantifier": "all objectives, all starting points", "why_tests_cant": "Quantifies over all objectives.", "anchors": ["copt/utils.py:init_lipschitz"]}
{"id": "C29", "title": "fast_csr_mv and fast_csr_vm compute row-subset matrix products", "statement": "For every CSR matrix M (duplicates and unsorted indices allowed), every index list idx of valid rows and every x: fast_csr_mv returns (M[idx] @ x) and fast_csr_vm returns x @ M[idx]; repeated rows are handled; fast_csr_vm asserts matching lengths.", "quantifier": "all CSR matrices, index lists, vectors", "why_tests_cant": "Unbounded sparsity patterns.", "anchors": ["copt/utils.py:fast_csr_mv", "copt/utils.py:fast_csr_vm"]}
{"id": "C30", "title": "sample_batches: parallel schedule independence and sampling without replacement", "statement": "For every number of batches and batch size <= n_samples and every order in which the parallel loop executes its iterations, sample_batches returns the concatenation of the per-batch draws: each batch_size-slice consists of distinct sample indices < n_samples, and n_batches*batch_size entries are written exactly once.", "quantifier": "all sizes, all interleavings (permutations) of the parallel loop, all random draws", "why_tests_cant": "Schedules cannot be enumerated by tests.", "anchors": ["copt/utils.py:sample_batches"]}
{"id": "C31", "title": "Trace records exactly every freq-th call", "statement": "After any sequence of k callback calls, a Trace(f, freq) with freq >= 1 holds exactly ceil(k/freq) entries in each active list, which are the values at calls 0, freq, 2 freq, ...; with f = None stored iterates are snapshots (unaffected by later changes to the solver's array); __call__ never returns False so it never stops a solver; a negative freq behaves as |freq|; freq = 0 fails at the first call with ZeroDivisionError.", "quantifier": "all call histories, all freq", "why_tests_cant": "Unbounded histories.", "anchors": ["copt/utils.py:Trace"]}
{"id": "C32", "title": "parse_step_size maps each admissible specification to (initial value, strategy)", "statement": "parse_step_size returns a given pair unchanged, (v, 'fixed') for a float, (1, spec) for a callable or 'adaptive', and raises ValueError for any other value.", "quantifier": "all argument values", "why_tests_cant": "Decision table over an unbounded argument type; two-character strings are a trap.", "anchors": ["copt/utils.py:parse_step_size"]}
{"id": "C33", "title": "build_func_grad honours the documented meaning of jac", "statement": "For jac callable the gradient is jac(x), for jac = True fun returns value and gradient, for jac = '2-point', False or None the gradient is approximated by finite differences of fun.", "quantifier": "all fun, jac, x", "why_tests_cant": "The existing tests pass functions returning pairs together with the default jac, hiding the behaviour.", "anchors": ["copt/utils.py:build_func_grad"]}
{"id": "C34", "title": "safe_sparse_add returns the element-wise sum with the common shape", "statement": "For operands that represent the same vector space (a 1-D array of length n, or an n x 1 / 1 x n sparse matrix), safe_sparse_add(a, b) has n entries and equals the element-wise sum, whichever of the operands are sparse.", "quantifier": "all pairs of operand kinds and sizes", "why_tests_cant": "All shape/kind combinations.", "anchors": ["copt/utils.py:safe_sparse_add"]}
{"id": "C35", "title": "Frank-Wolfe iterates stay in the constraint set", "statement": "For every convex set, every lmo returning s - x with s in the set and maximal step in [0,1], every objective, and each of the step rules backtracking, DR (positive lipschitz) and sublinear, every iterate shown to the callback and the returned x of minimize_frank_wolfe (vanilla) belong to the set whenever x0 does.", "quantifier": "all convex sets, objectives, lmos, max_iter, tol >= 0, callbacks", "why_tests_cant": "All objectives and unbounded runs.", "anchors": ["copt/frank_wolfe.py:minimize_frank_wolfe", "copt/frank_wolfe.py:backtracking_step_size"]}
{"id": "C36", "title": "Frank-Wolfe stopping certificate bounds the suboptimality of the returned point", "statement": "For convex differentiable objectives and an exact lmo over the set, the certificate computed at x is an upper bound of f(x) - f(y) for every feasible y; hence whenever minimize_frank_wolfe stops because certificate <= tol the returned x satisfies f(x) <= min f + tol and result.certificate is its Frank-Wolfe gap.", "quantifier": "all convex objectives, sets, runs", "why_tests_cant": "Needs the (unknown) minimum of arbitrary objectives.", "anchors": ["copt/frank_wolfe.py:minimize_frank_wolfe"]}
{"id": "C37", "title": "Frank-Wolfe result.certificate is the gap of result.x", "statement": "In every normal return of minimize_frank_wolfe the reported certificate is the Frank-Wolfe gap at the returned x.", "quantifier": "all runs, including those stopped by max_iter or by the callback", "why_tests_cant": "Depends on why the loop ended.", "anchors": ["copt/frank_wolfe.py:minimize_frank_wolfe"]}
{"id": "C38", "title": "Backtracking line search contract", "statement": "backtracking_step_size returns, for every objective and positive gap: a step in [0, max_step_size], a Lipschitz estimate at least 0.9 times the input one, f_next/grad_next evaluated exactly at x + step*direction; if it does not warn, f_next <= f_t - step*gap/2 + EPS; and it never warns if the objective satisfies the quadratic upper bound with constant L <= 2^99 * 0.9 * lipschitz_t; the returned estimate is then at most max(lipschitz_t, 2L).", "quantifier": "all objectives, points, directions, estimates", "why_tests_cant": "Universally quantified over objectives; exhausting 100 iterations cannot be sampled.", "anchors": ["copt/frank_wolfe.py:backtracking_step_size"]}
{"id": "C39", "title": "Frank-Wolfe with sublinear steps converges at rate 2LD^2/(t+2)", "statement": "For every convex L-smooth objective and constraint set of diameter D, the iterate of minimize_frank_wolfe(step='sublinear') at iteration t >= 1 satisfies f(x_t) - f(y) <= 2 L D^2/(t+2) for every feasible y.", "quantifier": "all convex smooth objectives, sets, t", "why_tests_cant": "A rate is a statement about all objectives and all t.", "anchors": ["copt/frank_wolfe.py:minimize_frank_wolfe"]}
{"id": "C40", "title": "Frank-Wolfe with DR steps decreases monotonically and converges at rate 2LD^2/(t+2)", "statement": "For every L-smooth objective with lipschitz = L > 0, each DR step does not increase the objective and decreases it by at least min(gap/2, gap^2/(2 L ||d||^2)) for maximal step 1; for convex objectives f(x_t) - min <= 2LD^2/(t+2).", "quantifier": "all smooth objectives, sets, t", "why_tests_cant": "All objectives and all iterations.", "anchors": ["copt/frank_wolfe.py:minimize_frank_wolfe"]}
{"id": "C41", "title": "Pairwise Frank-Wolfe: the active set is always a convex decomposition of the iterate", "statement": "In every run of minimize_frank_wolfe(variant='pairwise') with L1Ball.lmo_pairwise, x0 a vertex and backtracking or DR steps: all weights are >= 0, sum to 1, x equals the weighted sum of the active vertices (so it stays in the ball), and the run never raises 'step size too large'.", "quantifier": "all objectives, all runs", "why_tests_cant": "Invariant over unbounded histories of a mutable dictionary.", "anchors": ["copt/frank_wolfe.py:update_active_set", "copt/frank_wolfe.py:minimize_frank_wolfe", "copt/constraint.py:L1Ball.lmo_pairwise"]}
{"id": "C42", "title": "A drop step removes the away vertex from the active set", "statement": "After update_active_set with a step equal to the away vertex' weight, that vertex is no longer a key of the active set (so it cannot be selected as away vertex again and the method cannot stall with maximal step 0).", "quantifier": "all active sets, all drop steps", "why_tests_cant": "The defaultdict re-inserts a key on lookup; invisible in weights.", "anchors": ["copt/frank_wolfe.py:update_active_set"]}
{"id": "C43", "title": "Frank-Wolfe argument validation, callback protocol and iteration count", "statement": "minimize_frank_wolfe raises ValueError for tol < 0 or an unknown variant, for step='DR' without lipschitz and for an unknown step when a step is needed; a callback returning False stops before the step is applied; nit < max_iter; the callback runs once per iteration plus once at the end; for max_iter >= 1 the call returns normally in all other cases.", "quantifier": "all arguments, stateful callbacks, all runs", "why_tests_cant": "Unbounded runs and arbitrary stateful callbacks.", "anchors": ["copt/frank_wolfe.py:minimize_frank_wolfe"]}
{"id": "C44", "title": "Proximal gradient with backtracking never increases the objective", "statement": "For every differentiable f and convex g with exact prox, each iteration of minimize_proximal_gradient (non accelerated, backtracking) whose line search succeeds satisfies F(x_{k+1}) <= F(x_k) - ||x_{k+1} - x_k||^2/(2 s) with s the step used for the prox.", "quantifier": "all f, convex g, all iterations", "why_tests_cant": "All objectives; the 1.1 growth factor is applied between computing the candidate and testing it.", "anchors": ["copt/proximal_gradient.py:minimize_proximal_gradient"]}
{"id": "C45", "title": "Proximal gradient line search terminates with a bounded step size", "statement": "If f satisfies the quadratic upper bound with constant L, the backtracking loop succeeds within any number of iterations large enough that 1.1*step*factor^m <= 1/L, and the step size always stays >= min(initial step, factor/L); in particular no line-search warning is issued.", "quantifier": "all L-smooth f, all g, all iterations", "why_tests_cant": "Quantifies over all objectives and histories.", "anchors": ["copt/proximal_gradient.py:minimize_proximal_gradient"]}
{"id": "C46", "title": "Proximal gradient success implies near-stationarity of the returned point", "statement": "Whenever minimize_proximal_gradient (non accelerated) reports success, there is v in grad f(x) + subdifferential g(x) at the returned x with ||v|| <= (1.1 + L*step)*tol; and success holds exactly when certificate < tol.", "quantifier": "all L-smooth f, convex g, all runs", "why_tests_cant": "All objectives; requires subdifferentials.", "anchors": ["copt/proximal_gradient.py:minimize_proximal_gradient"]}
{"id": "C47", "title": "Proximal gradient converges at rate O(1/k)", "statement": "For convex f and g, after k iterations with successful line searches, F(x_k) - F(y) <= ||x_0 - y||^2/(2 * sum of steps used) for every y.", "quantifier": "all convex f, g, all y, all k", "why_tests_cant": "A rate is a statement about all problems.", "anchors": ["copt/proximal_gradient.py:minimize_proximal_gradient"]}
{"id": "C48", "title": "Proximal gradient iteration accounting and non-convergence warning", "statement": "nit <= max_iter; a run performs nit + 1 iterations unless stopped by the callback; if the run stops because max_iter is exhausted a RuntimeWarning is issued, and no such warning is issued when success is True; max_iter_backtracking <= 0 and unknown step strategies raise ValueError.", "quantifier": "all runs, all parameter values", "why_tests_cant": "Warning logic depends on the unbounded loop exit path.", "anchors": ["copt/proximal_gradient.py:minimize_proximal_gradient"]}
{"id": "C49", "title": "Accelerated proximal gradient: success certifies the returned point", "statement": "When minimize_proximal_gradient(accelerated=True) reports success, the returned x has a gradient mapping below tol (up to a constant depending only on L*step).", "quantifier": "all objectives, all step rules", "why_tests_cant": "The certificate mixes the previous iterate with the new one; failures need special step sizes.", "anchors": ["copt/proximal_gradient.py:minimize_proximal_gradient"]}
{"id": "C50", "title": "Accelerated proximal gradient converges at rate 2||x0-x*||^2/(s (k+1)^2)", "statement": "For convex L-smooth f, convex g and a constant callable step s <= 1/L, the k-th iterate of the accelerated method satisfies F(x_k) - F(y) <= 2||x_0 - y||^2/(s (k+1)^2).", "quantifier": "all convex problems, all y, all k", "why_tests_cant": "A rate is a statement about all problems and all k.", "anchors": ["copt/proximal_gradient.py:minimize_proximal_gradient"]}
{"id": "C51", "title": "Three-operator splitting: success implies an approximate primal-dual optimality condition", "statement": "Whenever minimize_three_split reports success (any line search behaviour), there are points x (returned) and z with ||x - z|| = certificate*step < tol*step and subgradients p of g at x and q of h at z with ||grad f(z) + p + q|| <= certificate < tol; with certificate = 0 the returned x is a global minimiser of f+g+h for convex f, g, h.", "quantifier": "all f, convex g, h, all runs, histories of step sizes", "why_tests_cant": "All problems and unbounded runs.", "anchors": ["copt/splitting.py:minimize_three_split"]}
{"id": "C52", "title": "Three-operator splitting: iteration accounting, callback and defaults", "statement": "nit < max_iter, success only from the second iteration on and exactly when certificate < tol, a callback returning False stops the run, a missing step_size forces line search, the step size only shrinks when h_Lipschitz is None, max_iter_backtracking <= 0 raises ValueError.", "quantifier": "all runs and callbacks", "why_tests_cant": "Unbounded runs, stateful callbacks.", "anchors": ["copt/splitting.py:minimize_three_split"]}
{"id": "C53", "title": "Primal-dual: the internally used conjugate prox is the Moreau decomposition", "statement": "For every convex h with exact prox and every ss > 0, y = x - ss*prox_2(x/ss, 1/ss) is the proximal point of the conjugate: y is a subgradient of h at (x - y)/ss, equivalently y minimises h*(y) + ||y-x||^2/(2 ss).", "quantifier": "all convex h, x, ss > 0", "why_tests_cant": "All functions h.", "anchors": ["copt/splitting.py:minimize_primal_dual"]}
{"id": "C54", "title": "Primal-dual: stationary iterations are saddle points, success is only decided every 100 iterations", "statement": "If an iteration of minimize_primal_dual (with or without line search) leaves x and y unchanged then x minimises f + g + h(L.) and y is a dual solution; success implies nit is a multiple of 100 and norm_incr < tol at that iteration; a RuntimeWarning is issued when max_iter is exhausted.", "quantifier": "all convex problems, all runs", "why_tests_cant": "All problems, unbounded runs.", "anchors": ["copt/splitting.py:minimize_primal_dual"]}
{"id": "C55", "title": "Primal-dual: the line search loop terminates", "statement": "For every L-smooth f, convex g with exact prox and bounded linear operator, the inner 'while True' loop of minimize_primal_dual exits after finitely many reductions in every iteration.", "quantifier": "all problems, all iterations", "why_tests_cant": "Termination of an unbounded loop for all inputs.", "anchors": ["copt/splitting.py:minimize_primal_dual"]}
{"id": "C56", "title": "The extended support matrix lists for each sample exactly the blocks it touches, once", "statement": "For every CSR sparsity pattern and block map, row i of the support matrix returned to the variance-reduced solvers contains exactly the blocks containing a feature of sample i, each exactly once, in order of first occurrence; all writes stay within the preallocated arrays and the work array is clean afterwards.", "quantifier": "all sparsity patterns and block structures", "why_tests_cant": "Unbounded patterns; unchecked compiled code.", "anchors": ["copt/randomized.py:_support_matrix"]}
{"id": "C57", "title": "SAGA keeps gradient_average equal to the average of the memory table", "statement": "For every sequence of sampled indices (every shuffle history), every derivative function and prox, after each inner step of minimize_saga gradient_average equals (1/n) sum_i memory_gradient[i] * A_i, the scratch gradient is zero, and memory_gradient[i] is the derivative at the point where sample i was last drawn.", "quantifier": "all data, all sample histories", "why_tests_cant": "Invariant over unbounded random histories.", "anchors": ["copt/randomized.py:minimize_saga"]}
{"id": "C58", "title": "SAGA block reweighting makes the sparse update unbiased and local", "statement": "For every data set and block structure, averaging the update direction of minimize_saga over a uniformly drawn sample gives exactly the full gradient (data term plus alpha*x) on every feature whose block is touched by some sample; features outside the sampled blocks are not modified by a step; features whose block is never touched are never modified.", "quantifier": "all data, blocks, states x, memory", "why_tests_cant": "Expectation identity over all data sets.", "anchors": ["copt/randomized.py:minimize_saga"]}
{"id": "C59", "title": "SAGA fixed points are exactly the solutions", "statement": "If x is a minimiser of (1/n) sum f_i + alpha/2||x||^2 + block-separable convex g and the memory holds the derivatives at x, every SAGA step for every sample leaves x unchanged; conversely if no sample moves x with such a memory then x satisfies the optimality condition on every touched block.", "quantifier": "all problems, all samples", "why_tests_cant": "All data, penalties.", "anchors": ["copt/randomized.py:minimize_saga"]}
{"id": "C60", "title": "SVRG: snapshot gradient is exact and the inner direction is unbiased", "statement": "full_grad(x) is the exact gradient of the data term; for every state within an epoch the inner update direction averaged over samples equals the gradient at the current x on touched blocks, for every block structure.", "quantifier": "all data, block structures, states within an epoch", "why_tests_cant": "The scratch vector is never cleared: only multi-feature blocks and particular histories expose it.", "anchors": ["copt/randomized.py:minimize_svrg"]}
{"id": "C61", "title": "VRTOS keeps its memory invariant and its fixed points solve the three-term problem", "statement": "For every sample history gradient_average is the average of the memory table; if x1 = x2 = z and no step changes the state for any sample then z satisfies the optimality condition of (1/n) sum f_i + alpha/2||.||^2 + g + h on blocks touched by both structures.", "quantifier": "all data, penalties, histories", "why_tests_cant": "Unbounded histories.", "anchors": ["copt/randomized.py:minimize_vrtos", "copt/randomized.py:_factory_sparse_vrtos"]}
{"id": "C62", "title": "VRTOS leaves the caller's x0 untouched and honours tol", "statement": "minimize_vrtos does not modify the array x0 passed by the caller, and stops with success=True once the certificate is below tol.", "quantifier": "all calls", "why_tests_cant": "Aliasing and a missing stopping test are not visible from the returned x.", "anchors": ["copt/randomized.py:minimize_vrtos"]}
{"id": "C63", "title": "VRTOS only reads initialised memory", "statement": "For every sparsity pattern and pair of block structures, all reads of the reweighting arrays d1, d2 in the compiled inner loop are within bounds.", "quantifier": "all patterns and block structures", "why_tests_cant": "Unchecked compiled code: an out-of-bounds read is silent.", "anchors": ["copt/randomized.py:_factory_sparse_vrtos"]}
{"id": "C64", "title": "Stochastic Frank-Wolfe step sizes are admissible", "statement": "For every iteration counter t >= 0, batch size and number of samples with 1 <= batch_size <= n_samples, the step sizes of the SAG, SAGA, MHK and LF rules lie in (0, 1] and the LF aggregation weight lies in (0,1).", "quantifier": "all t, n_samples, batch_size", "why_tests_cant": "All t.", "anchors": ["copt/randomized.py:step_size_sfw"]}
{"id": "C65", "title": "Stochastic Frank-Wolfe iterates stay in the constraint set", "statement": "For every convex set, lmo returning s - x with s in the set, every data set, derivative, sampling history and variant with step_size='sublinear', all iterates and the result of minimize_sfw belong to the set whenever x0 does.", "quantifier": "all sets, data, sampling histories, variants", "why_tests_cant": "Unbounded random histories.", "anchors": ["copt/randomized.py:minimize_sfw"]}
{"id": "C66", "title": "Stochastic Frank-Wolfe with step_size='DR' stays in the constraint set", "statement": "The same feasibility guarantee holds for step_size='DR' with a positive lipschitz constant, for every variant that accepts it.", "quantifier": "all sets, data, sampling histories, variants", "why_tests_cant": "The gap estimate and the lmo use different gradient estimates for SAGA; the sign of the step depends on the random history.", "anchors": ["copt/randomized.py:minimize_sfw", "copt/randomized.py:step_size_DR"]}
{"id": "C67", "title": "Stochastic Frank-Wolfe keeps its aggregated gradient consistent with the dual variables", "statement": "For every sampling history in which batches have no repeated index and every variant, after each step the aggregated gradient equals sum_i dual_var[i]*A_i; for SAG/SAGA dual_var[i] is 1/n times the derivative at the point where i was last drawn, and the SAGA estimate is unbiased for batch size 1.", "quantifier": "all data, sampling histories, variants", "why_tests_cant": "Invariant over unbounded histories.", "anchors": ["copt/randomized.py:minimize_sfw"]}
{"id": "C68", "title": "Stochastic Frank-Wolfe stops at tolerance and supports all documented step-size options", "statement": "Once the change between successive iterates is below tol, minimize_sfw stops with success = True; a callable step_size is used as documented.", "quantifier": "all runs", "why_tests_cant": "A break out of the inner loop only; undetected when the returned x is still good.", "anchors": ["copt/randomized.py:minimize_sfw"]}
{"id": "C69", "title": "Dataset loading is recoverable after a crash at any point", "statement": "For the lazily downloaded datasets: if a call is interrupted at any point (crash during directory creation, download or extraction), a later uninterrupted call succeeds and returns the complete data; a call that finds the data present does not touch the network.", "quantifier": "all crash points, all histories of interrupted calls", "why_tests_cant": "Crash points cannot be enumerated in unit tests.", "anchors": ["copt/datasets.py:_load_dataset"]}
{"id": "C70", "title": "Dataset checksum mismatch leads to a retry of the same dataset", "statement": "If the checksum of a downloaded archive does not match, the loader removes the file, downloads the same dataset again, and whatever is returned is the requested dataset with a matching checksum; an already cached archive is never returned unverified.", "quantifier": "all sequences of (corrupted or good) downloads, loaders load_url, load_kdd10, load_kdd12, load_criteo", "why_tests_cant": "Histories of network failures.", "anchors": ["copt/datasets.py:load_url", "copt/datasets.py:load_kdd10", "copt/datasets.py:load_kdd12", "copt/datasets.py:load_criteo"]}
{"id": "C71", "title": "The njit fallback is transparent", "statement": "When numba is absent, both decorator forms @njit and @njit(options) return a function with exactly the behaviour (results and exceptions) of the decorated one for all positional and keyword arguments.", "quantifier": "all functions, options and arguments", "why_tests_cant": "All functions.", "anchors": ["copt/utils.py:njit"]}
{"id": "C72", "title": "Proximal gradient accepts any real-valued starting array", "statement": "minimize_proximal_gradient started from an array holding the same numbers behaves identically whether the array has integer or floating point type.", "quantifier": "all problems and starting points", "why_tests_cant": "Depends on dtype of the caller's array.", "anchors": ["copt/proximal_gradient.py:minimize_proximal_gradient"]}
{"id": "C73", "title": "Projections and proximal operators are nonexpansive, projections are idempotent", "statement": "For all pairs of inputs x, y the outputs of the dense projections (Linf, L2, L1 balls, simplex) and of the dense prox operators (L1, group L1, 1-D TV) are at most as far apart as x and y; projecting twice equals projecting once.", "quantifier": "all pairs of inputs", "why_tests_cant": "All pairs of a continuum.", "anchors": ["copt/constraint.py", "copt/penalty.py", "copt/tv_prox.py"]}
{"id": "C74", "title": "Three-operator splitting with a fixed step converges", "statement": "For convex L-smooth f and convex g, h, with line_search=False and 0 < step_size <= 1/L, the distance of the internal point z + step*u to any fixed point never increases and the certificate tends to zero: min over the first k iterations of certificate^2 is O(1/k).", "quantifier": "all convex problems with a solution, all k", "why_tests_cant": "A convergence statement about all problems.", "anchors": ["copt/splitting.py:minimize_three_split"]}
{"id": "C75", "title": "prox_tv2d converges", "statement": "For every image w, step >= 0 and tol > 0, prox_tv2d stops without the non-convergence warning as soon as max_iter*tol^2 > ||w||^2.", "quantifier": "all image sizes, images, steps, tolerances and iteration limits", "why_tests_cant": "A convergence guarantee for every image; tests sample a few images with one tolerance.", "anchors": ["copt/tv_prox.py:c_prox_tv2d", "copt/tv_prox.py:prox_tv2d"]}
{"id": "C76", "title": "LogLoss with intercept=True", "statement": "For all A, b, alpha and every coefficient vector with a trailing intercept, LogLoss.f_grad with intercept=True returns the pair (value, gradient) of the logistic loss with unpenalised intercept, like it does without intercept.", "quantifier": "all data, alpha, coefficient vectors", "why_tests_cant": "A continuum of inputs; the intercept branch has no tests.", "anchors": ["copt/loss.py:LogLoss.f_grad"]}
{"id": "C77", "title": "primal-dual line search keeps the ratio of step sizes", "statement": "With the line search on, the two step sizes of minimize_primal_dual keep the ratio the caller chose: after every iteration step_size2/step_size is what it was before the first.", "quantifier": "all functions, linear maps, starting points, step sizes, iteration counts", "why_tests_cant": "The tests only look at the final iterate with equal defaults; the ratio after every number of iterations is never inspected.", "anchors": ["copt/splitting.py:minimize_primal_dual"]}
{"id": "C78", "title": "primal-dual without line search converges", "statement": "Without line search, for convex f with L-Lipschitz gradient, convex g and h, ||M x|| <= m||x|| and step sizes with m^2 < (1/sigma - L/2)/tau: the distance to every saddle point in the metric ||dx||^2/sigma + ||dy||^2/tau + 2<M dx, dy> never increases, the squared moves are summable with an explicit bound, and with tol > 0, no callback and enough iterations the run reports success.", "quantifier": "all Hilbert spaces, functions, linear maps, starting points, admissible step sizes and tolerances", "why_tests_cant": "A convergence rate over all problems and all numbers of iterations; tests run a few problems for a fixed number of iterations.", "anchors": ["copt/splitting.py:minimize_primal_dual"]}
{"id": "C79", "title": "three-operator splitting with h_Lipschitz keeps a usable step size", "statement": "When h_Lipschitz is given, the step size stays positive and finite and grows by at most 2% per iteration.", "quantifier": "all functions, starting points, positive first step sizes, backtracking factors in (0,1), line search limits and h_Lipschitz values", "why_tests_cant": "The square root of a negative number appears only after a failed line search, which no test provokes.", "anchors": ["copt/splitting.py:minimize_three_split"]}
{"id": "C80", "title": "VRTOS fixed points solve the problem on every feature they update", "statement": "If no sample changes the state of minimize_vrtos and gradient_average agrees with the memory, then z satisfies the optimality condition of (1/n) sum f_i + alpha/2||.||^2 + g + h against every change of features that the method updates, i.e. features touched through at least one of the two block structures.", "quantifier": "all data, block structures, penalties, step sizes, fixed states", "why_tests_cant": "Needs a column that is empty but shares a block with a non-empty one; the tests use dense random data.", "anchors": ["copt/randomized.py:_factory_sparse_vrtos"]}
{"id": "C81", "title": "Stochastic Frank-Wolfe with the pairwise oracle keeps a convex decomposition", "statement": "With lmo_variant='pairwise' and an x0 that is a vertex, minimize_sfw never raises for any step_size it accepts, and the active set has non-negative weights summing to 1 whose weighted vertices sum to x.", "quantifier": "all data, derivatives, sampling histories, iteration counts, step size rules", "why_tests_cant": "The step size rule ignores the largest admissible step; whether it is exceeded depends on the history of weights.", "anchors": ["copt/randomized.py:minimize_sfw", "copt/frank_wolfe.py:update_active_set"]}
{"id": "C82", "title": "SAGA contracts in expectation towards the minimiser", "statement": "For convex losses with M-Lipschitz derivatives, rows of squared norm at most R, convex block penalties and a step size at most 1/(9MR) and 1/(3 alpha D) (D the largest reweighting factor), one inner step of minimize_saga on a uniformly drawn sample multiplies the expected Lyapunov function (squared distance to a minimiser plus weighted squared distance of the memory) by at most 1 - min(1/(2n), step(alpha+mu)), from every state whose memory is consistent; hence after T independent uniform draws the expected squared distance is at most that factor to the power T times its initial value.", "quantifier": "all data, losses, block structures, penalties, step sizes in range, states, numbers of steps", "why_tests_cant": "An expectation over all sampling histories; tests look at one run.", "anchors": ["copt/randomized.py:_factory_sparse_saga"]}
{"id": "C83", "title": "SVRG converges linearly for every order in which the passes visit the samples", "statement": "On a smooth strongly convex problem (convex losses with M-Lipschitz derivatives, rows of squared norm at most R, every block touched by one sample in D, no penalty, single-feature blocks or blocks stored in full) with 8 n step (MR + alpha D) D (MR + alpha) <= mu, minimize_svrg returns for every sequence of permutations drawn by np.random.shuffle; after nit + 1 passes the distance to the minimiser is at most (1 - n step mu / 4)^(nit + 1) times the initial distance, and when success is False all max_iter passes were made and tol <= 2 sqrt(p) (1 - n step mu / 4)^nit times the initial distance.", "quantifier": "all data, losses, permutations of every pass, starting points, max_iter, tol", "why_tests_cant": "The bound is over all n! orders of every pass and all problem sizes.", "anchors": ["copt/randomized.py:minimize_svrg"]}
{"id": "C84", "title": "SAGA converges linearly for every order in which the passes visit the samples", "statement": "On a smooth strongly convex problem as in C83 with any block structure and 40 n step ((1+D)MR + alpha D) D (MR + alpha) <= mu, minimize_saga returns for every sequence of permutations; after nit + 1 passes the distance to the minimiser is at most (1 - n step mu / 4)^(nit + 1) times (initial distance + 2 n step (1+D) m), m a bound on the initial sample gradients, and when success is False all max_iter passes were made and tol is at most 2 sqrt(p) (1 - n step mu / 4)^nit times that constant.", "quantifier": "all data, losses, block structures, permutations of every pass, starting points, max_iter, tol", "why_tests_cant": "The bound is over all n! orders of every pass, with memory carried between passes.", "anchors": ["copt/randomized.py:minimize_saga", "copt/randomized.py:_factory_sparse_saga"]}
{"id": "C85", "title": "Accelerated proximal gradient with backtracking attains the FISTA rate", "statement": "With step='backtracking' and accelerated=True, for convex f with L-Lipschitz gradient and an exact prox: every line search ends by acceptance with a step at least min(step0, factor/L) (at least min(1800, 0.36/L) with the default parameters), every iterate is the proximal gradient step from yk with the accepted step, and F(x_k) - F(y) <= 2 ||x0 - y||^2 / (s_k (k+1)^2) for every minimiser y.", "quantifier": "all functions, prox operators, starting points, max_iter, tolerances", "why_tests_cant": "Rate for all k and all functions; tests run a few data sets.", "anchors": ["copt/proximal_gradient.py:minimize_proximal_gradient"]}
{"id": "C86", "title": "trace_certificate records one certificate per iteration", "statement": "res.trace_certificate is empty when trace_certificate is False and otherwise holds the certificate of every iteration in order, for every step rule, accelerated or not.", "quantifier": "all runs, all parameter values", "why_tests_cant": "Depends on the branch taken in each of unboundedly many iterations.", "anchors": ["copt/proximal_gradient.py:minimize_proximal_gradient"]}
{"id": "C87", "title": "Frank-Wolfe stops before max_iter with a certificate below the tolerance", "statement": "For an L-smooth objective bounded below by flow on a set of diameter D: with step='DR' the run ends by the stopping test with certificate <= tol whenever f(x0) - flow < max_iter * min(tol/2, tol^2/(2 L D^2)); with step='backtracking' and a given positive lipschitz the same holds with min(tol/2, tol^2/(2 M D^2)) - 2^-23 in place of the gain, M = max(lipschitz, 2 L), as long as the estimate cannot leave the reach of the 100 doublings.", "quantifier": "all smooth objectives (convex or not), linear minimisation oracles, starting points, tol, max_iter", "why_tests_cant": "A bound on the number of iterations for every objective; tests check a handful of data sets.", "anchors": ["copt/frank_wolfe.py:minimize_frank_wolfe", "copt/frank_wolfe.py:backtracking_step_size"]}
{"id": "C88", "title": "Frank-Wolfe with its default arguments stops", "statement": "With the default step='backtracking' and lipschitz=None, minimize_frank_wolfe on a smooth convex objective over a bounded set ends by the stopping test for every tol > 0 and large enough max_iter.", "quantifier": "all smooth convex objectives, oracles, starting points, tol", "why_tests_cant": "The failing objectives are flat between two nearby points of the start; a random test does not hit them.", "anchors": ["copt/frank_wolfe.py:minimize_frank_wolfe", "copt/utils.py:init_lipschitz", "copt/frank_wolfe.py:backtracking_step_size"]}
{"id": "C89", "title": "Proximal gradient reports success within an explicit number of iterations", "statement": "minimize_proximal_gradient with its default backtracking line search, on an L-smooth f and a convex g with exact prox, returns success=True with a certificate below tol whenever (max_iter + 1) tol^2 s / 2 exceeds F(x0) - inf F, where s = min(initial step, factor/L) is the least step the search can accept (min(1800, 0.36/L) with the default parameters); the returned point is then nearly stationary, with a subgradient of F of norm at most (1.1 + L s_last) tol.", "quantifier": "all smooth f, all convex g with exact prox, starting points, tol, max_iter", "why_tests_cant": "An iteration bound for every problem instance.", "anchors": ["copt/proximal_gradient.py:minimize_proximal_gradient"]}
{"id": "C90", "title": "Proximal gradient contracts linearly on strongly convex problems", "statement": "With backtracking on an L-smooth mu-strongly convex f and convex g with exact prox, every iteration contracts the squared distance to the minimiser by 1 - mu * (step used), and after k iterations the squared distance is at most (1 - mu s / 1.1)^k times the initial one, s = min(initial step, factor/L).", "quantifier": "all strongly convex f, convex g with exact prox, starting points, number of iterations", "why_tests_cant": "A rate for all iterations and problems.", "anchors": ["copt/proximal_gradient.py:minimize_proximal_gradient"]}
{"id": "C91", "title": "The stochastic solvers stop when they say they do, and fail only as documented by their argument checks", "statement": "minimize_saga and minimize_svrg run epochs on the given shuffles from x0, stop after the first epoch that moves the iterate by less than tol in absolute sum or after max_iter epochs; success tells which, nit is the number of the last epoch, x the last iterate. On well-formed data they raise ValueError exactly when no step size is given or the data store no entry, UnboundLocalError when max_iter is 0, and otherwise return without any access out of range. minimize_vrtos refuses targets of the wrong length and negative steps, and otherwise runs the warm-up step and exactly max_iter epochs.", "quantifier": "all data, losses, block structures, proximal routines, shuffles, tol, max_iter", "why_tests_cant": "Quantifies over every shuffle of every epoch and every run length.", "anchors": ["copt/randomized.py:minimize_saga", "copt/randomized.py:minimize_svrg", "copt/randomized.py:minimize_vrtos"]}
{"id": "C92", "title": "The proximal gradient methods solve the regularised regression problems of the library with step 1/f.lipschitz", "statement": "For every loss object f of loss.py and every penalty or constraint object pen with an exact prox, the loss satisfies the smoothness and convexity contracts with the constant f.lipschitz and pen.prox the proximal contract, so that minimize_proximal_gradient(f.f_grad, x0, pen.prox, step=lambda x: 1/f.lipschitz) returns after k iterations a point whose objective f + pen exceeds that of any point y by at most f.lipschitz ||x0-y||^2/(2k), and with accelerated=True by at most 2 f.lipschitz ||x0-y||^2/(k+1)^2.", "quantifier": "all data matrices, labels, regularisation parameters, penalties, starting points, tolerances, callbacks, numbers of iterations", "why_tests_cant": "A rate for all data sets; an error in any of the parts (gradient, Lipschitz constant, prox, momentum) breaks it only on some.", "anchors": ["copt/proximal_gradient.py:minimize_proximal_gradient", "copt/loss.py:LogLoss", "copt/loss.py:SquareLoss", "copt/loss.py:HuberLoss", "copt/penalty.py:L1Norm", "copt/penalty.py:GroupL1", "copt/penalty.py:FusedLasso", "copt/constraint.py:L1Ball", "copt/constraint.py:L2Ball", "copt/constraint.py:LinfBall", "copt/constraint.py:SimplexConstraint"]}
{"id": "C93", "title": "The proximal gradient method with its default parameters solves least-squares and Huber regression", "statement": "minimize_proximal_gradient(f.f_grad, x0, pen.prox) with the default backtracking search, f a squared or Huber loss with L = f.lipschitz <= 1e190, never exhausts a line search, returns after k iterations a point whose objective exceeds that of any y by at most 0.55 ||x0-y||^2/(k min(1800, 0.36/L)), contracts linearly when alpha > 0, and reports success before max_iter once (max_iter+1) tol^2 min(1800, 0.36/L)/2 exceeds the initial objective.", "quantifier": "all data matrices, targets, regularisation parameters, penalties, starting points, tolerances", "why_tests_cant": "A rate for all data sets with explicit constants.", "anchors": ["copt/proximal_gradient.py:minimize_proximal_gradient", "copt/loss.py:LogLoss", "copt/loss.py:SquareLoss", "copt/loss.py:HuberLoss", "copt/penalty.py:L1Norm", "copt/penalty.py:GroupL1", "copt/penalty.py:FusedLasso", "copt/constraint.py:L1Ball", "copt/constraint.py:L2Ball", "copt/constraint.py:LinfBall", "copt/constraint.py:SimplexConstraint"]}
{"id": "C94", "title": "Frank-Wolfe solves regression over the l1 ball", "statement": "minimize_frank_wolfe(f.f_grad, x0, L1Ball(alpha).lmo) from a point of the ball, for every loss object of loss.py, with step='sublinear' or step='DR' and lipschitz=f.lipschitz: every iterate t >= 1 satisfies f(x_t) - f(y) <= 8 f.lipschitz alpha^2/(t+2) for all y of the ball; a certificate of at most tol implies tol-optimality; with step='DR' the run ends with such a certificate once max_iter min(tol/2, tol^2/(8 L alpha^2)) exceeds f(x0).", "quantifier": "all data matrices, labels, radii, starting points in the ball, tol, max_iter", "why_tests_cant": "A rate and an iteration bound for all data sets.", "anchors": ["copt/frank_wolfe.py:minimize_frank_wolfe", "copt/constraint.py:L1Ball", "copt/loss.py:LogLoss", "copt/loss.py:SquareLoss", "copt/loss.py:HuberLoss"]}
{"id": "C95", "title": "Callbacks of the proximal gradient, accelerated and primal-dual methods", "statement": "A callback passed to minimize_proximal_gradient (both variants) or minimize_primal_dual is called once per iteration with the iterate that the same call without callback would return after that many iterations; the run stops through the callback exactly when the last of these calls returned False and none before did, and then returns the x shown to that call with success=False; a callback that never returns False changes nothing.", "quantifier": "for all objectives, proximal operators, step rules, iteration limits, tolerances and callbacks (arbitrary functions of the iteration number and the local variables)", "why_tests_cant": "tests pass a tracing callback that returns None on one problem; the statement relates the run to another run of the solver for every callback", "anchors": ["copt/proximal_gradient.py:141-145", "copt/proximal_gradient.py:203-208", "copt/splitting.py:331-333"]}
{"id": "C96", "title": "The LMOs of constraint.py can be called by the Frank-Wolfe solvers", "statement": "Every lmo method of constraint.py accepts the call lmo(-grad, x, active_set) made by minimize_frank_wolfe and minimize_sfw, so that a run with it does not raise TypeError.", "quantifier": "for all constraint objects, gradients, iterates, active sets and solver arguments", "why_tests_cant": "no test passes SimplexConstraint to a Frank-Wolfe solver; its lmo has no active_set parameter", "anchors": ["copt/constraint.py:95", "copt/constraint.py:130", "copt/constraint.py:179", "copt/frank_wolfe.py:252", "copt/randomized.py:898"]}
{"id": "C97", "title": "Frank-Wolfe solves regression problems on the trace-norm ball", "statement": "minimize_frank_wolfe(f.f_grad, x0, TraceBall(alpha, (M, N)).lmo) with step='sublinear', or step='DR' and lipschitz=f.lipschitz, satisfies f(x_t) - min f <= 8 f.lipschitz alpha^2 / (t + 2) over the trace-norm ball, and with step='DR' and max_iter * min(tol/2, tol^2/(8 L alpha^2)) > f(x0) it raises nothing and stops at a tol-optimal point of the ball.", "quantifier": "for all shapes, losses (logistic, squared, Huber), data sets, radii, starting points of the ball, tolerances and iteration numbers, svds exact", "why_tests_cant": "tests run one random problem and check the certificate; the bound for all data and iterations needs a proof", "anchors": ["copt/constraint.py:306-326", "copt/frank_wolfe.py:251-305", "copt/loss.py:198-201"]}
{"id": "C98", "title": "SAGA and SVRG with a penalty converge linearly for every visiting order", "statement": "minimize_saga and minimize_svrg on mean loss + (alpha/2)|x|^2 + block-separable penalty, with step_size <= 1/(10 n L D) (L = smoothness of a sample plus alpha, D = 1/frequency of the rarest block) and passes that visit every sample exactly once in any order: if the objective grows at least as mu/2 |y - x*|^2, the objective of the result exceeds the minimum by at most a constant of the starting point times (1 + mu step/(40 D))^-nit (SVRG: (1 + mu step/(20 D))^-(nit+1)), and success=False implies that all max_iter passes were made and tol is below a bound decreasing at half that rate.", "quantifier": "for all data matrices without duplicate entries, convex losses with Lipschitz derivative, convex block penalties with their proximal operator, block structures, permutations (no randomness assumed), tol, max_iter; SVRG when samples store the blocks they touch in full", "why_tests_cant": "tests run one seed; the shuffle decides the iterates, and a guarantee for every sequence of permutations cannot be sampled", "anchors": ["copt/randomized.py:minimize_saga", "copt/randomized.py:minimize_svrg"]}
{"id": "C99", "title": "SAGA and SVRG with a penalty converge without strong convexity, for every visiting order", "statement": "In the setting of C98 without quadratic growth, when the points whose objective is at most that of x0 (SAGA: plus the first-pass term) lie within r of a minimiser, the objective of the result of nit + 1 passes exceeds the minimum by at most 2C/(nit+1) (SAGA, C = 32 r^2 D/step + 2 V) or 2C/(nit+2) (SVRG, C = 8 r^2 D/step + V), and success=False implies that tol is below a bound tending to 0.", "quantifier": "as C98", "why_tests_cant": "a rate for all problems, orders and iteration numbers", "anchors": ["copt/randomized.py:minimize_saga", "copt/randomized.py:minimize_svrg"]}
{"id": "C100", "title": "SAGA and SVRG solve the documented problem for the losses and penalties of the library", "statement": "minimize_saga(f.partial_deriv, A, b, x0, step_size, prox=pen.prox_factory(p), alpha=alpha) and minimize_svrg with the same arguments, for f in LogLoss (labels in [0,1]) or SquareLoss, pen in none, L1Norm or GroupL1, alpha > 0 and a dense array A in which every feature is nonzero in at least one in D samples: the documented problem min f(x) + pen(x) has exactly one minimiser x*, the call returns for every order of the samples when step_size <= 1/(10 n D f.max_lipschitz), and the objective gap and alpha/2 |x - x*|^2 are at most a constant of the objective at x0 times (1 + alpha step/(40 D))^-nit (SVRG: (1 + alpha step/(20 D))^-(nit+1)); success=False implies that all max_iter passes were made and tol is below a bound decreasing with the passes.", "quantifier": "for all dense arrays, labels, starting points, regularisation weights, group structures accepted by GroupL1, permutations, tol, max_iter; SVRG when samples have all or none of the features of a group", "why_tests_cant": "tests check gradients of the result for one seed and data set; the statement ties the loss classes, the penalty factories, the conversion to CSR and the solver loops together for all data", "anchors": ["copt/randomized.py:minimize_saga", "copt/randomized.py:minimize_svrg", "copt/loss.py:LogLoss.partial_deriv", "copt/loss.py:SquareLoss.partial_deriv", "copt/loss.py:LogLoss.max_lipschitz", "copt/penalty.py:L1Norm.prox_factory", "copt/penalty.py:GroupL1.prox_factory"]}
{"id": "C101", "title": "SAGA and SVRG solve l1-penalised regression without strong convexity", "statement": "In the setting of C100 with pen = L1Norm(beta), beta > 0 and alpha >= 0 (the lasso; l1 logistic regression as in examples/plot_saga_vs_svrg.py): a minimiser exists and the objective of the result exceeds the minimum by at most C/(nit+1) (SAGA) or C/(nit+2) (SVRG), where C is an explicit expression in step_size, beta, D, n and the objective at x0; success=False implies that tol is below a bound tending to 0.", "quantifier": "for all dense arrays, labels, starting points, permutations, tol, max_iter and step_size <= 1/(10 n D f.max_lipschitz)", "why_tests_cant": "a rate for all data and iteration numbers", "anchors": ["copt/randomized.py:minimize_saga", "copt/randomized.py:minimize_svrg", "copt/penalty.py:L1Norm.prox_factory", "examples/plot_saga_vs_svrg.py"]}
{"id": "C102", "title": "Three-operator splitting solves the documented problems of the library", "statement": "minimize_three_split(f.f_grad, x0, o1.prox, o2.prox, step_size=1/f.lipschitz, line_search=False), for f any loss of loss.py, o1 any penalty or constraint (L1Norm, GroupL1, FusedLasso, TraceNorm, L1Ball, L2Ball, LinfBall, SimplexConstraint, prox_tv1d_cols, prox_tv1d_rows) and o2 any penalty, l its Lipschitz constant: if 2 (L |x0 - x*| + 3 l)^2 < tol^2 (max_iter - 1) for a minimiser x* of f + g + h, the call reports success, the result lies in the domain of g, and its objective exceeds the minimum by at most tol (|x0 - x*| + 7 l/L + tol/L). In particular the call of plot_tv_deblurring.py with line_search=False solves f + beta TV, TV the anisotropic 2-D total variation.", "quantifier": "for all data, images, sizes, parameters, starting points, positive tolerances", "why_tests_cant": "tests compare a certificate with a threshold on one random data set; the statement relates success to the documented objective for all data", "anchors": ["copt/splitting.py:minimize_three_split", "copt/loss.py:LogLoss", "copt/loss.py:SquareLoss", "copt/loss.py:HuberLoss", "copt/penalty.py", "copt/tv_prox.py:prox_tv1d_cols", "copt/tv_prox.py:prox_tv1d_rows", "examples/proximal_splitting/plot_tv_deblurring.py"]}
{"id": "C103", "title": "The primal-dual method solves the documented problems, with tv2d_linear_operator solves total variation problems", "statement": "minimize_primal_dual(f.f_grad, x0, o1.prox, o2.prox, L=A, step_size=sigma, step_size2=tau, line_search=False) with losses and operators as in C102 and any matrix A, |A x| <= m |x|, m^2 < (1/sigma - f.lipschitz/2)/tau: for max_iter above an explicit bound of order 1/tol^2 the call reports success and the objective f(x) + g(x) + h(A x) of the result exceeds the minimum by at most tol times an explicit constant. For A = tv2d_linear_operator(n_rows, n_cols): |A x|_1 = TV(x), |A x| <= sqrt(8) |x|, and with prox_2 = L1Norm(beta).prox the method solves f + g + beta TV.", "quantifier": "for all data, matrices, image sizes, parameters, starting points, step sizes in the stated range, positive tolerances", "why_tests_cant": "as C102", "anchors": ["copt/splitting.py:minimize_primal_dual", "copt/tv_prox.py:tv2d_linear_operator", "copt/penalty.py:L1Norm"]}
{"id": "C104", "title": "The documented problems have solutions and the solvers approach them", "statement": "min f(x) + g(x) + h(A x), with losses, operators and matrices as in C102 and C103, has a minimiser as soon as f.alpha > 0 or g is a constraint or an l1 or trace norm with positive coefficient. If f.alpha > 0 it is unique, the objective grows at least like alpha/2 times the squared distance to it, and: for every delta > 0, small tolerance and large max_iter, minimize_three_split and minimize_primal_dual (line_search=False) report success at a point within delta of it; the accelerated proximal gradient method with step 1/f.lipschitz is within |x - x*|^2 <= 4 (L/alpha) |x0 - x*|^2/(nit+2)^2.", "quantifier": "for all data, parameters, starting points, delta", "why_tests_cant": "existence, uniqueness and distances to the exact solution for all data", "anchors": ["copt/splitting.py:minimize_three_split", "copt/splitting.py:minimize_primal_dual", "copt/proximal_gradient.py:minimize_proximal_gradient", "copt/loss.py", "copt/penalty.py", "copt/constraint.py"]}
{"id": "C105", "title": "Primal-dual method at the step sizes of the examples", "statement": "minimize_primal_dual without line search and callback and with m^2 <= (1/step_size - f.lipschitz/2)/step_size2 (not <), where |A x| <= m |x|: every iterate stays within the initial distance of every saddle point, the squared moves from the second iteration on sum to at most (6/(1/step_size - L/2) + 12 step_size2) times that distance, so that success is reported for max_iter of order 1/tol^2 and the objective at the returned point exceeds the minimum by a multiple of tol. In particular for no linear operator, step_size = 1/f.lipschitz and step_size2 = (1/step_size)/2 as in plot_overlapping_group_lasso.py and plot_tv_deblurring.py: with a regularised loss the returned point is within any delta of the unique minimiser.", "quantifier": "for all losses, data, operators, Lipschitz second operators, starting points, tolerances", "why_tests_cant": "convergence at the boundary of the step-size condition for all problems", "anchors": ["copt/splitting.py:minimize_primal_dual", "examples/proximal_splitting/plot_overlapping_group_lasso.py:99-103", "examples/proximal_splitting/plot_tv_deblurring.py:94-104"]}
{"id": "C106", "title": "Stochastic Frank-Wolfe converges in expectation for all four variants", "statement": "minimize_sfw with the default step sizes, an exact oracle of a convex set of predictions of diameter D, a convex smooth loss and a tolerance that never stops the run: for every draw of the batches the call returns a point of the set, and the expectation over the draws of (1/n) sum_i f(<A_i, x>, b_i) at the returned point exceeds its value at any point of the set by at most O(1/T) for SAG and SAGA, O(T^(-1/3)) for MHK, O(T^(-1/2)) for LF, T = max_iter * (n_samples // batch_size), with explicit constants. In particular for the losses of the library on an l1 ball the expected objective tends to the minimum, and so does the probability of ending delta above it tend to 0.", "quantifier": "for all data, batch sizes up to n_samples, numbers of epochs, starting points of the set, variants", "why_tests_cant": "an expectation over all draws and a limit in the number of epochs: a test runs a few seeds for a few epochs", "anchors": ["copt/randomized.py:minimize_sfw", "copt/randomized.py:step_size_sfw", "copt/utils.py:sample_batches", "copt/constraint.py:L1Ball.lmo"]}
{"id": "C107", "title": "Three-operator splitting with its line search solves the documented problem", "statement": "minimize_three_split with line_search=True (the default; forced by step_size=None), h_Lipschitz=None, no callback, an initial step and max_iter_backtracking for which the smallest candidate step is at most 1/L, a convex f with L-Lipschitz gradient whose values f_grad returns exactly, exact proximal operators and a tolerance above the tolerances built into the search (1e-7 and LS_EPS): the accepted steps never increase and stay above min(step0, backtracking_factor/L), and with max_iter above an explicit number the call returns and reports success at a point whose objective exceeds the minimum by at most an explicit multiple of tol. With all defaults this holds for the squared and Huber losses, any data, any penalty or constraint and any Lipschitz penalty of the library.", "quantifier": "for all dimensions, data, starting points, penalties, initial steps, tolerances above the noise of the search, and all iteration counts", "why_tests_cant": "the accepted steps can exceed 2/L, where a run with a fixed step diverges: that the search prevents this for every function and starting point is a statement about all runs", "anchors": ["copt/splitting.py:minimize_three_split", "copt/utils.py:init_lipschitz"]}
{"id": "C108", "title": "The primal-dual method with its line search converges", "statement": "minimize_primal_dual with line_search=True on a convex problem min f(x) + g(x) + h(L x) with a saddle point, exact proximal operators, L_f-smooth f and any bounded operator L: the steps accepted by the search keep the iterates bounded, and for every tol > 0 a sufficiently long run reports success at a point whose objective is within a multiple of tol of the minimum.", "quantifier": "for all convex f, g, h, all operators, dimensions, starting points, positive step sizes, tolerances and iteration counts", "why_tests_cant": "the search is meant to adapt to an unknown norm of L: whether accepted steps are safe is a statement about all problems and all iterations; small well-scaled examples converge", "anchors": ["copt/splitting.py:minimize_primal_dual"]}
{"id": "C109", "title": "The indicator functions of the constraints agree with their projections", "statement": "L1Ball(alpha)(x) is 0 exactly when the sum of |x_i| is at most alpha and infinite otherwise; every value of L1Ball.prox has indicator 0 and L1Ball.prox(x) = x exactly when the indicator of x is 0. TraceBall(alpha, shape)(x) is 0 exactly when the trace norm of x is at most alpha plus the single precision eps: in particular on the ball and on every value of TraceBall.prox, and a point with indicator 0 is moved by the projection by at most eps.", "quantifier": "for all radii, dimensions, shapes, matrices and exact singular value routines", "why_tests_cant": "membership is decided by a threshold: tests only see points far from the boundary, and the projections land on it", "anchors": ["copt/constraint.py:L1Ball.__call__", "copt/constraint.py:TraceBall.__call__"]}
{"id": "C110", "title": "The dataset loaders return the stored matrices", "statement": "_load_dataset with subset 'train' or 'test' returns the stored matrix of that part with one row per sample and one column per feature and its target; with subset 'full' the train rows followed by the test rows with the targets in the same order; any other subset raises ValueError. The labels -1, 1 of load_url and load_kdd12 become 0, 1 and labels 0, 1 are left alone.", "quantifier": "for all stored matrices, numbers of samples and features, and sparsity patterns", "why_tests_cant": "the tests never download a dataset; the shape is inferred from the arrays, which matters only for features that no sample of a part has", "anchors": ["copt/datasets.py:_load_dataset", "copt/datasets.py:load_url"]}
{"id": "C111", "title": "The PyTorch wrapper returns the value and the gradient with respect to the flat array", "statement": "make_func_and_grad(loss, shape, device)(x) evaluates the loss at the tensor whose entry (i_1, ..., i_k) is the entry of x at the row-major position of (i_1, ..., i_k) and returns its value and the gradient of x -> loss(x.view(shape)) as a flat array, when automatic differentiation computes the partial derivatives of the loss; arrays of another size raise RuntimeError.", "quantifier": "for all shapes of any order, differentiable losses and arrays", "why_tests_cant": "torch is an optional dependency and the module has no test; layout mistakes are invisible for vectors and symmetric losses", "anchors": ["copt/utils_pytorch.py:make_func_and_grad"]}
{"id": "C112", "title": "Variance-reduced three-operator splitting converges in mean square", "statement": "With samples drawn independently and uniformly, after any initial samples, the iterates of minimize_vrtos satisfy: the sums over the iterations of the expected squared moves of Y, of the expected squared errors of the derivatives at the samples and of (alpha + mu) times the expected squared distances of z to the minimiser are bounded uniformly in the number of iterations; when alpha + mu > 0 the expected squared distance tends to zero. Here the losses are convex with M-Lipschitz derivative, the penalties of both block structures are convex, every block is touched by at least one sample in D, the rows have squared norm at most R, and the step size is at most 1/(9 M R) and 1/(3 alpha D).", "quantifier": "for all data, block structures, convex losses and penalties, starting points, initial samples and numbers of iterations", "why_tests_cant": "an expectation over all sample sequences of every length; the tests run one seed on one dataset", "anchors": ["copt/randomized.py:minimize_vrtos", "copt/randomized.py:_factory_sparse_vrtos"]}
{"id": "C113", "title": "Variance-reduced three-operator splitting converges for every visiting order", "statement": "Suppose every sample touches every block of both structures, the losses are convex with M-Lipschitz derivatives, the rows have squared norm at most R, the penalties are convex, the objective has a minimiser and the step size is at most 1/(16 n^2 M R) and 1/(8 alpha). Then, whatever permutations of the samples the passes go through, minimize_vrtos returns for every positive number of passes, and as this number grows the returned point tends to a minimiser of the objective, the caller's array x0 tends to the same minimiser, and the certificate tends to zero.", "quantifier": "for all data, block structures, convex losses and penalties, starting points, sequences of permutations and numbers of passes", "why_tests_cant": "a limit over infinitely many passes for every sequence of permutations; the tests run one seed on one dataset", "anchors": ["copt/randomized.py:minimize_vrtos", "copt/randomized.py:_factory_sparse_vrtos"]}
{"id": "C114", "title": "prox_tv1d is memory safe, total and writes every output element with machine arithmetic", "statement": "Whatever the interpretation of addition, subtraction, division, the constants and the comparison of numbers (rounded operations, overflow, nan with comparisons that are all false), _prox_tv1d on a non-empty input makes no out-of-bounds access and no division by a zero index difference, all its loops end, and every output element is written: the result depends on neither the previous content of the output array nor that of the scratch buffers. The same holds for FusedLasso.prox, prox_tv1d_cols and prox_tv1d_rows.", "quantifier": "for all arithmetics, signals, step sizes, sizes and contents of uninitialised memory", "why_tests_cant": "the tests use a handful of well-behaved random signals; nan, overflow and unlucky roundings change the outcome of every comparison in the compiled loops", "anchors": ["copt/tv_prox.py:_prox_tv1d", "copt/tv_prox.py:prox_tv1d", "copt/tv_prox.py:prox_tv1d_cols", "copt/tv_prox.py:prox_tv1d_rows", "copt/penalty.py:FusedLasso.prox"]}
{"id": "C115", "title": "euclidean_proj_simplex with rounded arithmetic", "statement": "When every operation is rounded, with relative error at most u and underflow error at most eta, euclidean_proj_simplex(v, s) returns a vector without negative entries whose distance to the exact projection is of the order of n (u (||v||_1 + s) + eta), whatever the order of summation in v.sum(), and it does not raise.", "quantifier": "for all vectors of representable numbers, radii, sizes with 16 n u <= 1, monotone roundings and orders of summation", "why_tests_cant": "the tests project a few random vectors of moderate size; they see neither the size of the rounding error for all inputs nor the inputs for which the comparison that selects the support fails at every index", "anchors": ["copt/constraint.py:euclidean_proj_simplex", "copt/constraint.py:SimplexConstraint.prox"]}
{"id": "C116", "title": "L1Ball.prox with rounded arithmetic", "statement": "When every operation is rounded, L1Ball(s).prox(v) does not raise and returns a vector whose distance to the exact projection is of the order of n (u (||v||_1 + s) + eta); in particular it leaves the ball by at most this amount.", "quantifier": "for all vectors of representable numbers, radii, sizes with 16 n u <= 1, monotone roundings and orders of summation", "why_tests_cant": "the tests project a few random vectors; the decision to return the argument unchanged and the selection of the support are both made on rounded sums", "anchors": ["copt/constraint.py:L1Ball.prox", "copt/constraint.py:euclidean_proj_l1ball", "copt/constraint.py:euclidean_proj_simplex"]}
{"id": "C117", "title": "L1Norm.prox with rounded arithmetic", "statement": "When every operation is rounded, L1Norm(alpha).prox(x, step) never increases the absolute value of an entry nor changes its sign, sets to exactly zero every entry whose absolute value is at most the rounded threshold, returns representable numbers, and each entry is within u (|x_j| + alpha step) + 2 eta of the exact proximal point.", "quantifier": "for all vectors of representable numbers, alpha >= 0, steps >= 0 and monotone symmetric roundings with relative error u and underflow error eta", "why_tests_cant": "the tests compare a few random vectors with a tolerance; sparsity of the result and the absence of sign changes rest on the exact zero of fmax and on the monotonicity of the rounding", "anchors": ["copt/penalty.py:L1Norm.prox"]}
{"id": "C118", "title": "minimize_proximal_gradient with rounded arithmetic and inexact oracles", "statement": "On a strongly convex problem with steps between s1 > 0 and s2 < 2/L, if every operation of the loop is rounded and the gradient, the proximal operator and the norm are computed with an error of K w (1 + size of the argument) for an arithmetic of precision w, then there are a constant C and a factor q < 1, independent of the arithmetic and of the run, such that for C w <= 1 the returned point is within q^(nit+1) ||x0 - x*|| + C w of the solution x*; if success is set, within C (tol + w); and if tol > C w, success is set as soon as max_iter is large enough.", "quantifier": "for all strongly convex smooth functions, convex functions with a proximal operator, dimensions, starting points, step sequences in the range, tolerances, iteration counts, roundings and oracle errors", "why_tests_cant": "a run of the tests shows one sequence of rounding errors; whether the errors of all iterations accumulate, whether the stopping test can be satisfied for all small tolerances and what success means in floating point are statements about all of them", "anchors": ["copt/proximal_gradient.py:minimize_proximal_gradient"]}
{"id": "C119", "title": "regularised regression with minimize_proximal_gradient in floating point", "statement": "For the squared, logistic (exp computed to precision w) and Huber losses with alpha > 0 and the l1 penalty, the group penalty, the l-infinity ball or the l2 ball, with every operation of f_grad, prox and the solver rounded and matrix products and norms computed in any order with or without fused multiply-add, the problem has a unique solution x*, and C118 holds with a constant which depends only on the data, the parameters and the range of the steps.", "quantifier": "for all data matrices, targets, parameters, dimensions, starting points, step sequences in the range, tolerances, iteration counts, roundings and orders of the operations", "why_tests_cant": "the tests run double precision with one BLAS on one data set; the claim is about every data set, every order of the operations and every precision", "anchors": ["copt/proximal_gradient.py:minimize_proximal_gradient", "copt/loss.py:SquareLoss.f_grad", "copt/loss.py:LogLoss.f_grad", "copt/loss.py:LogLoss.expit_b", "copt/loss.py:HuberLoss.f_grad", "copt/penalty.py:L1Norm.prox", "copt/penalty.py:GroupL1.prox", "copt/constraint.py:LinfBall.prox", "copt/constraint.py:L2Ball.prox"]}
{"id": "C120", "title": "SAGA, SVRG, VRTOS and the primal-dual method accept any real-valued starting array", "statement": "minimize_saga, minimize_svrg, minimize_vrtos and minimize_primal_dual started from an array holding the same numbers behave identically whether the array has integer or floating point type.", "quantifier": "for all problems and starting points", "why_tests_cant": "the tests start from float arrays only; with integers the assignments truncate, the iterate stops moving and the stopping test of SAGA and SVRG reports success, which looks like convergence", "anchors": ["copt/randomized.py:minimize_saga", "copt/randomized.py:minimize_svrg", "copt/randomized.py:minimize_vrtos", "copt/splitting.py:minimize_primal_dual"]}
{"id": "C121", "title": "Values of the losses in floating point arithmetic", "statement": "logsig(x) is computed to a few units of the working precision relative to log(sigmoid(x)) for every x, and never evaluates exp above 18; the values of LogLoss, SquareLoss and HuberLoss are within K w (1 + norm(x))^2 of the exact ones for a constant K of the data and working precision w. For LogLoss this cannot be a relative bound: a sample of class 0 classified with margin above 33 gets the computed loss 0.", "quantifier": "for all data, points, orders of the summations and roundings not better than double precision", "why_tests_cant": "the accuracy of logsig depends on the thresholds -33, -18 and 37; a wrong threshold loses digits only in a narrow range of margins, and the cancellation appears only beyond margin 33", "anchors": ["copt/loss.py:LogLoss.logsig", "copt/loss.py:LogLoss.f_grad", "copt/loss.py:SquareLoss.f_grad", "copt/loss.py:HuberLoss.f_grad"]}
{"id": "C122", "title": "Frank-Wolfe on the l1 ball in floating point arithmetic", "statement": "minimize_frank_wolfe with L1Ball.lmo, the vanilla variant and step='sublinear', computed in rounded arithmetic of precision w on a smooth convex objective (in particular the losses of the library): the result leaves the ball by at most C (nit+1) w; a run of max_iter iterations is within 9 L alpha^2/(max_iter+2) + C max_iter w of the best value on the ball; the computed certificate of a run stopped by the tolerance bounds the suboptimality up to C w; and if C w <= tol^2 and max_iter >= C/tol, the run is stopped by the tolerance within C/tol iterations.", "quantifier": "for all losses, data, radii, starting points in the ball, numbers of iterations, orders of the sums in the products and roundings", "why_tests_cant": "the drift out of the ball grows with the number of iterations, at a scale of 1e-16 per iteration; the certificate is computed from rounded gradients", "anchors": ["copt/frank_wolfe.py:minimize_frank_wolfe", "copt/constraint.py:L1Ball.lmo", "copt/loss.py:LogLoss.f_grad", "copt/loss.py:SquareLoss.f_grad", "copt/loss.py:HuberLoss.f_grad"]}
{"id": "C123", "title": "Pairwise Frank-Wolfe on the l1 ball in floating point arithmetic", "statement": "minimize_frank_wolfe with L1Ball.lmo_pairwise and variant='pairwise', computed in rounded arithmetic of precision w on a smooth convex objective (in particular the losses of the library), with any rule whose steps are between 0 and the weight of the away vertex (such as step='DR' and the line search): no iteration raises 'The step size used is too large'; the weights of the active set are nonnegative, one per vertex; they add up to 1, and the returned x is the combination of the vertices they describe, up to C (nit+1) w; x leaves the ball by at most C (nit+1) w; and an accepted certificate bounds the suboptimality up to C (nit+1) w.", "quantifier": "for all losses, data, radii, starting vertices, step rules, numbers of iterations, orders of the sums in the products and roundings", "why_tests_cant": "the active set and the iterate are updated separately and drift apart by rounding; the exception is raised when a weight becomes negative, by as little as one unit in the last place", "anchors": ["copt/frank_wolfe.py:minimize_frank_wolfe", "copt/frank_wolfe.py:update_active_set", "copt/constraint.py:L1Ball.lmo_pairwise"]}
{"id": "C124", "title": "Constrained regression with minimize_proximal_gradient in floating point: the projections do not raise", "statement": "For the squared, logistic (exp computed to precision w) and Huber losses with alpha > 0 and the l1 ball, the simplex, the l2 ball, the l-infinity ball, the l1 penalty or the group penalty, with every operation of f_grad, prox and the solver rounded, the problem has a unique solution x*. For every bound R on the starting point there are constants C and q < 1 which depend only on R, the data, the parameters and the range of the steps, such that at precision w with C w <= 1 no iteration raises, although the projections onto the simplex and the l1 ball raise IndexError on vectors too large for the precision; the result is within q^(nit+1) ||x0 - x*|| + C w of x* and within C w of the constraint set; a result with success=True is within C (tol + w) of x*; and if tol > C w every long enough run succeeds.", "quantifier": "for all data matrices, targets, parameters, dimensions, starting points, step sequences in the range, tolerances, iteration counts, roundings and orders of the operations", "why_tests_cant": "whether the projection raises depends on the size of the iterates relative to the precision, along a run of any length; tests run double precision on one data set", "anchors": ["copt/proximal_gradient.py:minimize_proximal_gradient", "copt/constraint.py:euclidean_proj_simplex", "copt/constraint.py:euclidean_proj_l1ball", "copt/constraint.py:L1Ball.prox", "copt/constraint.py:SimplexConstraint.prox"]}
{"id": "C125", "title": "Convex problems without strong convexity with minimize_proximal_gradient in floating point", "statement": "As C124 for alpha >= 0, where x* is any solution, with steps in [s1, s2], s2 <= 1/L. For every bound R on the starting point there is a constant C such that at precision w with C (max_iter + 1) w <= 1: the run does not raise; the result is within C (nit+1) w of a point z of the domain with F(z) - F(y) <= ||x0 - y||^2 / (2 s1 (nit+1)) for all y; a result with success=True is within C w of a point z with F(z) - F(x*) <= C (tol + w). For every tol > 0 there are N and C' such that at precision w with C' w <= 1 every run with max_iter >= N succeeds within N iterations.", "quantifier": "for all data matrices, targets, parameters, dimensions, starting points, step sequences in the range, tolerances, iteration counts, roundings and orders of the operations", "why_tests_cant": "without strong convexity the rounding errors of the iterations add up; how fast they do relative to the convergence is a statement about all runs of all lengths", "anchors": ["copt/proximal_gradient.py:minimize_proximal_gradient", "copt/constraint.py:euclidean_proj_simplex", "copt/penalty.py:L1Norm.prox", "copt/penalty.py:GroupL1.prox", "copt/loss.py:SquareLoss.f_grad", "copt/loss.py:LogLoss.f_grad"]}
{"id": "C126", "title": "minimize_svrg in floating point", "statement": "minimize_svrg with every operation of full_grad and _svrg_epoch rounded, any block structure and convex block penalty, passes over the samples in any order, when each sample stores all features of the blocks it touches and step_size is at most 1/(10 n L D): there is a constant C, the same for all roundings, orders, tolerances and iteration limits, such that at precision w with C w <= 1 the run returns; F(result) - F* <= (F(x0) - F*)/(1 + mu s/(20 D))^(nit+1) + C w; success=True implies F(result) - F* <= C (tol + w); and without success all passes were made and tol is at most C times the square root of the remaining error.", "quantifier": "for all sample counts, dimensions, sparsity patterns, block structures, penalties, starting points, orders, tolerances, iteration limits, roundings, computed derivatives and proximal operators with errors of the order of the precision, and orders of summation in the stopping test", "why_tests_cant": "whether rounding errors accumulate over the passes is a statement about runs of every length; the tests run a few passes in double precision", "anchors": ["copt/randomized.py:minimize_svrg"]}
{"id": "C127", "title": "minimize_saga in floating point", "statement": "minimize_saga with every operation of _saga_epoch rounded, any block structure and convex block penalty, passes in any order, step_size at most 1/(10 n L D): there is a constant C, the same for all roundings, orders, tolerances and iteration limits, such that at precision w with C max_iter w <= 1 the run returns; F(result) - F* is at most (F(x0) - F* + 8 n s D m^2)/(1 + mu s/(40 D))^nit + C (nit+1) w where m bounds the gradients of the samples at x0; the stored gradient average, which the code updates incrementally and never recomputes, differs from the mean of the stored gradients by at most C (nit+1) w; grad_tmp is zero again; and without success all passes were made and tol is at most C times the square root of the remaining error.", "quantifier": "for all sample counts, dimensions, sparsity patterns, block structures, penalties, starting points, orders, tolerances, iteration limits, roundings, computed derivatives and proximal operators with errors of the order of the precision, and orders of summation in the stopping test", "why_tests_cant": "the incremental average drifts by rounding at every inner iteration; how far it can drift and what this does to the iterates concerns runs of every length", "anchors": ["copt/randomized.py:minimize_saga"]}
{"id": "C128", "title": "SAGA and SVRG in floating point with the losses and penalties of the library", "statement": "As C126 and C127 for partial_deriv of the squared and the logistic loss (exp computed to precision w), f_alpha > 0, and no penalty, the l1 penalty or the group penalty, with every operation of partial_deriv, _prox_L1 and _prox_gl rounded, on dense data: the run returns, the result is within the stated error of the unique solution; for every tol > 0 there are N and a precision such that every SVRG run with max_iter >= N at this or a finer precision reports success and is C (tol + w)-accurate, and for every max_iter >= N there is such a precision for SAGA.", "quantifier": "for all data matrices, labels, parameters, group structures, starting points, orders, tolerances, roundings and orders of summation", "why_tests_cant": "a run with rounding may stall above the tolerance; that it does not at fine enough precision is a statement about all runs", "anchors": ["copt/randomized.py:minimize_saga", "copt/randomized.py:minimize_svrg", "copt/loss.py:LogLoss.partial_deriv", "copt/loss.py:SquareLoss.partial_deriv", "copt/penalty.py:L1Norm.prox_factory", "copt/penalty.py:GroupL1.prox_factory"]}
{"id": "C129", "title": "Accelerated proximal gradient in floating point", "statement": "minimize_proximal_gradient with accelerated=True and a callable, nonincreasing step in [s1, s2], s2 <= 1/L, with every operation rounded (gradient, proximal operator, momentum parameter, extrapolation, certificate), for a loss of the library and any penalty or constraint on vectors but FusedLasso: there is a constant C such that at precision w with C (max_iter+1)^2 w <= 1 the run does not raise; the result is within C w of a feasible point z with F(z) - F* <= 2 (||x0 - x*|| + C (nit+1)^2 w)^2/(s1 (nit+2)^2); a run without success has made max_iter iterations and its tol is at most C (1/(max_iter+1) + w). For every tol > 0 there are N and a precision from which on every run with max_iter >= N reports success within N iterations.", "quantifier": "for all losses, data, penalties, starting points of bounded norm, step sequences, tolerances, iteration limits, roundings, computed exponentials and orders of summation", "why_tests_cant": "acceleration amplifies errors in the extrapolated points by the momentum weights; whether the 1/k^2 rate survives rounding concerns runs of every length at every precision", "anchors": ["copt/proximal_gradient.py:minimize_proximal_gradient"]}
{"id": "C130", "title": "Three-operator splitting in floating point", "statement": "minimize_three_split with line_search=False and a given step_size s, s L < 2, with every operation rounded (gradient, both proximal operators, the argument and dual updates, certificate), for a loss of the library, any penalty or constraint on vectors but FusedLasso as first operator and L1Norm or GroupL1 as second one: there is a constant C such that at precision w with C max_iter w <= 1 the run does not raise; from the second iteration on the result is within C w of a feasible point x for which there are z and subgradients p at x, q at z with ||grad f(z) + p + q|| = ||x - z||/s equal to the certificate up to C w, the certificate is at most C (1/sqrt(nit) + nit w), and F(x) - F* <= C (certificate + C w). Success is reported exactly with a certificate below tol after the first iteration, a failure only after max_iter iterations. For every tol > 0 there are N and a precision from which on every run with max_iter >= N succeeds within N iterations.", "quantifier": "for all losses, data, penalties, representable starting points of bounded norm, tolerances, iteration limits, roundings, computed exponentials and orders of summation", "why_tests_cant": "the iteration is only nonexpansive, so errors are not damped: whether the certificate still falls below the tolerance and still certifies optimality concerns runs of every length at every precision", "anchors": ["copt/splitting.py:minimize_three_split"]}
{"id": "C131", "title": "Primal-dual method in floating point", "statement": "minimize_primal_dual with line_search=False and step sizes sigma, tau (step_size2 or the rounded half of step_size), ||L||^2 < (1/sigma - Lf/2)/tau, with every operation rounded (gradient, products with L and its transpose in any order of summation with zero entries left out or not, both proximal operators, the second one at the rounded parameter 1/tau, the Moreau identity, extrapolation, certificate), for a loss of the library, any penalty or constraint on vectors but FusedLasso as first operator, L1Norm or GroupL1 as second one and any matrix: there is a constant C such that at precision w with C max_iter w <= 1 the run does not raise; the result is within C w of a feasible point x for which there are z and subgradients a at x, b at z with ||grad f(x) + a + L^T b|| and ||L x - z|| at most C e, where e <= C (1/sqrt(nit+1) + nit w), and F(x) - F* <= C (1/sqrt(nit+1) + nit w). The reported certificate belongs to the last iteration that is a multiple of 100: it is at most C (1/sqrt(100 floor(nit/100) + 1) + (nit + 1) w), it equals e up to C w if nit is a multiple of 100, and then F(x) - F* <= C (certificate + C w). Success is reported only at a multiple of 100 with a certificate below tol, a failure only after max_iter iterations with a certificate of at least tol. For every tol > 0 there are N and a precision from which on every run with max_iter >= N succeeds within N iterations.", "quantifier": "for all losses, data, penalties, matrices, starting points of bounded norm, tolerances, iteration limits, roundings, computed exponentials and orders of summation", "why_tests_cant": "the iteration is nonexpansive only in a metric that mixes both variables, so errors are not damped and the certificate is tested every 100 iterations only; tests look at a few runs of one length at one precision", "anchors": ["copt/splitting.py:minimize_primal_dual"]}
{"id": "C132", "title": "Proximal gradient with its default line search in floating point", "statement": "minimize_proximal_gradient with step='backtracking' (the default), accelerated=False and no callback, with every operation rounded: init_lipschitz, function values and gradients in any order of summation, proximal operator, the test of the line search, the update of the step size, the certificate. A reported success means that the point returned is close to the minimiser, up to the tolerance and the rounding errors. Refuted in general: in double precision, whatever the rule for ties, the default run on a least-squares problem with two samples and one feature returns its starting point in the first iteration with success=True and certificate 0, for every positive tolerance, although the derivative is about -1: cancellation makes every trial value larger, so that the step size is reduced until x - step * grad rounds to x. Valid part: for a loss of the library with alpha > 0 and any penalty or constraint on vectors but FusedLasso, for every bound on the starting point and b <= backtracking_factor <= 1 - b, there are C and q < 1 such that at precision w, if C sqrt(w) is below the tolerance and below the norm of the first gradient, C (max_iter + 1) w <= 1 and C (1 - b/2)^max_iter_backtracking <= w, the run does not raise, the result is within q^(nit+1) ||x0 - x*|| + C (sqrt(w) + (nit+1) w) of the minimiser x* and within C w of the constraint set, a success has a certificate below tol and is within C (tol + sqrt(w) + (nit+1) w) of x*, and a failure is reported only after max_iter iterations.", "quantifier": "for all losses, data, penalties, starting points of bounded norm, tolerances, iteration limits, backtracking factors, roundings without underflow, computed exponentials and logarithms and orders of summation", "why_tests_cant": "the test of the line search compares function values whose rounding errors are larger than the decrease it looks for; the failure needs data of very different magnitudes, and tests compare a few runs with a loose threshold", "anchors": ["copt/proximal_gradient.py:minimize_proximal_gradient", "copt/utils.py:init_lipschitz"]}
{"id": "C133", "title": "The line search of the primal-dual method in floating point ends", "statement": "minimize_primal_dual with line_search=True (the default), each operation rounded: the call returns or raises, and a line search makes at most max_iter_ls trials. Refuted twice. (1) In floating point with nan and infinities, if x0 or the first gradient contains a nan, the test of the line search compares with nan, is false for every tau, and the `while True` never ends; the default call with f(x) = x^2/2 and x0 = [nan] is a witness. (2) max_iter_ls is compared with 0 and never used again: for every m there is a problem which, in exact arithmetic and with max_iter_ls=1, needs more than m trials in its first search. Valid part: on finite numbers the search ends after a number of trials that is explicit in tau, the ratio of the steps and a bound on the quantities compared, underflow included; a run whose oracles map bounded sets to bounded sets ends, however inaccurate the oracles are; in particular every run for a loss of the library, any penalty or constraint on vectors but FusedLasso for g, any h and a dense or sparse L.", "quantifier": "for all roundings with relative error at most 1/1000, all oracles which are bounded on bounded sets, all data, steps, tolerances and iteration limits; the nan theorems for every matrix, prox and overflow threshold", "why_tests_cant": "an unbounded while loop shows up as a test that hangs, and only on inputs with nan or infinite values which test suites do not use; that the other runs end is a statement about every rounding pattern", "anchors": ["copt/splitting.py:minimize_primal_dual"]}
{"id": "C134", "title": "Frank-Wolfe with its default line search in floating point reaches the tolerance", "statement": "minimize_frank_wolfe(variant='vanilla', lmo=L1Ball(alpha).lmo) with the default step='backtracking', each operation rounded, for a convex objective with Lipschitz gradient whose values and gradients are computed to relative precision w. No line search exhausts its 100 trials, so there is no RuntimeWarning; the objective decreases by at least de = min(tol/2, tol^2/(9 M alpha^2)) - 2^-22 in each iteration, where 2^-22 is twice the slack EPS of the test; hence with max_iter > (f(x0) - inf f)/de the run ends by the tolerance; the certificate it reports bounds f(x) - f(y) for every y in the ball up to C w; and the result is in the ball up to C nit w. This holds for a given lipschitz > 0, and for the default lipschitz=None when the gradient changes by at least mu times the distance between the two points used for the estimate, in particular for every library loss with alpha > 0. Conditions on the data: de > 0, and the estimate, which shrinks by 0.9 per iteration and is doubled at most 99 times in a search, can get above the Lipschitz constant.", "quantifier": "for all roundings with w small compared with the problem, all orders of summation and inaccuracies of the oracles, all objectives, starting points, tolerances above the slack, and iteration limits", "why_tests_cant": "the test suite runs the solver on two random data sets with a loose tolerance and does not look at the warning; the claim is about every rounding pattern in the sufficient decrease test and about every number of iterations", "anchors": ["copt/frank_wolfe.py:minimize_frank_wolfe", "copt/frank_wolfe.py:backtracking_step_size", "copt/constraint.py:L1Ball.lmo"]}
{"id": "C135", "title": "Frank-Wolfe with the Demyanov-Rubinov step in floating point converges at its rate", "statement": "minimize_frank_wolfe(variant='vanilla', lmo=L1Ball(alpha).lmo, step='DR', lipschitz=l), each operation rounded, for a convex objective with L-Lipschitz gradient, with gradients and l accurate to relative precision w (l may be a rounding of f.lipschitz, hence slightly below L). The result satisfies f(x) - f(y) <= 9 L alpha^2/(nit + 2) + C (nit + 1) w for every y in the ball, is in the ball up to C (nit + 1) w, and does not increase the objective by more than C (nit + 1) w; a certificate at most tol bounds f(x) - f(y) up to C w; with tol above the rounding errors each iteration decreases the objective by at least de = min(tol/2, tol^2/(9 L alpha^2)) - C w, so the number of iterations is at most (f(x0) - inf f)/de and a run with a larger max_iter ends by the tolerance.", "quantifier": "for all roundings with C w <= 1, all orders of summation and inaccuracies of the gradients, all objectives, in particular all losses and data sets, starting points in the ball, tolerances and iteration limits with C max_iter w <= 1", "why_tests_cant": "tests compare one result with a loose tolerance; the rate and the bound on the number of iterations are statements about every rounding pattern and number of iterations", "anchors": ["copt/frank_wolfe.py:minimize_frank_wolfe", "copt/constraint.py:L1Ball.lmo"]}
{"id": "C136", "title": "Three operator splitting with its line search in floating point solves the problem up to the precision, if the starting step size is given", "statement": "minimize_three_split(f_grad, x0, prox_1, prox_2, step_size=s0) with its line search, each operation rounded, for a convex objective with L-Lipschitz gradient and the penalties or constraints of the library. The run does not raise; the step size never falls below min(s0, b0/(2 L)) where b0 <= backtracking_factor <= 1 - b0, whatever max_iter_backtracking; the returned vector is within C w of the domain of the first penalty; a failure has used all iterations with a certificate not below tol; a success comes with points X, Z and subgradients p of g at X and q of h at Z such that ||grad f(Z) + p + q|| <= certificate + C w, ||X - Z|| <= step_size * certificate + C w and ||x - X|| <= C w, so it is an approximate solution; if h is Lipschitz, its objective exceeds the minimum by at most C (certificate + C w). The full claim, for the default step_size=None, is false: init_lipschitz can return an estimate so large that the step rounds away and a success with certificate 0 is reported at the starting point.", "quantifier": "for all roundings of precision w with C w <= 1, all orders of summation and inaccuracies of the oracles, all losses and data sets, penalties, starting points and steps in a bounded range, tolerances, and every max_iter (C depends on it)", "why_tests_cant": "tests use well scaled data and compare with loose tolerances; the acceptance test of the line search compares values whose difference is below the rounding errors near a solution, and a rejected correct step shows up only for some rounding patterns", "anchors": ["copt/splitting.py:minimize_three_split", "copt/utils.py:init_lipschitz"]}
{"id": "C137", "title": "A nan or an infinity is not reported as success", "statement": "In IEEE arithmetic with infinities and nan, for minimize_proximal_gradient (accelerated=False, line search or callable step) and minimize_three_split: (1) if the result has success=True, then every coordinate of x is finite and the certificate is a finite number below tol, whatever the oracles and proximal operators return; (2) a nan in the data or the starting point never ends in success=True. (2) is false: np.fmax in L1Norm.prox maps nan to 0, so that with the l1 penalty, a nan in the data matrix and x0 = 0 both methods return x = 0 with success=True and certificate 0 although f and its gradient are nan. It holds for proximal operators which pass nan on: the run returns after max_iter iterations with success=False.", "quantifier": "for all roundings and overflow thresholds, all oracles, proximal operators, orders of summation, steps (non-negative ones for the three operator splitting), tolerances, starting points and max_iter", "why_tests_cant": "tests do not feed nan or overflowing data; a nan is compared as false everywhere, so the flow of control depends on how each test is written, and a masked nan looks like convergence", "anchors": ["copt/proximal_gradient.py:minimize_proximal_gradient", "copt/splitting.py:minimize_three_split", "copt/penalty.py:L1Norm", "copt/utils.py:init_lipschitz"]}
