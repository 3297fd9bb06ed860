# Formal model of openopt/copt in Lean 4

## Layout

* `lean/Verif/Spec/*.lean` - small specifications, independent of the model: unique minimisers,
  projections, proximal points, extended-valued convex functions and subgradients, total variation,
  dense matrix products, ...  They never mention a model definition.
* `lean/Verif/Model/*.lean` - the model, one file per Python module; each definition cites the file and
  lines of `/repo` it models and says what it simplifies.
* `lean/Verif/Proof/*.lean` - helper lemmas.
* `lean/Verif/Props/*.lean` - the property theorems (named in `MANIFEST.json`), each followed by an
  `example` showing that a concrete non-trivial instance meets the hypotheses.

## Conventions of the model

* **Numbers.** Floating point numbers are modelled by exact real numbers (`ℝ`), or by an arbitrary linearly
  ordered field `K` where no square root / exponential is needed (so the model also runs on `ℚ`).
  Rounding is modelled only in `Model/FloatProj`, `Model/FloatProxGrad`, `Model/FloatValue`, `Model/FloatConstrained`, `Model/FloatFW`, `Model/FloatFWPairwise`, `Model/FloatRandomized`, `Model/FloatAccel`, `Model/FloatSplit`, `Model/FloatPrimalDual`, `Model/FloatLineSearch`, `Model/FloatPdSearch`, `Model/FloatFWSearch`, `Model/FloatFWDR`, `Model/FloatTsSearch` and `Model/IeeeSolvers` (each operation followed by an abstract rounding, C115-C119, C121-C137; `Model/FloatPdSearch` also has an arithmetic with infinities and nan) and in C114
  (arbitrary arithmetic); overflow only in C114.  Where the code can divide by zero the model raises
  (`ZeroDivisionError`), takes the branch numpy's `inf` takes, or carries an `Option` whose `none` is
  nan/inf; the definition's comment says which.
* **Vectors.** 1-D numpy arrays of length n are functions `Fin n → K`; in coordinate-free solvers the iterate
  lives in an arbitrary real inner product space `E` (`EuclideanSpace ℝ (Fin n)` is the instance meant).
* **Memory.** Code compiled without bounds checks accesses arrays with `rd`/`wr` (`Model/Mem`), which fail out of
  range; the top-level functions turn that into `memoryFault`.  `np.empty` arrays get arbitrary contents.
* **Mutation** becomes returning the new value; aliasing that a caller can observe (VRTOS' `x0`, objects stored
  by `Trace`, the integer `x0` of proximal gradient, SAGA, SVRG, VRTOS and the primal-dual method) is modelled explicitly.
* **Exceptions** are values of `Except PyErr`.
* **Loops** are structural recursion on the remaining iterations; a `while True` line search without bound is the
  first index (`Nat.find`) that passes the test, `none` when there is none.
* **Callables supplied by the user** (objective, prox, lmo, callback, step rule, random draws) are parameters;
  contracts (e.g. "prox is the proximal operator of g") are explicit hypotheses.  Callbacks and step rules are
  called at most once per iteration and are functions of the iteration number and the local variables, which
  covers stateful ones.  Random draws are arbitrary sequences; theorems quantify over all of them.
* **External numerics** (`svd`, `svds`, `np.sort`, scipy's sparse products and conversions) are modelled by their
  mathematical contract.
* **Strings, tuples, dtypes** appear only where the code branches on them (`Model/Utils`).
* **Witnesses.** `Verif/Props` has, beside the theorems, examples meeting their hypotheses; `Verif/Examples` applies whole families of conditional theorems
  (SAGA, SVRG, VRTOS, stochastic Frank-Wolfe) to concrete problems, so that no hypothesis is left open.

## Plan per property

(M = model, P = how proved)

| id | plan |
|---|---|
| C01 | M `LinfBall.prox` = coordinate clip. P coordinate-wise variational inequality summed. |
| C02 | M norm test + scaling over ℝ. P Cauchy-Schwarz. |
| C03 | M sort descending, cumsum, last index satisfying the test, threshold; assertion and IndexError branches. P the test holds at index 0, threshold identity at rho, KKT. |
| C04 | M abs, early return, reduction to simplex, sign. P from C03 and sign symmetry. |
| C05 | M argmax of abs, sign, update. P Hölder. |
| C06 | M min over insertion-ordered association list. P fold invariants. |
| C07 | M argmax/sign. Refuted: concrete u < 0 gives an infeasible vertex; partial theorem for max u > 0. |
| C08, C09, C18 | M given SVD factors as a contract. Nuclear ball as convex hull of rank-one matrices / dual norm. P Bessel + C03/C10 on singular values. |
| C10, C11 | M fmax formula, in-place loop. P scalar case + separability. |
| C12 | M constructor as list recursion with Python errors. P induction on groups. |
| C13, C14 | M prox per group; pointer-bumping block construction. P block soft-threshold optimality; loop invariants. |
| C15, C16 | M `_prox_tv1d` statement by statement with checked array accesses and checked division. P taut-string invariants (hull of upper/lower tube), KKT certificate; result `some out`. |
| C17 | M index arrays and the pair kernels. P arithmetic on parities; scalar pair prox. |
| C19 | M Dykstra loop. P invariant x+p+q=w, subgradient certificates from C15, strong monotonicity. |
| C20 | M list of rows. P double sum rearrangement. |
| C21-C27 | M losses over ℝ with `Real.exp/log`. P calculus: `HasDerivAt`, Lipschitz of sigmoid, error bounds of log(1+t). C25 refuted for alpha ≠ 0, n > 1. |
| C28 | M loop of at most 100 multiplications by 10. P induction, quadratic upper bound. |
| C29 | M nested loops over CSR. P fold = finite sum. |
| C30 | M writes of slices in any order (permutation of batch numbers). P disjoint writes commute. |
| C31 | M state machine. P induction on histories. |
| C32-C34 | M decision functions on tagged values. C32, C33, C34 partly refuted by witnesses. |
| C35-C43 | M `minimize_frank_wolfe` with all step rules, callbacks, active set as association list with defaultdict semantics. P invariants over iterations; convexity; descent lemma; rate by induction. C37, C42 refuted by witnesses (and characterised). |
| C44-C50, C72 | M both variants of `minimize_proximal_gradient`. P three-point inequality; telescoping; FISTA Lyapunov function. C48 (warning), C49, C72 refuted by witnesses. |
| C51, C52, C74 | M `minimize_three_split`. P invariant u ∈ ∂h(z); Fejér monotonicity. |
| C53-C55 | M `minimize_primal_dual` with fuel for the line search. P Moreau; KKT; limit argument. Warning refuted. |
| C56 | M loops with scratch array and checked writes. P invariants. |
| C57-C63 | M inner steps on dense scratch arrays, index histories. P invariants over histories, finite sums; C60, C62, C63 refuted by witnesses and partially proved. |
| C64-C68 | M step rules, SFW step, epoch loop. P arithmetic, convexity, invariants. C66 and C68 refuted by witnesses, partial theorems. |
| C69, C70 | M file-system state machine with crash points. Refuted by witnesses; partial theorems for the fresh state. |
| C71 | M decorators as higher-order functions. P by cases. |
| C73 | Corollaries of the unique-minimiser characterisations. |
| C76 | M appended column / dropped last coordinate. Refuted: `f_grad` without the value. |
| C77, C78 | M `pdSearch` with `Nat.find`. P potential of Chambolle-Pock/Condat-Vu; C77 refuted by a concrete run. |
| C79 | M `tsGrow`, `none` is nan. P monotone growth, cap 1.02. |
| C80 | M both dual tables. Refuted by a two-feature problem. |
| C81 | M pairwise SFW on top of `update_active_set`. Refuted; DR steps keep the decomposition. |
| C82 | P scalar cocoercivity, per-feature variance bound, Lyapunov function, mean over independent draws. |
| C83, C84 | P a pass is a perturbed gradient step: discrete drift bound (`walk_drift`), gradient contraction, memory errors in a Lyapunov function. |
| C85 | P search lemma; FISTA potential with non-increasing steps along the ghost log. |
| C86 | P invariant of the loop relating `certificate_list` to the ghost log; refuted for callable steps. |
| C75 | P telescoping of Dykstra distances: the squared increments sum to at most the squared norm of the image. |
| C87, C88 | P guaranteed decrease per iteration while the certificate exceeds tol. Refuted for C88: zero Lipschitz estimate, two-cycle. |
| C89, C90 | P sufficient decrease; strong monotonicity of the gradient and nonexpansive prox. |
| C91 | S `EpochRun`. P generic epoch loop; support matrix empty iff no entry is stored. |
| C92-C94 | M `LossObj`, `PenObj`, `l1VanillaLmo` (`Model/Objects`): the objects of loss.py, penalty.py, constraint.py as solver arguments. P empirical risk form of the losses gives convexity and smoothness; contracts of C47, C50, C89, C90, C36, C39, C40, C87 discharged. |
| C95 | M callbacks as arbitrary functions of the iteration number and the local variables. P the states shown to the callback form a chain of loop bodies; a prefix of the chain is the run of the solver without callback and with a smaller `max_iter`. |
| C96 | M `PyMethod.call`: Python's rule for positional arguments; parameter lists of the LMO methods (`Model/LmoObjects`). P unfolding of the first iteration. |
| C97 | M `traceLmo`. P nuclear-norm ball convex, of diameter at most `2 alpha` (Frobenius norm at most nuclear norm); C36, C39, C40, C87. |
| C98 | P `Proof/BlockPass`: a pass of block-proximal steps with directions off by the movements of two passes; descent of `F + (1/(4 step D)) sum |moves|^2`, subgradient at the end of the pass bounded by the movements; `saga_blockPass`, `svrg_blockPass` show that a pass of the model is one. |
| C99 | P the same descent with `V_next^2 <= C (V - V_next)`. |
| C100 | P C98 with the contracts discharged: facts on `partial_deriv`, block proximal operators of the factories, entries and support of `csr_matrix(A)`; the first-pass term is bounded through `phi'^2 <= 2 M phi`. |
| C101 | P C99 with the radius of a sublevel set from `beta |x|_1 <= F(x)`. |
| C102 | P C74 for the fixed point `x* + u*/L` obtained from Fenchel duality (`Proof/Duality`); the objective gap from the certificate and the Lipschitz constant of h. |
| C103 | P C78 for a saddle point from the same duality; `8` bounds the squared norm of the difference operator by (a-b)^2 <= 2a^2+2b^2. |
| C104 | P extreme value theorem on a sublevel set; strong convexity along a segment. |
| C105 | P the Fejer inequality leaves the direction dy = -tau M dx free; monotonicity of the conjugate between two consecutive iterates closes it. |
| C106 | M the sampled order as a function of the draws (`sfwOrder`). P potential: gap plus weighted mean error of the dual variables (SAG, SAGA, MHK), plus the mean squared lag of `agg` (LF); summed over all draws. |
| C107 | M as C51. P the acceptance test and cocoercivity are combined with weights depending on the step, in the metric of the current step; the tolerances of the search enter as slack. |
| C108 | P energy: distances, plus the weighted slack of the subgradient inequality of h at the last dual point; the step growth (1+sqrt(1+theta))/2 is what its weight allows. |
| C109 | M `L1Ball.call`, `TraceBall.call`. P thresholds; for the tolerance, comparison of the projection with the radial contraction. |
| C110 | M `csrInfer`, `csrStack`, `dsMatrix` (`Model/DatasetMatrix`): CSR arrays without a shape. P list calculations. |
| C111 | M `torchFuncAndGrad` (`Model/Torch`): tensors as functions of multi-indices, automatic differentiation as a parameter. P chain rule with the reindexing. |
| C112 | M `vrtosEpoch` (`Model/Randomized`) along every sequence of samples; expectations are averages over all sequences (`Spec.uniformMean`). P `Proof/SubgradSum` splits the optimality condition between the two penalties (Hahn-Banach); Lyapunov function `vrtosLyap`. |
| C113 | M `minimizeVrtos` (`Model/Randomized`) with an arbitrary permutation per pass. P `Proof/TableSplitting`: the delayed gradient table of a cyclic run is controlled by the moves of the last `2 n` iterations; Fejér monotonicity and a cluster point give the limit. |
| C114 | M `Model/TV1D` is polymorphic in the operations and the comparison. P `Proof/TVSafe`: the index arrays stay strictly increasing whatever the comparisons return. Example: an arithmetic with truncated division, overflow and nan. |
| C115 | S `Spec/Rounding`: monotone roundings with relative error `u` and underflow error `eta`; sums in any order. M `Model/FloatProj`. P `Proof/Rounding` (summation errors, `fl64` is such a rounding), `Proof/FloatSimplex`: the rounded threshold is compared with the exact one through the sum of the thresholded vector. Example: double precision with the IEEE underflow threshold. |
| C116 | As C115; absolute values and products with a sign are exact. |
| C117 | S `Spec/Rounding`, `IsProx`. M `L1Norm.flProx` (`Model/FloatProxGrad`). |
| C118 | S `StrongGrad`, `UpperQuad`, `IsProxOf`. M `Model/FloatProxGrad`: the loop with a rounding after each operation and with results of the oracles that may change from call to call. P `Proof/InexactProxGrad`: contraction of the exact step, error of one rounded step and of the certificate. |
| C119 | S `FlDot`: rounded dot products with any order, bracketing and fused multiply-add instructions. P `Proof/RoundedSteps`, `Proof/FloatOracles`: forward error of the gradients and of the proximal operators; the solution exists by the contraction theorem. Examples: every problem of this form with rounding to `p + 1` bits, `p` large (`Proof/RoundingBits`). |
| C120 | M `Model/IntStart`: SAGA, SVRG and the primal-dual loop with a conversion at every assignment to `x`. T a general comparison of conversions (`Refines`); the zeros stay zeros by the memory invariant. Examples: the hypotheses of `C120_saga_zero_start` and of `C120_exact_partial` on one-dimensional problems. |
| C121 | S `Spec/Rounding`. M `Model/FloatValue`: `logsig` with its thresholds, the values with sums in any order. P `Proof/FloatValue`: error of each branch; the values are Lipschitz in the predictions. Examples: double precision. |
| C122 | S `FwGuarantee` (`Props/FloatFW`) on top of `ConvexGrad`, `UpperQuad`, `LipGrad`, `norm1`. M `Model/FloatFW`. P `Proof/InexactFW`: Frank-Wolfe with errors in the vertex, the update and the step size, rate and gap; `Proof/FloatFW`: one rounded step on the l1 ball, drift out of the ball. Example: every loss and data set with enough bits meets the hypotheses and is solved to twice the tolerance. |
| C123 | S `PfwGuarantee`, `activeComb` (`Props/FloatFWPairwise`). M `Model/FloatFWPairwise`. P `Proof/FloatFWPairwise`: `update_active_set` never raises on rounded weights (monotonicity of the rounding), errors of weights, direction and update. Example: every loss, data set and starting vertex with enough bits, `step="DR"`. |
| C124 | S `FlPgGuarantee` (`Props/FloatConstrained`). M `Model/FloatConstrained`: the loop of C118 with a `prox` that may raise. P: a total operator which agrees with `prox` where it returns makes C118 applicable; its bound on the iterates shows that `prox` returned. Examples: every loss and data set with rounding to `p + 1` bits. |
| C125 | S `FlPgConvexGuarantee`, `exactPg` (`Props/FloatConvex`). M as C124. P: the step is nonexpansive, so that the distance to the exact iterates grows linearly; rate and short steps of the exact iteration. Examples: every loss without regularisation on the l1 ball (compactness gives a solution). |
| C126 | S `PenProblem`, `vrObj` (C98), `Spec/Rounding`, `FlVROracles` (`Proof/FloatRandomized`). M `Model/FloatRandomized`. P `Proof/Appr`: closeness of computed vectors; `Proof/FloatVR`: errors of the row loops; `Props/FloatRandomized`. The library oracles of C128 are the concrete case. |
| C127 | As C126; `Proof/FloatSaga`: one pass with the drift of the average as a state of the induction. |
| C128 | S `vrProblem` (C100). M `VRLoss.flDeriv`, `L1Norm.flKernel`, `GroupL1.flKernel`, `flVrCall` (`Model/FloatRandomized`). P `Proof/FloatVRObjects`. Examples: logistic regression with a group penalty, all large enough numbers of bits, both methods. |
| C129 | S `Spec/Rounding`, `FlOraclesE` for the calls of the loop and of the certificate. M `Model/FloatAccel`. P `Proof/InexactAccel`: potential with errors in the momentum parameter and the extrapolated points. Example: every loss on the l1 ball, all large enough numbers of bits. |
| C130 | S `Spec/Rounding`, `FlOraclesE` for both operators, `IsSubgrad`. M `Model/FloatSplit`. P `Proof/InexactSplit`: averaged operators with errors; `Proof/FloatSplit`: one iteration. Example: every loss with an l1 penalty on the l1 ball, all large enough numbers of bits. |
| C131 | S `Spec/Rounding`, `FlOraclesE` for both operators, `IsSubgrad`. M `Model/FloatPrimalDual` (`FlRow`: rows of dense or sparse products). P `Proof/InexactPrimalDual`: the operator is averaged in the Condat-Vu metric, dependence of a proximal point on its parameter; `Proof/FloatPrimalDual`: one iteration. Example: every loss with an l1 penalty of any linear image on the l1 ball, all large enough numbers of bits. |
| C132 | S `Spec/Rounding`, `Spec/Nearest` (rounding to nearest with any rule for ties), `StrongGrad`, `UpperQuad`. M `Model/FloatLineSearch`. P `Proof/InexactLineSearch`: a step accepted up to an error contracts, a step rejected below `1/(2 L)` or accepted above `2/mu` is short, a short step means a point near the minimiser; `Proof/FloatLineSearch`: the rounded test, the search, the loop; `Proof/FloatLineSearchInit`: `init_lipschitz`. The code disagrees with the property: `C132_refuted` (least squares with samples `(7 * 2^-26 - 2^-76, -2^27)` and `(16, 17)`, start at 1). Examples: every square or Huber loss and penalty, all large enough numbers of bits; doubles with the default arguments for the refutation. |
| C133 | S `Spec/Rounding`; the arithmetic is a parameter (`FlOps`): rounded reals, or IEEE numbers with infinities and nan. M `Model/FloatPdSearch` (the search is run with a number of trials as fuel, `none` means not ended). P `Proof/FloatPdSearch`: the test passes when tau is small compared with the quantities compared, the trial steps shrink geometrically; for whole runs the state of each iteration is finite, hence so is each search; nan propagates through the sums and products into the test. |
| C134 | S `FwsGuarantee`, `FwsEnough` (`Props/FloatFWSearch`) on top of `ConvexGrad`, `UpperQuad`, `LipGrad`, `norm1`. M `Model/FloatFWSearch`. P `Proof/FloatFWSearch`: the test passes as soon as the estimate is above the Lipschitz constant, because its slack EPS is larger than the rounding errors; so an accepted estimate is below twice the constant, which gives the decrease; the shrinking of the estimate is bounded by the number of iterations with the full step. Example: a least squares problem from 0 with the default arguments. |
| C135 | S `FwdGuarantee` (`Props/FloatFWDR`) on top of `ConvexGrad`, `LipGrad`, `norm1`. M `Model/FloatFWDR`. P `Props/FloatFWDR`: the computed step nearly minimises the quadratic model on [0, 1], so the recursion of the exact rate holds with an error. Examples: every loss and data set with enough bits. |
| C136 | S `FlTosGuarantee` (`Props/FloatTsSearch`) on top of `IsSubgrad`, `ExtFun`, `Spec/Nearest`. M `Model/FloatTsSearch`. P `Proof/FloatTsSearch`: one trial and one dual update differ from the exact ones by O(w), uniformly over all bounded states; a step below 1/L passes the test once the errors are below its slack 2^-52, so the step size stays bounded below; `Props/FloatTsWitness` follows `init_lipschitz` until its step rounds away. Examples: every square or Huber loss and pair of penalties with enough bits; doubles with the default arguments for the refutation. |
| C137 | S `Ieee.IsFin`, `Ieee.NotNeg` (`Props/IeeeSolvers`) on top of `OpsNorm`. M `Model/IeeeSolvers`, any arithmetic; `ieee` of `Model/FloatPdSearch`. P `Props/IeeeSolvers`: numbers which are not finite absorb sums, products and numerators, and a root of one is nan or plus infinity, which no comparison puts below tol. |

## Trusted base

* Lean 4.33.0's kernel.
* The axioms `propext`, `Classical.choice`, `Quot.sound`.  Every theorem of `MANIFEST.json` depends on a subset of
  these three (checked with `#print axioms`); the development adds no axiom, contains no `sorry` and does not use
  `native_decide` or `bv_decide`.
* Mathlib definitions used in statements (ℝ, inner products, `Finset.sum`, `ConvexOn`, `HasDerivAt`, `fderiv`, ...).
* The specifications in `Verif/Spec` saying what was meant.
* The faithfulness of the model to `/repo`, which is by reading; the code is never run.

## What is modelled, module by module

| Python | modelled | not modelled |
|---|---|---|
| `constraint.py` | `LinfBall.prox`, `L2Ball.prox`, `L1Ball.prox/lmo/lmo_pairwise`, `SimplexConstraint.prox/lmo`, `euclidean_proj_simplex`, `euclidean_proj_l1ball`, `TraceBall.prox/lmo`, `__call__` of `L1Ball` and `TraceBall` (`Model/Constraint`, `Model/Trace`); the projections on the simplex, the l1 ball and the l2 ball with rounded arithmetic (`Model/FloatProj`, `Model/FloatProxGrad`) | `TraceBall.prox_factory` (raises NotImplementedError), rounding in the other methods, `svd`/`svds` themselves |
| `penalty.py` | `L1Norm`, `GroupL1` (constructor, call, prox, prox_factory with block pointers), `FusedLasso` (call, prox, both factories), `TraceNorm` (call, prox), `TotalVariation2D` (call, prox) (`Model/Penalty`, `Model/BlockPenalty`, `Model/TVProx`, `Model/Trace`); `L1Norm.prox` and `GroupL1.prox` with rounded arithmetic (`Model/FloatProxGrad`), their sparse kernels (`Model/FloatRandomized`) | `TraceNorm.prox_factory` (raises), numba compilation, rounding in the other methods |
| `tv_prox.py` | everything: `prox_tv1d`, `_prox_tv1d` statement by statement, `prox_tv1d_cols/rows`, `c_prox_tv2d`, `prox_tv2d`, `tv2d_linear_operator` (`Model/TV1D`, `Model/TVProx`) | the dtype conversions other than the float64 test |
| `loss.py` | `LogLoss` (all methods), `SquareLoss`, `HuberLoss` (`Model/Loss`); the gradients and the values with rounded arithmetic (`Model/FloatProxGrad`, `Model/FloatValue`) | sparse versus dense storage of `A`; the internals of `exp` and `log1p` |
| `utils.py` | `build_func_grad` (without numerical differentiation: `approx_derivative` is never reached), `safe_sparse_add`, `sample_batches` (any thread schedule), `fast_csr_vm`, `fast_csr_mv`, `parse_step_size`, `Trace`, `init_lipschitz`, `get_max_lipschitz`, the `njit` fallback (`Model/Utils`) | wall-clock values of `Trace`, numba itself |
| `frank_wolfe.py` | everything (`Model/FrankWolfe`); the vanilla variant on the l1 ball with a given step in rounded arithmetic (`Model/FloatFW`) with the line search (`Model/FloatFWSearch`) and with the Demyanov-Rubinov step (`Model/FloatFWDR`), the pairwise variant with any admissible step (`Model/FloatFWPairwise`) | printing; callbacks that mutate local variables |
| `proximal_gradient.py` | everything, both variants (`Model/ProxGrad`); the variant without acceleration in rounded arithmetic, with a callable step (`Model/FloatProxGrad`, `Model/FloatConstrained`) or with the line search (`Model/FloatLineSearch`), the accelerated variant with a callable step in rounded arithmetic (`Model/FloatAccel`) | printing; infinite `max_iter` |
| `splitting.py` | everything (`Model/Splitting`; integer `x0` of the primal-dual method in `Model/IntStart`); three operator splitting with a given step and no line search (`Model/FloatSplit`) and with the line search and the default step (`Model/FloatTsSearch`; with infinities and nan `Model/IeeeSolvers`, `h_Lipschitz` None or 0) and primal-dual method without line search (`Model/FloatPrimalDual`) and with it (`Model/FloatPdSearch`, also with nan) in rounded arithmetic | printing, `args_prox` |
| `randomized.py` | `_support_matrix`, SAGA, SVRG, VRTOS (`Model/Randomized`; integer `x0` in `Model/IntStart`; SAGA and SVRG with rounded arithmetic in `Model/FloatRandomized`), `minimize_sfw` and its step rules (`Model/SFW`) | callbacks and traces (they only observe), numba, `csr_matrix(A)` of sparse input (theorems assume no duplicate entries where they need it; the conversion of a dense array is `csrOfDense` in `Model/VRObjects`) |
| `datasets.py` | `_load_dataset` as a sequence of file system operations with a crash at any point; the checksum/retry logic of `load_url`, `load_kdd10`, `load_kdd12`, `load_criteo` (`Model/Datasets`); the assembling of the arrays into matrices, the relabelling (`Model/DatasetMatrix`) | `load_img1`, the wrappers with fixed names, `np.int` (removed from recent numpy), network errors other than corrupted bytes |
| objects as arguments (all of the above) | `Model/Objects`: `f.f_grad`, `pen.prox`, `L1Ball.lmo` passed to the solvers; `Model/LmoObjects`: parameter lists of the LMO methods, `TraceBall.lmo`; `Model/SfwRaise`: stochastic Frank-Wolfe with an oracle that may raise; `Model/SplitObjects`: operators and matrices passed to the splitting solvers | argument passing by keyword, dtype and shape checks of numpy |
| `utils_pytorch.py` | `make_func_and_grad` (`Model/Torch`) | automatic differentiation (a parameter), devices, dtype conversion |

## Where the code disagrees with the properties

Each item is proved by a concrete witness (the theorem in parentheses) next to a `_partial` theorem saying what does hold.

* **C07** `SimplexConstraint.lmo` multiplies the vertex by `sign(u_j)`: infeasible when no coordinate is positive (`C07_refuted`).
* **C96** `SimplexConstraint.lmo` has no `active_set` parameter, so that every run of either Frank-Wolfe solver with it raises TypeError (`C96_simplex_refuted`, `C96_sfw_simplex_refuted`).
* **C20** `tv2d_linear_operator(1, 1)` raises ValueError (`C20_one_pixel_fails`).
* **C25** `LogLoss.hessian_mv` divides the `alpha` term by n as well (`C25_refuted`).
* **C76** with `intercept=True`, `f_grad` returns the gradient alone instead of the pair (`C76_refuted`).
* **C32** `parse_step_size` accepts two-character strings as pairs and fails on sets and 0-d arrays (`C32_refuted`).
* **C33** `build_func_grad` treats `'2-point'`, `False`, `None` as a value to call (`C33_refuted`).
* **C34** `safe_sparse_add` of a sparse column and a dense vector broadcasts to n x n (`C34_refuted`).
* **C37** the certificate returned after `max_iter` is exhausted belongs to the previous iterate (`C37_refuted`).
* **C42** reading `active_set[away]` after the deletion re-inserts the key with weight 0; later that vertex can be chosen as away vertex with
  maximal step 0, and a run that stalls for ever is exhibited (`C42_refuted`, `C42_stall`).
* **C44, C46** after an exhausted line search `f_next`, `grad_next` are those of a rejected point (`C44_refuted`, `C46_refuted`).
* **C48** the plain method never issues the non-convergence warning (the `else` of `while True`); the accelerated one warns on success at
  `max_iter` and silently accepts unknown strategies (`C48_refuted`, `C48_accelerated_refuted`); `step="fixed"` raises TypeError.
* **C49** the accelerated method's certificate compares a prox step from `x_next` with the previous `x` (`C49_refuted`).
* **C85** the accelerated line search restarts from the initial step, so accepted steps can grow and the FISTA bound fails in the second iteration (`C85_refuted`).
* **C86** the accelerated method with a callable step records no certificates (`C86_refuted`).
* **C132** in double precision the default run of the proximal gradient method can report success with certificate 0 at its starting point, far from stationary: rounding errors in the values make every
  trial step fail until the step is smaller than half a unit in the last place of `x` (`C132_refuted`).
* **C133** a nan in `x0` or in the first gradient makes the `while True` of the primal-dual line search (splitting.py:298) run for ever (`C133_refuted`, `C133_nan_start`, `C133_nan_gradient`);
  `max_iter_ls` is compared with 0 and never used again (`C133_limit_ignored`).
* **C136** in double precision the default run of the three operator splitting (`step_size=None`) can report success with certificate 0 at its starting point, far from stationary: `init_lipschitz`
  multiplies its estimate by 10 until the step no longer changes `x0` (`C136_refuted`).
* **C137** `np.fmax` in `L1Norm.prox` (penalty.py:32) turns nan into 0: with the l1 penalty and a nan in the data, the proximal gradient method with its default arguments and the three operator splitting,
  started at zero, return zero with `success=True` and certificate 0 (`C137_refuted`, `C137_refuted_split`).
* **C88** the default Lipschitz estimate of Frank-Wolfe can be 0; doubling keeps it 0 and the method cycles on a convex problem (`C88_refuted`).
* **C91** SAGA and SVRG raise ValueError for `step_size=None`, which their docstrings describe as "estimated" (`C91_no_step`).
* **C72, C120** an integer `x0` makes every iterate be truncated (`C72_refuted`, `C120_saga_refuted`, `C120_svrg_refuted`, `C120_primal_dual_refuted`, `C120_vrtos_refuted`); SAGA from
  integer zeros with a small step returns them with `success=True` for every data set (`C120_saga_zero_start`).
* **C54** the primal-dual non-convergence warning is never issued (`C54_refuted`).
* **C77** the primal-dual line search uses `tau / sigma` as the ratio by which `tau` is multiplied to get `sigma` (`C77_refuted`).
* **C108** the acceptance test of the primal-dual line search compares with the squared move of `L x` instead of the one of `x`, so that the accepted steps do not
  depend on the norm of `L`: with `L = 10` and the default steps the iterates grow like `21^k` (`C108_refuted`).
* **C79** with `h_Lipschitz` a failed line search makes the step size nan (`C79_refuted`).
* **C60** SVRG never clears the scratch gradient: blocks of several features see stale entries (`C60_refuted`).
* **C62** VRTOS overwrites the caller's `x0`, never reads `tol`, never reports success (`C62_refuted`).
* **C63** the number of columns of the support matrix is inferred, so `d1`/`d2` can be too short and are read out of bounds (`C63_refuted`).
* **C80** a feature touched through one block structure only keeps `Y = 0` in the other, which biases `z` (`C80_refuted`).
* **C66** `step_size='DR'`: SAGA's negative steps leave the set, a zero direction gives nan, MHK and LF raise UnboundLocalError
  (`C66_refuted_saga`, `C66_refuted_nan`, `C66_mhk_lf_raise`).
* **C68** `break` leaves the inner loop only; a callable `step_size` raises UnboundLocalError (`C68_refuted`, `C68_callable_raises`).
* **C81** stochastic pairwise steps ignore the maximal step, so `update_active_set` raises (`C81_refuted`).
* **C69** `os.makedirs` fails on the directory a crash left behind; truncated files count as present; only train files are tested
  (`C69_refuted_mkdir`, `C69_refuted_truncated`, `C69_refuted_test`).
* **C70** `load_kdd12` retries with `load_url`; cached archives are not verified; `load_criteo` extracts before verifying
  (`C70_kdd12_wrong`, `C70_refuted_cached`, `C70_refuted_criteo`).
* **C110** `csr_matrix((data, indices, indptr))` infers the number of columns: trailing features that no sample of a part has are cut off, and the default
  `subset='full'` raises ValueError when train and test part end in different features (`C110_refuted_shape`, `C110_refuted_full`).

Not stated as properties, noticed while modelling: `minimize_vrtos` and the other solvers raise UnboundLocalError for `max_iter=0`; VRTOS makes one
warm-up iteration on sample 0; the MHK variant of stochastic Frank-Wolfe does not scale the dual variables by 1/n, so its aggregate is n times
the average gradient; SAGA's docstring has the objective `sum f_i + alpha ||x||^2`, the code minimises `(1/n) sum f_i + (alpha/2) ||x||^2`;
`np.alltrue` in `constraint.py` is gone from numpy 2.0; negative indices in the groups
of `GroupL1` are outside the model; return values of callbacks of the stochastic solvers are ignored;
`plot_sfw_real_data.py` passes the batch size in the position of `x0_rep`, so that it runs with `batch_size=1`.
* **C115, C116** in floating point `euclidean_proj_simplex` raises IndexError when the spacing of the numbers around the largest entry exceeds the radius: no index passes the test `u * arange > cssv - s` (`C115_index_error`, `C116_index_error`: `(2^60, 0, …, 0)` and any radius below 64).
## Tests of the theorems

`seeded/LOG.jsonl` records edits of the model that introduce realistic bugs (or repair one of the bugs above), the claim that becomes false, and the
declarations that stopped compiling.  They are run in a scratch copy; a surviving edit means that a theorem has to be tightened.
