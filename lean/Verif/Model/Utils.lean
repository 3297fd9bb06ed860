import Mathlib.Analysis.InnerProductSpace.Basic
import Verif.Model.Mem
import Verif.Model.Loss

/-! # Model of copt/utils.py -/

namespace Copt

/-! ### init_lipschitz -/

section Lip
variable {E : Type} [NormedAddCommGroup E] [InnerProductSpace ℝ E]

open Classical in
/-- The loop of `init_lipschitz`, utils.py:176-181: `(L0, number of evaluations made by the loop)`. -/
noncomputable def initLipLoop (f : E → ℝ) (x0 grad0 : E) (f0 : ℝ) : ℕ → ℝ → ℝ → ℕ → ℝ × ℕ
  | 0, L0, _, evals => (L0, evals)
  | k + 1, L0, fTilde, evals =>
    if fTilde ≤ f0 then (L0, evals)
    else
      let L1 := L0 * 10
      initLipLoop f x0 grad0 f0 k L1 (f (x0 - (1 / L1) • grad0)) (evals + 1)

/-- `init_lipschitz(f_grad, x0)`, utils.py:167-182, returning `L0` and the number of evaluations after the first one.
The conversions between sparse and dense operands (utils.py:170-173) are not modelled. -/
noncomputable def initLipschitz (fGrad : E → ℝ × E) (x0 : E) : ℝ × ℕ :=
  let L0 : ℝ := 1e-3
  let fg := fGrad x0
  let fTilde := (fGrad (x0 - (1 / L0) • fg.2)).1
  initLipLoop (fun x => (fGrad x).1) x0 fg.2 fg.1 100 L0 fTilde 1

end Lip

/-! ### CSR products -/

section Csr
variable {K : Type} [Field K] {m nnz d p q : ℕ}

/-- Inner loop body of `fast_csr_vm`, utils.py:105-106. -/
def vmBody (data : Fin nnz → K) (indices : Fin nnz → ℕ) (xk : K) (res : Fin d → K) (j : ℕ) : Option (Fin d → K) := do
  let jIdx ← rd indices j
  let dj ← rd data j
  let r ← rd res jIdx
  wr res jIdx (r + xk * dj)

/-- Outer loop body of `fast_csr_vm`, utils.py:103-106, for entry `k` of `idx`. -/
def vmRow (x : Fin p → K) (data : Fin nnz → K) (indptr : Fin (m + 1) → ℕ) (indices : Fin nnz → ℕ) (idx : Fin q → ℕ)
    (res : Fin d → K) (k : Fin q) : Option (Fin d → K) := do
  let s ← rd indptr (idx k)
  let e ← rd indptr (idx k + 1)
  let xk ← rd x k.val
  (List.range' s (e - s)).foldlM (vmBody data indices xk) res

/-- `fast_csr_vm(x, data, indptr, indices, d, idx)`, utils.py:86-107.  (`x[k]` is read by every iteration of the inner
loop in the code, here once per row.) -/
def fastCsrVm (x : Fin p → K) (data : Fin nnz → K) (indptr : Fin (m + 1) → ℕ) (indices : Fin nnz → ℕ) (d : ℕ)
    (idx : Fin q → ℕ) : Except PyErr (Fin d → K) :=
  if p = q then
    match (List.finRange q).foldlM (vmRow x data indptr indices idx) (fun _ => 0) with
    | none => .error .memoryFault
    | some r => .ok r
  else .error .assertionError

/-- Inner loop body of `fast_csr_mv`, utils.py:126-127. -/
def mvBody (data : Fin nnz → K) (indices : Fin nnz → ℕ) (x : Fin d → K) (i : Fin q) (res : Fin q → K) (j : ℕ) :
    Option (Fin q → K) := do
  let jIdx ← rd indices j
  let xj ← rd x jIdx
  let dj ← rd data j
  let r ← rd res i.val
  wr res i.val (r + xj * dj)

/-- Outer loop body of `fast_csr_mv`, utils.py:124-127. -/
def mvRow (data : Fin nnz → K) (indptr : Fin (m + 1) → ℕ) (indices : Fin nnz → ℕ) (x : Fin d → K) (idx : Fin q → ℕ)
    (res : Fin q → K) (i : Fin q) : Option (Fin q → K) := do
  let s ← rd indptr (idx i)
  let e ← rd indptr (idx i + 1)
  (List.range' s (e - s)).foldlM (mvBody data indices x i) res

/-- `fast_csr_mv(data, indptr, indices, x, idx)`, utils.py:110-128. -/
def fastCsrMv (data : Fin nnz → K) (indptr : Fin (m + 1) → ℕ) (indices : Fin nnz → ℕ) (x : Fin d → K)
    (idx : Fin q → ℕ) : Option (Fin q → K) :=
  (List.finRange q).foldlM (mvRow data indptr indices x idx) (fun _ => 0)

end Csr

/-! ### sample_batches -/

/-- One element write of the parallel loop of `sample_batches`, utils.py:82: element `t` of the slice of batch `k`. -/
def writeDraw {N : ℕ} (draw : ℕ → ℕ → ℕ) (batchSize : ℕ) (idx : Fin N → ℕ) (kt : ℕ × ℕ) : Option (Fin N → ℕ) :=
  wr idx (kt.1 * batchSize + kt.2) (draw kt.1 kt.2)

/-- All element writes of the loop, in program order of a sequential execution. -/
def allWrites (nBatches batchSize : ℕ) : List (ℕ × ℕ) :=
  (List.range nBatches).flatMap fun k => (List.range batchSize).map fun t => (k, t)

/-- `sample_batches(n_samples, n_batches, batch_size)`, utils.py:78-83.  `draw k` is the sample returned by the call of
`np.random.choice` of iteration `k`; `sched` is the order in which the element writes of all (parallel) iterations
happen - any permutation of `allWrites`.  `np.random.choice(..., replace=False)` raises ValueError when
`batch_size > n_samples`. -/
def sampleBatches (nSamples nBatches batchSize : ℕ) (draw : ℕ → ℕ → ℕ) (sched : List (ℕ × ℕ)) :
    Except PyErr (Fin (nBatches * batchSize) → ℕ) :=
  if nBatches ≠ 0 ∧ nSamples < batchSize then .error .valueError
  else
    match sched.foldlM (writeDraw draw batchSize) (fun _ => 0) with
    | none => .error .memoryFault
    | some r => .ok r

/-! ### Trace -/

/-- A stored iterate: an independent copy (`dl["x"].copy()`), or an alias of the solver's array. -/
inductive Stored (V : Type) where
  | snapshot (v : V)
  | alias (addr : ℕ)

/-- What a `Stored` object shows when memory is `heap`. -/
def Stored.view {V : Type} (heap : ℕ → V) : Stored V → V
  | .snapshot v => v
  | .alias a => heap a

/-- The local variables the callback reads: the address of array `x`, memory, the step size, and the clock. -/
structure Locals (V S : Type) where
  x : ℕ
  heap : ℕ → V
  stepSize : S
  time : ℚ

/-- State of a `Trace`, utils.py:145-153. -/
structure Trace (V S F : Type) where
  traceX : List (Stored V)
  traceTime : List ℚ
  traceFx : List F
  traceStepSize : List S
  start : ℚ
  counter : ℤ
  freq : ℤ
  f : Option (V → F)

/-- `Trace.__init__`, utils.py:145-153; `freq` is the value of `int(freq)`. -/
def Trace.init {V S F : Type} (f : Option (V → F)) (freq : ℤ) (now : ℚ) : Trace V S F :=
  ⟨[], [], [], [], now, 0, freq, f⟩

/-- The recording branch, utils.py:157-163. -/
def Trace.record {V S F : Type} (t : Trace V S F) (dl : Locals V S) : Trace V S F :=
  let t := match t.f with
    | some f => { t with traceFx := t.traceFx ++ [f (dl.heap dl.x)] }
    | none => { t with traceX := t.traceX ++ [Stored.snapshot (dl.heap dl.x)] }
  { t with traceTime := t.traceTime ++ [dl.time - t.start], traceStepSize := t.traceStepSize ++ [dl.stepSize] }

/-- `Trace.__call__`, utils.py:155-164: the new state and the returned value (`None`, so never `False`). -/
def Trace.call {V S F : Type} (t : Trace V S F) (dl : Locals V S) : Except PyErr (Trace V S F × Option Bool) :=
  if t.freq = 0 then .error .zeroDivisionError
  else
    let t := if t.counter % t.freq = 0 then t.record dl else t
    .ok ({ t with counter := t.counter + 1 }, none)

/-- A sequence of calls. -/
def Trace.calls {V S F : Type} (t : Trace V S F) : List (Locals V S) → Except PyErr (Trace V S F)
  | [] => .ok t
  | dl :: rest => do
    let r ← t.call dl
    Trace.calls r.1 rest

/-! ### parse_step_size -/

/-- The kinds of Python values that `parse_step_size` distinguishes. -/
inductive StepVal where
  /-- a float (or `np.float64`) -/
  | float (v : ℚ)
  /-- an int, bool or other number that is not a float -/
  | nonFloat (v : ℤ)
  | str (s : List Char)
  /-- function or callable object without `__len__` -/
  | callable (id : ℕ)
  /-- tuple, list or 1-D array -/
  | seq (items : List StepVal)
  /-- 0-d array: has `__len__` but `len` raises TypeError -/
  | array0d
  /-- set: has a length but no indexing -/
  | set (size : ℕ)
  /-- `None` and other objects -/
  | other

/-- `parse_step_size`, utils.py:131-140. -/
def parseStepSize : StepVal → Except PyErr (StepVal × StepVal)
  | .seq [a, b] => .ok (a, b)                                   -- lines 132-133
  | .str [a, b] => .ok (.str [a], .str [b])                     -- a string has `__len__` too
  | .array0d => .error .typeError
  | .set 2 => .error .typeError                                 -- `step_size[0]`
  | .float v => .ok (.float v, .str "fixed".toList)             -- lines 134-135
  | .callable f => .ok (.nonFloat 1, .callable f)               -- lines 136-138
  | .str s => if s = "adaptive".toList then .ok (.nonFloat 1, .str s) else .error .valueError
  | _ => .error .valueError                                     -- lines 139-140

/-! ### build_func_grad -/

/-- What the user's `fun` returns: a number, or a pair (value, gradient). -/
inductive FunRet (E : Type) where
  | num (v : ℝ)
  | pair (v : ℝ) (g : E)

/-- The `jac` argument. -/
inductive JacArg (E : Type) where
  | callable (g : E → E)
  | bool (b : Bool)
  | str (s : String)
  | none

/-- `bool(jac)` for a non-callable `jac`. -/
def JacArg.truthy {E : Type} : JacArg E → Bool
  | .callable _ => true
  | .bool b => b
  | .str s => s ≠ ""
  | .none => false

/-- Cache of scipy's `MemoizeJac`: last point, value and gradient. -/
abbrev Memo (E : Type) := Option (E × ℝ × E)

/-- scipy's `MemoizeJac._compute_if_needed` (contract used by utils.py:38-39): recompute unless the cached point equals
`x`; a `fun` that returns a number cannot be subscripted (TypeError). -/
def memoCompute {E : Type} [DecidableEq E] (fun_ : E → FunRet E) (c : Memo E) (x : E) : Except PyErr (ℝ × E × Memo E) :=
  match c with
  | some (y, v, g) => if y = x then .ok (v, g, c) else memoEval fun_ x
  | none => memoEval fun_ x
where
  /-- evaluation of the user's function -/
  memoEval (fun_ : E → FunRet E) (x : E) : Except PyErr (ℝ × E × Memo E) :=
    match fun_ x with
    | .num _ => .error .typeError
    | .pair v g => .ok (v, g, some (x, v, g))

/-- Value part of `fun(x)` when the gradient comes from a separate callable; a pair is passed on as it is, which the
solvers cannot use as a number (TypeError in their arithmetic). -/
def FunRet.asNum {E : Type} : FunRet E → Except PyErr ℝ
  | .num v => .ok v
  | .pair _ _ => .error .typeError

/-- `build_func_grad(jac, fun, args, eps)`, utils.py:35-57, as a function of the memo cache and `x`; the third
component is the new cache.  `args` are part of `fun`. -/
def funcAndGrad {E : Type} [DecidableEq E] (jac : JacArg E) (fun_ : E → FunRet E) (c : Memo E) (x : E) :
    Except PyErr (ℝ × E × Memo E) :=
  match jac with
  | .callable g => do                                           -- lines 53-56
    let v ← (fun_ x).asNum
    return (v, g x, c)
  | jac =>
    if jac.truthy then do                                       -- lines 37-39, 53-56
      let r ← memoCompute fun_ c x
      let r' ← memoCompute fun_ r.2.2 x
      return (r.1, r'.2.1, r'.2.2)
    else .error .notImplementedError                            -- line 43 (line 41 is unreachable: "2-point" is truthy)

/-- A sequence of calls of the function returned by `build_func_grad`. -/
def funcAndGradCalls {E : Type} [DecidableEq E] (jac : JacArg E) (fun_ : E → FunRet E) :
    Memo E → List E → Except PyErr (List (ℝ × E))
  | _, [] => .ok []
  | c, x :: xs => do
    let r ← funcAndGrad jac fun_ c x
    let rest ← funcAndGradCalls jac fun_ r.2.2 xs
    return (r.1, r.2.1) :: rest

/-! ### safe_sparse_add -/

/-- A 1-D or 2-D numpy array or a scipy.sparse matrix; a 1-D array of length `n` has `rows = 1`, `cols = n`, `oneD`. -/
structure Arr (K : Type) where
  sparse : Bool
  oneD : Bool
  rows : ℕ
  cols : ℕ
  val : ℕ → ℕ → K

namespace Arr
variable {K : Type}

/-- `a.toarray()`. -/
def toarray (a : Arr K) : Arr K := { a with sparse := false }

/-- `a.ravel()` of a dense array (row-major). -/
def ravel (a : Arr K) : Arr K :=
  { sparse := false, oneD := true, rows := 1, cols := a.rows * a.cols, val := fun _ k => a.val (k / a.cols) (k % a.cols) }

/-- Broadcast of two axis lengths. -/
def bcast (m n : ℕ) : Option ℕ := if m = n then some m else if m = 1 then some n else if n = 1 then some m else none

/-- numpy's `a + b` for dense arrays of at most two dimensions, with broadcasting. -/
def addDense [Add K] (a b : Arr K) : Except PyErr (Arr K) :=
  match bcast a.rows b.rows, bcast a.cols b.cols with
  | some r, some c =>
    .ok { sparse := false, oneD := a.oneD && b.oneD, rows := r, cols := c,
          val := fun i j => a.val (if a.rows = 1 then 0 else i) (if a.cols = 1 then 0 else j) +
            b.val (if b.rows = 1 then 0 else i) (if b.cols = 1 then 0 else j) }
  | _, _ => .error .valueError

/-- scipy's `a + b` for two sparse matrices: shapes must agree. -/
def addSparse [Add K] (a b : Arr K) : Except PyErr (Arr K) :=
  if a.rows = b.rows ∧ a.cols = b.cols then
    .ok { sparse := true, oneD := false, rows := a.rows, cols := a.cols, val := fun i j => a.val i j + b.val i j }
  else .error .valueError

end Arr

/-- `safe_sparse_add(a, b)`, utils.py:60-75.  Line 70 (`b.ravel()`) discards its result. -/
def safeSparseAdd {K : Type} [Add K] (a b : Arr K) : Except PyErr (Arr K) :=
  if a.sparse && b.sparse then a.addSparse b
  else if a.sparse then a.toarray.addDense b
  else if b.sparse then
    let b := b.toarray
    let b := if !b.oneD && a.oneD then b.ravel else b
    a.addDense b
  else a.addDense b

/-! ### njit fallback -/

/-- A positional argument given to the decorator `njit`: the function to compile, or an option value. -/
inductive DecoArg (Fn : Type) where
  | func (f : Fn)
  | value (id : ℕ)

/-- What `njit(...)` returns: a function, or a decorator. -/
inductive DecoRet (Fn : Type) where
  | func (f : Fn)
  | decorator (d : Fn → Fn)

/-- Python functions: positional and keyword arguments to a result or an exception. -/
abbrev PyFn (A R : Type) := List A → List (String × A) → Except PyErr R

/-- The fallback `njit(*args, **kw)`, utils.py:12-30. -/
def njitFallback {A R : Type} (args : List (DecoArg (PyFn A R))) (kw : List (String × ℕ)) : DecoRet (PyFn A R) :=
  match args, kw with
  | [.func f], [] => .func fun a k => f a k
  | _, _ => .decorator fun f => fun a k => f a k

/-- `get_max_lipschitz(A, loss, alpha)`, utils.py:185-204. -/
noncomputable def getMaxLipschitz {n d : ℕ} (A : Fin n → Fin d → ℝ) (loss : String) (alpha : ℝ) : Except PyErr ℝ :=
  if loss = "logloss" then .ok (0.25 * LogLoss.maxRowSq A + alpha) else .error .notImplementedError

end Copt
