import Verif.Model.FrankWolfe

/-! # Stochastic Frank-Wolfe (`minimize_sfw`)

Simplifications: the data matrix is given by its entries, and `fast_csr_mv`, `fast_csr_vm` are replaced by the products they are proved to compute on
CSR data (Props/Utils); the `callback` is left out; `x ** (2/3)` is the argument `cbrtSq`; the oracle is a function that does not raise. -/

namespace Copt

/-- `SFW_VARIANTS`, randomized.py:730. -/
inductive SfwVariant where
  | SAG | SAGA | MHK | LF
  deriving DecidableEq

/-- The `variant` argument. -/
def parseVariant (s : String) : Option SfwVariant :=
  if s = "SAG" then some .SAG else if s = "SAGA" then some .SAGA else if s = "MHK" then some .MHK else if s = "LF" then some .LF else none

/-- The `step_size` argument: `'sublinear'`, `'DR'`, or anything else (a callable, another string). -/
inductive SfwStepArg where
  | sublinear | DR | other
  deriving DecidableEq

section
variable {K : Type} [Field K] [LinearOrder K]

/-- `step_size_sfw`, randomized.py:698-719: `step_size_x` and `step_size_agg`. -/
def stepSizeSfw (cbrtSq : K → K) (v : SfwVariant) (t nSamples batchSize : ℕ) : K × Option K :=
  match v with
  | .SAG | .SAGA => (2 / ((t : K) + 2), none)
  | .MHK => (2 / ((t : K) + 8), some (cbrtSq (2 / ((t : K) + 8))))
  | .LF =>
    let m : K := (nSamples : K) / (batchSize : K)
    (2 * (2 * m + t) / (((t : K) + 1) * (4 * m + t)), some (2 * m / (2 * m + t + 1)))

/-- `step_size_DR`, randomized.py:722-726; `none` is `nan`: for a zero direction the quotient is
`0 / 0`, and `min(nan, x)` is `nan`.  (`lipschitz = 0` is outside the model.) -/
def stepSizeDR {p : ℕ} (certificate lipschitz maxStep : K) (dir : Fin p → K) : Option K :=
  if (∑ c, dir c ^ 2) * lipschitz = 0 then none else some (min (certificate / ((∑ c, dir c ^ 2) * lipschitz)) maxStep)

/-- Arguments of `minimize_sfw`. `order it` are the sampled indices of epoch `it`, randomized.py:874-878. -/
structure SfwArgs (K : Type) (n p : ℕ) (V : Type) where
  deriv : K → K → K
  a : Fin n → Fin p → K
  b : Fin n → K
  x0 : Fin p → K
  lmo : (Fin p → K) → (Fin p → K) → Option (ActiveSet V K) → LmoOut (Fin p → K) V K
  x0Rep : V
  batchSize : ℕ
  stepSize : SfwStepArg
  lipschitz : Option K
  maxIter : ℕ
  tol : K
  variant : String
  lmoVariant : String
  order : ℕ → List (Fin n)
  cbrtSq : K → K

/-- Local variables of the loop; `sigma` is the array `agg` of the LF variant. -/
structure SfwState (K : Type) (n p : ℕ) (V : Type) where
  x : Fin p → K
  dual : Fin n → K
  gradAgg : Fin p → K
  sigma : Fin n → K
  active : Option (ActiveSet V K)

variable {n p : ℕ} {V : Type}

/-- Prediction of sample `i`. -/
def sfwDot (P : SfwArgs K n p V) (x : Fin p → K) (i : Fin n) : K := ∑ c, P.a i c * x c

/-- `dual_var[batch_idx] = ...`: repeated indices are assigned the same value. -/
def assignAt (f : Fin n → K) (batch : List (Fin n)) (val : Fin n → K) : Fin n → K := fun i => if i ∈ batch then val i else f i

/-- `fast_csr_vm(dual_var[batch_idx] - dual_var_prev, ...)`, randomized.py:906-907. -/
def sfwDelta (P : SfwArgs K n p V) (batch : List (Fin n)) (dual dual' : Fin n → K) : Fin p → K := fun c =>
  (batch.map fun i => (dual' i - dual i) * P.a i c).sum

/-- The dual variables after a batch, randomized.py:887-903, and the array `agg`; an undefined `step_size_agg` raises UnboundLocalError. -/
def sfwDual (P : SfwArgs K n p V) (v : SfwVariant) (stepAgg : Option K) (st : SfwState K n p V) (batch : List (Fin n)) :
    Except PyErr ((Fin n → K) × (Fin n → K)) :=
  match v, stepAgg with
  | .SAG, _ | .SAGA, _ => .ok (assignAt st.dual batch fun i => 1 / (n : K) * P.deriv (sfwDot P st.x i) (P.b i), st.sigma)
  | .MHK, some g => .ok (assignAt st.dual batch fun i => st.dual i + g * (P.deriv (sfwDot P st.x i) (P.b i) - st.dual i), st.sigma)
  | .LF, some g =>
    let o := P.lmo (fun c => -st.gradAgg c) st.x st.active
    let extr : Fin p → K := fun c => o.dir c + st.x c
    let sigma := assignAt st.sigma batch fun i => st.sigma i + g * (sfwDot P extr i - st.sigma i)
    .ok (assignAt st.dual batch fun i => 1 / (n : K) * P.deriv (sigma i) (P.b i), sigma)
  | _, none => .error .unboundLocalError

/-- The estimate given to the oracle, randomized.py:898 (before the update) and 910-917. -/
def sfwEstimate (P : SfwArgs K n p V) (v : SfwVariant) (st : SfwState K n p V) (batch : List (Fin n)) (dual' : Fin n → K) : Fin p → K :=
  match v with
  | .LF => st.gradAgg
  | .SAG | .MHK => fun c => st.gradAgg c + sfwDelta P batch st.dual dual' c
  | .SAGA => fun c => st.gradAgg c + sfwDelta P batch st.dual dual' c + ((n : K) - 1) * sfwDelta P batch st.dual dual' c

/-- One batch, randomized.py:884-927: the new state, or `none` if `x` becomes `nan`. `step` is the number of completed batches. -/
def sfwStep [DecidableEq V] (P : SfwArgs K n p V) (v : SfwVariant) (step : ℕ) (st : SfwState K n p V) (batch : List (Fin n)) :
    Except PyErr (Option (SfwState K n p V)) := do
  if P.stepSize = .other then .error .unboundLocalError                -- line 886: `step_size_fun` was never assigned
  else
    let s : Option (K × Option K) := if P.stepSize = .DR then none else some (stepSizeSfw P.cbrtSq v step n P.batchSize)
    let d ← sfwDual P v (s.bind Prod.snd) st batch
    let gradAgg : Fin p → K := fun c => st.gradAgg c + sfwDelta P batch st.dual d.1 c
    let o := P.lmo (fun c => -sfwEstimate P v st batch d.1 c) st.x st.active
    let gamma : Option K := match s with
      | some s => some s.1
      | none => stepSizeDR (∑ c, -gradAgg c * o.dir c) (P.lipschitz.getD 0) o.maxStep o.dir
    match gamma with
    | none => return none
    | some g => do
      let active ← fwUpdateActive st.active o g
      return some { x := fun c => st.x c + g * o.dir c, dual := d.1, gradAgg := gradAgg, sigma := d.2, active := active }

/-- The batches of an epoch, randomized.py:880-882 and 935. -/
def sfwBatches (nSamples batchSize : ℕ) (idx : List (Fin n)) : List (List (Fin n)) :=
  (List.range ((idx.length + batchSize - 1) / batchSize)).map fun k => (idx.take (min (k * batchSize + batchSize) nSamples)).drop (k * batchSize)

/-- The indices `idx` of epoch `it`, randomized.py:874-878: `n_samples // batch_size` batches, each drawn uniformly without replacement
(`utils.sample_batches`, utils.py:79-83; for `batch_size = 1`, `np.random.randint` draws `n_samples` indices uniformly, which is the same).  `ws`
are all the draws of the `epochs` epochs, in order. -/
def sfwOrder {n b : ℕ} (epochs : ℕ) (ws : Fin (epochs * (n / b)) → (Fin b ↪ Fin n)) (it : ℕ) : List (Fin n) :=
  if h : it < epochs then
    (List.ofFn fun k : Fin (n / b) => List.ofFn (ws ⟨it * (n / b) + k, by
      calc it * (n / b) + k < (it + 1) * (n / b) := by rw [Nat.add_mul, Nat.one_mul]; exact Nat.add_lt_add_left k.isLt _
        _ ≤ epochs * (n / b) := Nat.mul_le_mul_right _ h⟩)).flatten
  else []

/-- What the loop carries: the state, or `none` once `x` is `nan` (it stays `nan`), the counter `step` and `success`. -/
structure SfwRun (K : Type) (n p : ℕ) (V : Type) where
  st : Option (SfwState K n p V)
  step : ℕ
  success : Bool

/-- The inner loop over batches, randomized.py:881-936.  The `break` leaves this loop only, before the counters are increased. -/
def sfwInner [DecidableEq V] (P : SfwArgs K n p V) (v : SfwVariant) : List (List (Fin n)) → SfwRun K n p V → Except PyErr (SfwRun K n p V)
  | [], r => .ok r
  | batch :: rest, r =>
    match r.st with
    | none => sfwInner P v rest { r with step := r.step + 1 }
    | some st => do
      match ← sfwStep P v r.step st batch with
      | none => sfwInner P v rest { r with st := none, step := r.step + 1 }
      | some st' =>
        if ∑ c, |st'.x c - st.x c| < P.tol then .ok { st := some st', step := r.step, success := true }
        else sfwInner P v rest { st := some st', step := r.step + 1, success := r.success }

/-- The epochs `it, it+1, ...` (`rem` of them), randomized.py:872-936. -/
def sfwLoop [DecidableEq V] (P : SfwArgs K n p V) (v : SfwVariant) : ℕ → ℕ → SfwRun K n p V → Except PyErr (SfwRun K n p V)
  | 0, _, r => .ok r
  | rem + 1, it, r => do
    let r ← sfwInner P v (sfwBatches n P.batchSize (P.order it)) r
    sfwLoop P v rem (it + 1) r

/-- Result of `minimize_sfw`: `x = none` stands for a vector of `nan`. -/
structure SfwResult (K : Type) (n p : ℕ) (V : Type) where
  x : Option (Fin p → K)
  success : Bool
  nit : ℕ
  final : SfwRun K n p V

/-- The state before the loop, randomized.py:831-869. -/
def sfwInit (P : SfwArgs K n p V) : SfwState K n p V :=
  { x := P.x0, dual := fun _ => 0, gradAgg := fun _ => 0, sigma := sfwDot P P.x0,
    active := if P.lmoVariant = "pairwise" then some [(P.x0Rep, 1)] else none }

/-- `minimize_sfw`, randomized.py:824-939.  (`batch_size = 0` raises ZeroDivisionError in line 878.) -/
def minimizeSfw [DecidableEq V] (P : SfwArgs K n p V) : Except PyErr (SfwResult K n p V) :=
  match parseVariant P.variant with
  | none => .error .valueError
  | some v =>
    if ¬(P.lmoVariant = "vanilla" ∨ P.lmoVariant = "pairwise") then .error .valueError
    else if P.stepSize = .DR ∧ P.lipschitz = none then .error .valueError
    else match P.maxIter with
      | 0 => .error .unboundLocalError
      | k + 1 =>
        if P.batchSize = 0 then .error .zeroDivisionError
        else do
          let r ← sfwLoop P v (k + 1) 0 { st := some (sfwInit P), step := 0, success := false }
          return { x := r.st.map SfwState.x, success := r.success, nit := k, final := r }

end

end Copt
