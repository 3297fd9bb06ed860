import Verif.Model.FloatConstrained

/-!
# Model of the primal-dual method with rounded arithmetic

`minimize_primal_dual` with `line_search=False` and no callback; every operation on numbers is followed by the rounding `rd`.
-/

namespace Copt

open Spec

variable {d p : ℕ}

/-- Arguments of `minimize_primal_dual`.  The number passed first to the functions counts the calls: results need not be reproducible.  `matvec` and `rmatvec` are the products with `L` and its
transpose, `normX` and `normY` the two uses of `linalg.norm`. -/
structure FlPDArgs (d p : ℕ) where
  grad : ℕ → (Fin d → ℝ) → Fin d → ℝ
  prox1 : ℕ → (Fin d → ℝ) → ℝ → Except PyErr (Fin d → ℝ)
  prox2 : ℕ → (Fin p → ℝ) → ℝ → Except PyErr (Fin p → ℝ)
  matvec : ℕ → (Fin d → ℝ) → Fin p → ℝ
  rmatvec : ℕ → (Fin p → ℝ) → Fin d → ℝ
  normX : ℕ → (Fin d → ℝ) → ℝ
  normY : ℕ → (Fin p → ℝ) → ℝ
  stepSize : ℝ
  stepSize2 : Option ℝ
  x0 : Fin d → ℝ
  tol : ℝ
  maxIter : ℕ

/-- `OptimizeResult`, splitting.py:341-343, without the step size; `none` for an infinite certificate. -/
structure FlPDResult (d : ℕ) where
  x : Fin d → ℝ
  success : Bool
  nit : ℕ
  certificate : Option ℝ

/-- `tau`, splitting.py:283-288. -/
noncomputable def flPdTau (rd : ℝ → ℝ) (P : FlPDArgs d p) : ℝ :=
  match P.stepSize2 with
  | none => rd (1 / 2 * P.stepSize)
  | some t => t

/-- `y + tau * L.matvec(x)`, splitting.py:295; `mx` is the product. -/
def flPdPoint (rd : ℝ → ℝ) (tau : ℝ) (y mx : Fin p → ℝ) : Fin p → ℝ := fun i => rd (y i + rd (tau * mx i))

/-- `x / ss`, splitting.py:277. -/
noncomputable def flPdScaled (rd : ℝ → ℝ) (tau : ℝ) (v : Fin p → ℝ) : Fin p → ℝ := fun i => rd (v i / tau)

/-- `x - ss * prox_2(...)`, splitting.py:277; `q` is the value of `prox_2`. -/
def flPdConj (rd : ℝ → ℝ) (tau : ℝ) (v q : Fin p → ℝ) : Fin p → ℝ := fun i => rd (v i - rd (tau * q i))

/-- `2 * y_next - y`, splitting.py:316. -/
def flPdBar (rd : ℝ → ℝ) (yNext y : Fin p → ℝ) : Fin p → ℝ := fun i => rd (rd (2 * yNext i) - y i)

/-- `x - sigma * (L.rmatvec(y_bar) + grad_fk)`, splitting.py:317; `my` is the product. -/
def flPdArg (rd : ℝ → ℝ) (sigma : ℝ) (x my grad : Fin d → ℝ) : Fin d → ℝ := fun j => rd (x j - rd (sigma * rd (my j + grad j)))

/-- `norm_incr` after iteration `it`, splitting.py:320-321: computed every 100 iterations. -/
noncomputable def flPdIncr (rd : ℝ → ℝ) (P : FlPDArgs d p) (it : ℕ) (xNext x : Fin d → ℝ) (yNext y : Fin p → ℝ) (cert : Option ℝ) : Option ℝ :=
  if it % 100 = 0 then some (rd (P.normX it (fun j => rd (xNext j - x j)) + P.normY it (fun i => rd (yNext i - y i)))) else cert

open Classical in
/-- The loop, splitting.py:294-329; `m` is `max_iter - 1 - it`, `g` the gradient at `x` and `cert` the value of `norm_incr` (`none` for `np.inf`).  An exception of a proximal operator is not caught. -/
noncomputable def flPdLoop (rd : ℝ → ℝ) (P : FlPDArgs d p) (tau : ℝ) :
    ℕ → ℕ → (Fin d → ℝ) → (Fin p → ℝ) → (Fin d → ℝ) → Option ℝ → Except PyErr (FlPDResult d)
  | m, it, x, y, g, cert => do
    let v := flPdPoint rd tau y (P.matvec (it + 1) x)
    let q ← P.prox2 it (flPdScaled rd tau v) (rd (1 / tau))                                                                -- line 277
    let yNext := flPdConj rd tau v q                                                                                      -- line 295
    let xNext ← P.prox1 it (flPdArg rd P.stepSize x (P.rmatvec it (flPdBar rd yNext y)) g) P.stepSize                      -- lines 316-317
    let cert := flPdIncr rd P it xNext x yNext y cert                                                                       -- lines 320-321
    if ∃ c, cert = some c ∧ c < P.tol then return ⟨xNext, true, it, cert⟩                                                  -- lines 323, 327-329
    else match m with
      | 0 => return ⟨xNext, false, it, cert⟩
      | m + 1 => flPdLoop rd P tau m (it + 1) xNext yNext (P.grad (it + 1) xNext) cert                                     -- lines 318, 323-325

/-- `minimize_primal_dual`, splitting.py:174-343 (`line_search=False`, no callback, `max_iter_ls > 0`).  With `max_iter=0` line 335 reads the unassigned `it`. -/
noncomputable def flMinimizePD (rd : ℝ → ℝ) (P : FlPDArgs d p) : Except PyErr (FlPDResult d) :=
  match P.maxIter with
  | 0 => .error .unboundLocalError
  | m + 1 => flPdLoop rd P (flPdTau rd P) m 0 P.x0 (P.matvec 0 P.x0) (P.grad 0 P.x0) none                                   -- lines 252, 259, 290

/-- A result of the product of a row `a` of a matrix with a vector `y`: some order of the terms, of which those with a zero entry of the row may be left out (a sparse matrix).  `L.matvec` and
`L.rmatvec` of a matrix wrapped by `sparse.linalg.aslinearoperator`, splitting.py:255-257, compute such rows. -/
def FlRow (rd : ℝ → ℝ) {m : ℕ} (a y : Fin m → ℝ) (s : ℝ) : Prop :=
  ∃ l : List (Fin m), l.Nodup ∧ (∀ j, j ∉ l → a j = 0) ∧ ((l = [] ∧ s = 0) ∨ FlDot rd (l.map fun j => (a j, y j)) s)

end Copt
