import Verif.Model.SfwRaise
import Verif.Props.LmoObjects
import Verif.Props.SfwObjects

/-! # C96 for `minimize_sfw`: whole runs with the oracles of constraint.py -/

set_option linter.unusedSectionVars false

namespace Copt

open Spec

section
variable {K : Type} [Field K] [LinearOrder K] {n p : ℕ} {V : Type} [DecidableEq V]

theorem sfwStepE_ok {lmo : SfwOracle K p V} {P : SfwArgs K n p V} (h : ∀ u x a, lmo u x a = .ok (P.lmo u x a)) (v : SfwVariant) (step : ℕ)
    (st : SfwState K n p V) (batch : List (Fin n)) : sfwStepE lmo P v step st batch = sfwStep P v step st batch := by
  have hd : ∀ g, sfwDualE lmo P v g st batch = sfwDual P v g st batch := by
    intro g
    unfold sfwDualE sfwDual
    cases v <;> cases g <;> simp [h, bind, Except.bind]
  unfold sfwStepE sfwStep
  simp only [hd, h]
  rfl

theorem minimizeSfwE_ok {lmo : SfwOracle K p V} {P : SfwArgs K n p V} (h : ∀ u x a, lmo u x a = .ok (P.lmo u x a)) :
    minimizeSfwE lmo P = minimizeSfw P := by
  have hi : ∀ v (l : List (List (Fin n))) r, sfwInnerE lmo P v l r = sfwInner P v l r := by
    intro v l
    induction l with
    | nil => intro r; rfl
    | cons b l ih =>
      intro r
      unfold sfwInnerE sfwInner
      simp only [ih, sfwStepE_ok h]
      rfl
  have hl : ∀ v rem it r, sfwLoopE lmo P v rem it r = sfwLoop P v rem it r := by
    intro v rem
    induction rem with
    | zero => intro it r; rfl
    | succ rem ih => intro it r; unfold sfwLoopE sfwLoop; simp only [hi, ih]
  unfold minimizeSfwE minimizeSfw
  simp only [hl]
  rfl

/-- **C96 (partial, stochastic).** An oracle that returns on every call gives exactly the runs of `minimizeSfw`, to which C64-C68, C81 and C106 apply. -/
theorem C96_sfw_partial (lmo : SfwOracle K p V) (P : SfwArgs K n p V) (h : ∀ u x a, lmo u x a = .ok (P.lmo u x a)) :
    minimizeSfwE lmo P = minimizeSfw P := minimizeSfwE_ok h

end

variable {n p : ℕ}

theorem l1_sfwArg (hp : 0 < p) {alpha : ℝ} (ha : 0 ≤ alpha) (u x : Fin p → ℝ) (a : Option (ActiveSet (VRep p) ℝ)) :
    (LmoMethod.l1 alpha).sfwArg u x a = .ok (l1Oracle alpha u x a) := by
  obtain ⟨o, rep, h1, -⟩ := C05_l1_lmo_correct hp alpha ha u x
  have e : l1Oracle alpha u x a = o := by unfold l1Oracle; rw [h1]
  rw [e]
  simp [LmoMethod.sfwArg, LmoMethod.method, PyMethod.call, l1VanillaLmo, h1, Except.map]

/-- **C96 (partial, stochastic, l1 ball).** `minimize_sfw(f.partial_deriv, A, b, x0, L1Ball(alpha).lmo, ...)` never fails at the oracle: the run is the one of
`C106_library`, hence, for every variant and every draw of the batches, returns a point of the ball. -/
theorem C96_sfw_l1_partial (f : VRLoss) {A : Fin n → Fin p → ℝ} {b : Fin n → ℝ} {alpha : ℝ} {x0 : Fin p → ℝ} {rep : L1Rep ℝ p} {variant : String} {s E : ℕ}
    {tol : ℝ} (hn : 0 < n) (hp : 0 < p) (ha : 0 ≤ alpha) (hx0 : x0 ∈ l1Ball alpha) (hs : 0 < s) (hsn : s ≤ n) (hE : 0 < E)
    (hv : variant ∈ ["SAG", "SAGA", "MHK", "LF"]) (order : ℕ → List (Fin n)) :
    ∃ r x, minimizeSfwE (LmoMethod.l1 alpha).sfwArg (sfwL1 f A b alpha x0 rep variant s E tol order) = .ok r ∧ r.x = some x ∧ x ∈ l1Ball alpha := by
  rw [minimizeSfwE_ok (P := sfwL1 f A b alpha x0 rep variant s E tol order) fun u x a => l1_sfwArg hp ha u x a]
  have hl : IsVanillaLmo (l1Ball (n := p) alpha) (sfwL1 f A b alpha x0 rep variant s E tol order).lmo := by
    intro u x
    obtain ⟨-, -, z, hz, hd, -⟩ := l1Oracle_spec hp ha u x
    exact ⟨z, hz, hd⟩
  obtain ⟨r, hr⟩ := C65_returns (sfwL1 f A b alpha x0 rep variant s E tol order) (l1Ball alpha) (fun x hx y hy t h0 h1 => l1Ball_convex alpha x hx y hy t h0 h1)
    hl rfl hs hsn rfl hx0 hv hE
  obtain ⟨x, h1, h2⟩ := C65_feasible _ (l1Ball alpha) (fun x hx y hy t h0 h1 => l1Ball_convex alpha x hx y hy t h0 h1) hl rfl hsn rfl hx0 r hr
  exact ⟨r, x, hr, h1, h2⟩

/-- **C96 (refuted, stochastic).** `minimize_sfw` with `SimplexConstraint(s).lmo`: every run that gets as far as calling the oracle raises TypeError -- any data, any
variant, any admissible step size rule and batch size, as soon as the first epoch has a batch. -/
theorem C96_sfw_simplex_refuted (s : ℝ) (P : SfwArgs ℝ n p (VRep p)) (hv : P.variant ∈ ["SAG", "SAGA", "MHK", "LF"])
    (hlv : P.lmoVariant = "vanilla" ∨ P.lmoVariant = "pairwise")
    (hstep : P.stepSize = .sublinear ∨ P.stepSize = .DR ∧ P.lipschitz ≠ none ∧ P.variant ≠ "MHK") (hb : 0 < P.batchSize) (hE : 0 < P.maxIter)
    (hne : sfwBatches n P.batchSize (P.order 0) ≠ []) : minimizeSfwE (LmoMethod.simplex s).sfwArg P = .error .typeError := by
  have hl : ∀ u x a, (LmoMethod.simplex s).sfwArg (p := p) u x a = .error .typeError := by
    intro u x a
    simp [LmoMethod.sfwArg, LmoMethod.method, PyMethod.call, Except.map]
  obtain ⟨v, hpv, hmhk⟩ : ∃ v, parseVariant P.variant = some v ∧ (v = .MHK → P.variant = "MHK") := by
    simp only [List.mem_cons, List.not_mem_nil, or_false] at hv
    rcases hv with h | h | h | h <;> rw [h] <;> simp [parseVariant]
  have hso : P.stepSize ≠ .other := by rcases hstep with h | ⟨h, -⟩ <;> rw [h] <;> decide
  have hs1 : ∀ st batch, sfwStepE (LmoMethod.simplex s).sfwArg P v 0 st batch = .error .typeError := by
    intro st batch
    unfold sfwStepE
    rw [if_neg hso]
    cases v with
    | SAG => simp [sfwDualE, hl, bind, Except.bind]
    | SAGA => simp [sfwDualE, hl, bind, Except.bind]
    | LF => simp [sfwDualE, hl, bind, Except.bind]
    | MHK =>
      have hsub : P.stepSize = .sublinear := by
        rcases hstep with h | ⟨-, -, h⟩
        · exact h
        · exact absurd (hmhk rfl) h
      simp [hsub, sfwDualE, stepSizeSfw, hl, bind, Except.bind]
  obtain ⟨k, hk⟩ : ∃ k, P.maxIter = k + 1 := ⟨P.maxIter - 1, by omega⟩
  obtain ⟨b, l, hbl⟩ := List.exists_cons_of_ne_nil hne
  unfold minimizeSfwE
  rw [hpv]
  simp only
  have hdr : ¬(P.stepSize = .DR ∧ P.lipschitz = none) := by
    rintro ⟨h1, h2⟩
    rcases hstep with h | ⟨-, h, -⟩
    · rw [h] at h1; cases h1
    · exact h h2
  rw [if_neg (not_not.mpr hlv), if_neg hdr, hk]
  simp only
  rw [if_neg hb.ne']
  unfold sfwLoopE
  rw [hbl]
  unfold sfwInnerE
  simp only [hs1, bind, Except.bind]

/-- The hypotheses of `C96_sfw_simplex_refuted` and `C96_sfw_l1_partial` are met: two samples, two features, batches of one sample. -/
example : minimizeSfwE (LmoMethod.simplex 1).sfwArg (sfwL1 .square (fun i c => if i = c then 1 else 0) ![1 / 2, 0] 1 ![0, 1] (1, 0) "SAGA" 1 3 0
      fun _ => [1, 0]) = .error .typeError ∧
    ∃ r x, minimizeSfwE (LmoMethod.l1 1).sfwArg (sfwL1 .square (fun i c => if i = c then 1 else 0) ![1 / 2, 0] 1 ![0, 1] (1, 0) "SAGA" 1 3 0
      fun _ => [1, 0]) = .ok r ∧ r.x = some x ∧ x ∈ l1Ball (n := 2) 1 := by
  refine ⟨C96_sfw_simplex_refuted _ _ (by simp [sfwL1]) (Or.inl rfl) (Or.inl rfl) (by norm_num [sfwL1]) (by norm_num [sfwL1]) ?_,
    C96_sfw_l1_partial .square (by norm_num) (by norm_num) (by norm_num) ?_ (by norm_num) (by norm_num) (by norm_num) (by simp) _⟩
  · simp [sfwL1, sfwBatches]
  · simp [l1Ball, norm1, Fin.sum_univ_two]

end Copt
