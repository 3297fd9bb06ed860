import Mathlib.Tactic.FinCases
import Verif.Proof.Utils
import Verif.Props.Loss

/-! # Properties of copt/utils.py (C24, C28-C34, C71) -/

set_option linter.unusedSectionVars false

namespace Copt

open Spec

open scoped InnerProductSpace

/-! ### C28 init_lipschitz -/

section Lip
variable {E : Type} [NormedAddCommGroup E] [InnerProductSpace ℝ E]

/-- **C28.** For every objective and every starting point the result is `1e-3 * 10^k` with `k ≤ 100`, found with `k + 1`
(so at most 101) evaluations after the one at `x0`; unless `k = 100`, a gradient step of size `1 / L0` does not increase
the objective, and it does for every smaller candidate. -/
theorem C28_init_lipschitz (f : E → ℝ) (g : E → E) (x0 : E) :
    ∃ k ≤ 100, initLipschitz (fun x => (f x, g x)) x0 = (1e-3 * 10 ^ k, k + 1) ∧
      (k < 100 → f (x0 - (1 / (1e-3 * 10 ^ k) : ℝ) • g x0) ≤ f x0) ∧
      ∀ j < k, f x0 < f (x0 - (1 / (1e-3 * 10 ^ j) : ℝ) • g x0) := by
  obtain ⟨k, hk, he, h1, h2⟩ := initLipLoop_spec f x0 (g x0) (f x0) 100 1e-3 _ 1 rfl
  refine ⟨k, hk, ?_, h1, h2⟩
  rw [add_comm k 1]
  exact he

/-- **C28 (smooth objectives).** If the objective satisfies the quadratic upper bound with constant `L`, the result is
at most `max(1e-3, 5 L)` (no bound on `L` is needed). -/
theorem C28_smooth (f : E → ℝ) (g : E → E) (x0 : E) {L : ℝ} (hL : UpperQuad f g L) :
    (initLipschitz (fun x => (f x, g x)) x0).1 ≤ max 1e-3 (5 * L) := by
  obtain ⟨k, -, he, -, h2⟩ := C28_init_lipschitz f g x0
  rw [he]
  cases k with
  | zero => simp
  | succ k =>
    refine le_max_of_le_right ?_
    have hj := h2 k (by omega)
    set M : ℝ := 1e-3 * 10 ^ k with hM
    have hMp : 0 < M := by rw [hM]; positivity
    have hu := hL x0 (x0 - (1 / M) • g x0)
    have e1 : x0 - (1 / M) • g x0 - x0 = -((1 / M) • g x0) := by abel
    rw [e1, inner_neg_right, inner_smul_right, norm_neg, norm_smul, Real.norm_of_nonneg (by positivity : (0:ℝ) ≤ 1 / M),
      real_inner_self_eq_norm_sq] at hu
    have h3 : 0 < -(1 / M * ‖g x0‖ ^ 2) + L / 2 * (1 / M * ‖g x0‖) ^ 2 := by linarith
    have h4 : -(1 / M * ‖g x0‖ ^ 2) + L / 2 * (1 / M * ‖g x0‖) ^ 2 = (‖g x0‖ / M) ^ 2 * (L / 2 - M) := by
      field_simp; ring
    rw [h4] at h3
    have h5 : 0 < L / 2 - M := by
      by_contra hc
      push Not at hc
      have := mul_nonpos_of_nonneg_of_nonpos (sq_nonneg (‖g x0‖ / M)) hc
      linarith
    have : (1e-3 : ℝ) * 10 ^ (k + 1) = 10 * M := by rw [hM]; ring
    show (1e-3 : ℝ) * 10 ^ (k + 1) ≤ 5 * L
    rw [this]; linarith

/-- The upper bound hypothesis holds e.g. for `x^2/2` on the real line, with a positive distance to `1e-3`. -/
example : UpperQuad (fun x : ℝ => x ^ 2 / 2) (fun x => x) 1 := by
  intro x y
  simp only [Real.norm_eq_abs, sq_abs]
  have : ⟪x, y - x⟫_ℝ = (y - x) * x := rfl
  rw [this]; nlinarith

/-- A non-trivial run: for `50 x^2` from `1` the loop multiplies five times (`L0 = 100`). -/
example : (initLipschitz (fun x : ℝ => (50 * x ^ 2, 100 * x)) 1).1 = 100 := by
  simp only [initLipschitz]
  norm_num [initLipLoop]

end Lip

/-! ### C29 CSR products -/

section Csr
variable {K : Type} [Field K] {m nnz d p q : ℕ}

/-- **C29 (mv).** For well-formed CSR arrays (duplicates and unsorted indices allowed) and every list of valid rows
(repetitions allowed), `fast_csr_mv` makes no out-of-range access and returns `M[idx] @ x`. -/
theorem C29_mv {indptr : Fin (m + 1) → ℕ} {indices : Fin nnz → ℕ} (hG : GoodCsr d indptr indices) (x : Fin d → K)
    (data : Fin nnz → K) (idx : Fin q → ℕ) (hidx : ∀ k, idx k < m) :
    ∃ r, fastCsrMv data indptr indices x idx = some r ∧
      ∀ i, r i = ∑ c : Fin d, csrEntry data indptr indices ⟨idx i, hidx i⟩ c.val * x c := by
  obtain ⟨r, he, hs⟩ := mv_outer hG x data idx hidx (List.finRange q) (List.nodup_finRange q) (fun _ => 0) (fun _ _ => rfl)
  refine ⟨r, he, fun i => ?_⟩
  rw [hs, if_pos (List.mem_finRange i)]

/-- **C29 (vm).** `fast_csr_vm` makes no out-of-range access and returns `x @ M[idx]`. -/
theorem C29_vm {indptr : Fin (m + 1) → ℕ} {indices : Fin nnz → ℕ} (hG : GoodCsr d indptr indices) (x : Fin q → K)
    (data : Fin nnz → K) (idx : Fin q → ℕ) (hidx : ∀ k, idx k < m) :
    ∃ r, fastCsrVm x data indptr indices d idx = .ok r ∧
      ∀ c : Fin d, r c = ∑ k : Fin q, x k * csrEntry data indptr indices ⟨idx k, hidx k⟩ c.val := by
  obtain ⟨r, he, hs⟩ := vm_outer hG x data idx hidx (List.finRange q) (fun _ => 0)
  refine ⟨r, ?_, fun c => ?_⟩
  · rw [fastCsrVm, if_pos rfl, he]
  · rw [hs, zero_add, List.sum_ofFn.symm.trans ?_]
    rw [List.ofFn_eq_map]

/-- **C29 (vm, assertion).** Lengths that differ fail the assertion, before any access. -/
theorem C29_vm_assert (indptr : Fin (m + 1) → ℕ) (indices : Fin nnz → ℕ) (x : Fin p → K) (data : Fin nnz → K)
    (idx : Fin q → ℕ) (h : p ≠ q) : fastCsrVm x data indptr indices d idx = .error .assertionError := by
  rw [fastCsrVm, if_neg h]

/-- A 2 x 3 matrix with a duplicate entry and unsorted columns. -/
example : GoodCsr 3 (![0, 3, 4] : Fin 3 → ℕ) (![2, 0, 2, 1] : Fin 4 → ℕ) where
  mono := by decide
  le_nnz := by decide
  col_lt := by decide

example : fastCsrMv (![1, 2, 3, 4] : Fin 4 → ℚ) ![0, 3, 4] ![2, 0, 2, 1] (![1, 10, 100] : Fin 3 → ℚ) ![1, 0, 0]
    = some ![40, 402, 402] := by decide +kernel

end Csr

/-! ### C30 sample_batches -/

/-- **C30.** Whatever the order in which the element writes of the parallel iterations happen, and whatever the draws,
`sample_batches` returns the concatenation of the draws; every entry of the result is written exactly once, and if each
draw satisfies the contract of `np.random.choice(replace=False)`, every slice consists of distinct samples. -/
theorem C30_sample_batches {nS N b : ℕ} (hb : b ≤ nS) (draw : ℕ → ℕ → ℕ)
    (hlt : ∀ k < N, ∀ t < b, draw k t < nS) (hinj : ∀ k < N, ∀ t < b, ∀ t' < b, draw k t = draw k t' → t = t')
    {sched : List (ℕ × ℕ)} (hperm : sched.Perm (allWrites N b)) :
    ∃ r, sampleBatches nS N b draw sched = .ok r ∧
      (∀ (k t : ℕ) (hk : k < N) (ht : t < b), r ⟨k * b + t, cell_lt hk ht⟩ = draw k t) ∧
      (∀ c, r c < nS) ∧
      (∀ (k t t' : ℕ) (hk : k < N) (ht : t < b) (ht' : t' < b), t ≠ t' →
        r ⟨k * b + t, cell_lt hk ht⟩ ≠ r ⟨k * b + t', cell_lt hk ht'⟩) ∧
      ∀ c < N * b, (sched.map fun p => p.1 * b + p.2).count c = 1 := by
  have hmem : ∀ k t, (k, t) ∈ sched ↔ k < N ∧ t < b := fun k t => by rw [hperm.mem_iff, mem_allWrites]
  obtain ⟨r, he, hs⟩ := writes_spec (N := N) (b := b) draw sched (fun p hp => (hmem p.1 p.2).mp hp) (fun _ => 0)
  have hval : ∀ (k t : ℕ) (hk : k < N) (ht : t < b), r ⟨k * b + t, cell_lt hk ht⟩ = draw k t := fun k t hk ht => by
    rw [hs k t hk ht, if_pos ((hmem k t).mpr ⟨hk, ht⟩)]
  have hcell : ∀ c < N * b, 0 < b ∧ c / b < N ∧ c % b < b ∧ c / b * b + c % b = c := fun c hc => by
    have hb0 : 0 < b := by
      rcases Nat.eq_zero_or_pos b with h | h
      · rw [h, Nat.mul_zero] at hc; omega
      · exact h
    exact ⟨hb0, Nat.div_lt_of_lt_mul (by rwa [Nat.mul_comm]), Nat.mod_lt _ hb0, Nat.div_add_mod' c b⟩
  refine ⟨r, ?_, hval, fun c => ?_, fun k t t' hk ht ht' hne h => ?_, fun c hc => ?_⟩
  · rw [sampleBatches, if_neg (by omega), he]
  · obtain ⟨_, h1, h2, h3⟩ := hcell c.val c.isLt
    have : c = ⟨c.val / b * b + c.val % b, cell_lt h1 h2⟩ := Fin.ext h3.symm
    rw [this, hval _ _ h1 h2]; exact hlt _ h1 _ h2
  · rw [hval _ _ hk ht, hval _ _ hk ht'] at h
    exact hne (hinj k hk t ht t' ht' h)
  · obtain ⟨_, h1, h2, h3⟩ := hcell c hc
    refine List.count_eq_one_of_mem ?_ (List.mem_map.mpr ⟨(c / b, c % b), (hmem _ _).mpr ⟨h1, h2⟩, h3⟩)
    refine List.Nodup.map_on ?_ ((hperm.nodup_iff).mpr (nodup_allWrites N b))
    rintro ⟨k, t⟩ hp ⟨k', t'⟩ hp' h
    obtain ⟨e1, e2⟩ : k = k' ∧ t = t' := cell_inj ((hmem k t).mp hp).2 ((hmem k' t').mp hp').2 h
    rw [e1, e2]

/-- **C30 (schedule independence).** Any two schedules give the same result, also for draws without the contract. -/
theorem C30_schedule_independent (nS N b : ℕ) (draw : ℕ → ℕ → ℕ) {s s' : List (ℕ × ℕ)}
    (h : s.Perm (allWrites N b)) (h' : s'.Perm (allWrites N b)) :
    sampleBatches nS N b draw s = sampleBatches nS N b draw s' := by
  have key : ∀ s : List (ℕ × ℕ), s.Perm (allWrites N b) →
      ∃ r, s.foldlM (writeDraw draw b) (fun _ : Fin (N * b) => 0) = some r ∧
        ∀ c : Fin (N * b), r c = draw (c.val / b) (c.val % b) := by
    intro s hs
    have hmem : ∀ k t, (k, t) ∈ s ↔ k < N ∧ t < b := fun k t => by rw [hs.mem_iff, mem_allWrites]
    obtain ⟨r, he, hv⟩ := writes_spec (N := N) (b := b) draw s (fun p hp => (hmem p.1 p.2).mp hp) (fun _ => 0)
    refine ⟨r, he, fun c => ?_⟩
    have hb0 : 0 < b := by
      rcases Nat.eq_zero_or_pos b with h0 | h0
      · have hc := c.isLt; subst h0; simp at hc
      · exact h0
    have h1 : c.val / b < N := Nat.div_lt_of_lt_mul (lt_of_lt_of_eq c.isLt (Nat.mul_comm N b))
    have h2 := Nat.mod_lt c.val hb0
    have : c = ⟨c.val / b * b + c.val % b, cell_lt h1 h2⟩ := Fin.ext (Nat.div_add_mod' c.val b).symm
    conv_lhs => rw [this]
    rw [hv _ _ h1 h2, if_pos ((hmem _ _).mpr ⟨h1, h2⟩)]
  obtain ⟨r, he, hr⟩ := key s h
  obtain ⟨r', he', hr'⟩ := key s' h'
  have : r = r' := funext fun c => by rw [hr, hr']
  simp only [sampleBatches, he, he', this]

/-- **C30 (too large batches).** -/
theorem C30_batch_too_large {nS N b : ℕ} (hN : N ≠ 0) (h : nS < b) (draw : ℕ → ℕ → ℕ) (sched : List (ℕ × ℕ)) :
    sampleBatches nS N b draw sched = .error .valueError := by
  rw [sampleBatches, if_pos ⟨hN, h⟩]

/-- Two batches of two out of three samples, written in an interleaved order. -/
example : [(1, 0), (0, 1), (1, 1), (0, 0)].Perm (allWrites 2 2) ∧
    (∀ k < 2, ∀ t < 2, ∀ t' < 2, (k + t) % 3 = (k + t') % 3 → t = t') := by decide

/-! ### C31 Trace -/

section TraceProps
variable {V S F : Type}

/-- **C31.** After any sequence `l` of calls, a `Trace(f, freq)` with `freq ≠ 0` holds in every active list exactly the
entries of calls `0, |freq|, 2 |freq|, ...` (entry `i` comes from call `i |freq|`, and there are `⌈k/|freq|⌉`); with
`f = None` the stored iterates show the value at the time of the call whatever happens to memory later. -/
theorem C31_trace (f : Option (V → F)) (freq : ℤ) (hf : freq ≠ 0) (now : ℚ) (l : List (Locals V S)) :
    ∃ t : Trace V S F, (Trace.init f freq now : Trace V S F).calls l = .ok t ∧
      t.traceTime.length = (l.length + freq.natAbs - 1) / freq.natAbs ∧
      t.traceStepSize.length = t.traceTime.length ∧
      (∀ i : ℕ, t.traceTime[i]? = (l[i * freq.natAbs]?).map fun dl => dl.time - now) ∧
      (∀ i : ℕ, t.traceStepSize[i]? = (l[i * freq.natAbs]?).map fun dl => dl.stepSize) ∧
      (∀ g, f = some g → t.traceX = [] ∧ t.traceFx.length = t.traceTime.length ∧
        ∀ i : ℕ, t.traceFx[i]? = (l[i * freq.natAbs]?).map fun dl => g (dl.heap dl.x)) ∧
      (f = none → t.traceFx = [] ∧ t.traceX.length = t.traceTime.length ∧
        ∀ (later : ℕ → V) (i : ℕ),
          (t.traceX[i]?).map (Stored.view later) = (l[i * freq.natAbs]?).map fun dl => dl.heap dl.x) := by
  have hm : 0 < freq.natAbs := by omega
  have hg : ∀ i, (sel freq.natAbs 0 l)[i]? = l[i * freq.natAbs]? := fun i => by
    rw [sel_get hm l 0 0 i (by simp) hm, zero_add]
  refine ⟨_, calls_spec l (Trace.init f freq now) hf (le_refl _), ?_⟩
  simp only [Trace.init, Int.toNat_zero, List.nil_append, List.length_map]
  refine ⟨sel_length hm l, trivial, fun i => ?_, fun i => ?_, fun g hfg => ?_, fun hfn => ?_⟩
  · rw [List.getElem?_map, hg]
  · rw [List.getElem?_map, hg]
  · subst hfg
    exact ⟨rfl, List.length_map _, fun i => by rw [List.getElem?_map, hg]⟩
  · subst hfn
    refine ⟨rfl, List.length_map _, fun later i => ?_⟩
    show ((List.map (fun dl => Stored.snapshot (dl.heap dl.x)) (sel freq.natAbs 0 l))[i]?).map (Stored.view later) = _
    rw [List.getElem?_map, hg, Option.map_map]
    rfl

/-- **C31 (never stops a solver).** A call never returns `False`. -/
theorem C31_never_false (t t' : Trace V S F) (dl : Locals V S) {r : Option Bool} (h : t.call dl = .ok (t', r)) :
    r ≠ some false := by
  unfold Trace.call at h
  split at h
  · cases h
  · injection h with h; injection h with _ h; rw [← h]; simp

/-- **C31 (freq 0).** The first call fails with ZeroDivisionError. -/
theorem C31_freq_zero (f : Option (V → F)) (now : ℚ) (dl : Locals V S) :
    (Trace.init f 0 now : Trace V S F).call dl = .error .zeroDivisionError := by
  simp [Trace.call, Trace.init]

/-- Five calls at frequency 2 record three iterates. -/
example : ∃ t : Trace ℕ ℕ ℕ, (Trace.init (some fun v => v + 1) 2 0 : Trace ℕ ℕ ℕ).calls
    ((List.range 5).map fun k => ⟨0, fun _ => 10 * k, k, k⟩) = .ok t ∧ t.traceFx = [1, 21, 41] := ⟨_, rfl, rfl⟩

end TraceProps

/-! ### C32 parse_step_size -/

/-- The specifications that `parse_step_size` is meant to accept. -/
inductive GoodStep : StepVal → StepVal × StepVal → Prop where
  | pair (a b : StepVal) : GoodStep (.seq [a, b]) (a, b)
  | float (v : ℚ) : GoodStep (.float v) (.float v, .str "fixed".toList)
  | callable (f : ℕ) : GoodStep (.callable f) (.nonFloat 1, .callable f)
  | adaptive : GoodStep (.str "adaptive".toList) (.nonFloat 1, .str "adaptive".toList)

/-- Values with a length, for which the first test of the code goes wrong. -/
def OddStep : StepVal → Prop
  | .str s => s.length = 2
  | .set k => k = 2
  | .array0d => True
  | _ => False

/-- **C32 (admissible specifications).** -/
theorem C32_admissible {v : StepVal} {r : StepVal × StepVal} (h : GoodStep v r) : parseStepSize v = .ok r := by
  cases h <;> rfl

/-- **C32 (partial).** Every other value raises ValueError - except two-character strings, sets of two elements and
0-d arrays (missing: see `C32_refuted`). -/
theorem C32_rejects_partial (v : StepVal) (h : ∀ r, ¬ GoodStep v r) (hodd : ¬ OddStep v) :
    parseStepSize v = .error .valueError := by
  cases v with
  | float v => exact absurd (.float v) (h _)
  | nonFloat v => rfl
  | callable f => exact absurd (.callable f) (h _)
  | array0d => exact absurd trivial hodd
  | other => rfl
  | set k =>
    match k, hodd with
    | 0, _ | 1, _ => rfl
    | 2, ho => exact absurd rfl ho
    | _ + 3, _ => rfl
  | seq l =>
    match l, h with
    | [], _ | [_], _ => rfl
    | [a, b], h => exact absurd (.pair a b) (h _)
    | _ :: _ :: _ :: _, _ => rfl
  | str s =>
    have hs : s ≠ "adaptive".toList := by rintro rfl; exact h _ .adaptive
    match s, hs, hodd with
    | [], hs, _ => simp [parseStepSize]
    | [_], hs, _ => simp [parseStepSize]
    | [a, b], _, ho => exact absurd rfl ho
    | _ :: _ :: _ :: _, hs, _ => exact if_neg hs

/-- **C32 (refuted).** A two-character string is accepted as a (value, strategy) pair; a set of two elements and a 0-d
array raise TypeError instead of ValueError. -/
theorem C32_refuted :
    (∀ r, ¬ GoodStep (.str "dr".toList) r) ∧
      parseStepSize (.str "dr".toList) = .ok (.str ['d'], .str ['r']) ∧
      parseStepSize (.set 2) = .error .typeError ∧ parseStepSize .array0d = .error .typeError := by
  refine ⟨fun r h => ?_, rfl, rfl, rfl⟩
  generalize hv : StepVal.str "dr".toList = v at h
  cases h <;> simp at hv

example : ¬ OddStep (.str "fixed".toList) ∧ ∀ r, ¬ GoodStep (.str "fixed".toList) r := by
  refine ⟨by simp [OddStep], fun r h => ?_⟩
  generalize hv : StepVal.str "fixed".toList = v at h
  cases h <;> simp at hv

/-! ### C33 build_func_grad -/

section FuncGrad
variable {E : Type} [DecidableEq E]

/-- **C33 (jac callable).** Over any history of calls every answer is `(fun(x), jac(x))`. -/
theorem C33_callable (f : E → ℝ) (g : E → E) (c : Memo E) (xs : List E) :
    funcAndGradCalls (.callable g) (fun x => .num (f x)) c xs = .ok (xs.map fun x => (f x, g x)) := by
  induction xs generalizing c with
  | nil => rfl
  | cons x xs ih =>
    have := ih c
    unfold funcAndGradCalls
    show (do let rest ← funcAndGradCalls (.callable g) (fun x => .num (f x)) c xs; pure ((f x, g x) :: rest)) = _
    rw [this]; rfl

/-- **C33 (jac = True).** Over any history of calls every answer is the value and gradient returned by `fun`, whatever
the memoisation has cached. -/
theorem C33_true (f : E → ℝ) (g : E → E) (xs : List E) :
    funcAndGradCalls (.bool true) (fun x => .pair (f x) (g x)) none xs = .ok (xs.map fun x => (f x, g x)) := by
  have key : ∀ (xs : List E) (c : Memo E), (∀ y v w, c = some (y, v, w) → v = f y ∧ w = g y) →
      funcAndGradCalls (.bool true) (fun x => .pair (f x) (g x)) c xs = .ok (xs.map fun x => (f x, g x)) := by
    intro xs
    induction xs with
    | nil => intro c _; rfl
    | cons x xs ih =>
      intro c hc
      have h1 : ∀ c : Memo E, (∀ y v w, c = some (y, v, w) → v = f y ∧ w = g y) →
          memoCompute (fun x => .pair (f x) (g x)) c x = .ok (f x, g x, some (x, f x, g x)) := by
        intro c hc
        match c, hc with
        | none, _ => rfl
        | some (y, v, w), hc =>
          obtain ⟨rfl, rfl⟩ := hc y v w rfl
          by_cases h : y = x
          · subst h; simp [memoCompute]
          · simp [memoCompute, memoCompute.memoEval, h]
      have h2 : ∀ y v w, (some (x, f x, g x) : Memo E) = some (y, v, w) → v = f y ∧ w = g y := by
        intro y v w h
        simp only [Option.some.injEq, Prod.mk.injEq] at h
        obtain ⟨rfl, rfl, rfl⟩ := h
        exact ⟨rfl, rfl⟩
      have h3 : funcAndGrad (.bool true) (fun x => .pair (f x) (g x)) c x = .ok (f x, g x, some (x, f x, g x)) := by
        unfold funcAndGrad
        simp only [JacArg.truthy, if_true, h1 c hc]
        show (do let r' ← memoCompute (fun x => .pair (f x) (g x)) (some (x, f x, g x)) x; pure (f x, r'.2.1, r'.2.2)) = _
        rw [h1 _ h2]; rfl
      unfold funcAndGradCalls
      rw [h3]
      show (do
        let rest ← funcAndGradCalls (.bool true) (fun x => .pair (f x) (g x)) (some (x, f x, g x)) xs
        pure ((f x, g x) :: rest)) = _
      rw [ih _ h2]; rfl
  exact key xs none (by simp)

/-- **C33 (refuted).** `'2-point'` needs a `fun` returning a pair (a scalar objective raises TypeError at every point)
and `False`, `None` raise NotImplementedError: no finite differences are ever taken. -/
theorem C33_refuted (f : E → ℝ) (x : E) (c : E → FunRet E) :
    funcAndGrad (.str "2-point") (fun x => .num (f x)) none x = .error .typeError ∧
      funcAndGrad (.bool false) c none x = .error .notImplementedError ∧
      funcAndGrad (.none : JacArg E) c none x = .error .notImplementedError := by
  refine ⟨?_, rfl, rfl⟩
  simp [funcAndGrad, JacArg.truthy, memoCompute, memoCompute.memoEval]
  rfl

end FuncGrad

/-! ### C34 safe_sparse_add -/

section SparseAdd
variable {K : Type} [Field K]

/-- `a` is a vector with `n` entries: a dense 1-D array, or a sparse column or row. -/
def IsVec (n : ℕ) (a : Arr K) : Prop :=
  (a.sparse = false ∧ a.oneD = true ∧ a.rows = 1 ∧ a.cols = n) ∨
    (a.sparse = true ∧ a.oneD = false ∧ ((a.rows = n ∧ a.cols = 1) ∨ (a.rows = 1 ∧ a.cols = n)))

/-- Entry `k` in row-major order. -/
def flatEntry (a : Arr K) (k : ℕ) : K := a.val (k / a.cols) (k % a.cols)

/-- The element-wise sum of two vectors with `n` entries. -/
def IsVecSum (n : ℕ) (a b r : Arr K) : Prop :=
  r.rows * r.cols = n ∧ ∀ k < n, flatEntry r k = flatEntry a k + flatEntry b k

/-- The combinations that `safe_sparse_add` mishandles: a sparse column first with a dense 1-D array second, and two
sparse operands of different orientations. -/
def BadPair (n : ℕ) (a b : Arr K) : Prop :=
  n ≠ 1 ∧ ((a.sparse = true ∧ a.cols = 1 ∧ b.sparse = false) ∨ (a.sparse = true ∧ b.sparse = true ∧ a.rows ≠ b.rows))

/-- **C34 (partial).** The element-wise sum is returned for all other combinations (missing: `BadPair`, refuted). -/
theorem C34_safe_sparse_add_partial {n : ℕ} {a b : Arr K} (ha : IsVec n a) (hb : IsVec n b) (hn : 0 < n)
    (hgood : ¬ BadPair n a b) : ∃ r, safeSparseAdd a b = .ok r ∧ IsVecSum n a b r := by
  obtain ⟨asp, a1, ar, ac, av⟩ := a
  obtain ⟨bsp, b1, br, bc, bv⟩ := b
  simp only [IsVec, BadPair] at ha hb hgood
  have hdiv : ∀ k < n, k / n = 0 ∧ k % n = k := fun k hk => ⟨Nat.div_eq_of_lt hk, Nat.mod_eq_of_lt hk⟩
  have hcol : ∀ k < n, (if n = 1 then 0 else k) = k := fun k hk => by split <;> omega
  rcases ha with ⟨rfl, rfl, rfl, rfl⟩ | ⟨rfl, rfl, ha⟩
  · rcases hb with ⟨rfl, rfl, rfl, rfl⟩ | ⟨rfl, rfl, hb⟩
    · refine ⟨_, by simp [safeSparseAdd, Arr.addDense, Arr.bcast]; rfl, ?_⟩
      refine ⟨by simp, fun k hk => ?_⟩
      simp only [flatEntry, hdiv k hk, hcol k hk, if_true]
    · have hr : (Arr.mk true false br bc bv).toarray.ravel.cols = ac := by
        simp only [Arr.ravel, Arr.toarray]
        rcases hb with ⟨rfl, rfl⟩ | ⟨rfl, rfl⟩ <;> simp
      have hrow : ∀ k < ac, (Arr.mk true false br bc bv).toarray.ravel.val 0 k = bv (k / bc) (k % bc) := fun k _ => rfl
      refine ⟨_, by
        simp only [safeSparseAdd, Bool.and_true, if_true]
        simp only [Arr.toarray, Arr.addDense, Bool.not_false, Bool.and_self, if_true, Bool.false_eq_true, if_false]
        rw [show (Arr.ravel ⟨false, false, br, bc, bv⟩).rows = 1 from rfl,
          show (Arr.ravel ⟨false, false, br, bc, bv⟩).cols = ac from hr]
        simp only [Arr.bcast, if_true]
        rfl, ?_⟩
      refine ⟨by simp, fun k hk => ?_⟩
      simp only [flatEntry, hdiv k hk, hcol k hk, if_true]
      rfl
  · rcases hb with ⟨rfl, rfl, rfl, rfl⟩ | ⟨rfl, rfl, hb⟩
    · -- sparse row (or a single entry) plus dense
      have ha' : ar = 1 ∧ ac = bc := by
        rcases ha with ⟨h1, h2⟩ | h
        · by_cases hb1 : bc = 1
          · exact ⟨by omega, by omega⟩
          · exact absurd ⟨hb1, Or.inl ⟨rfl, h2, rfl⟩⟩ hgood
        · exact h
      obtain ⟨rfl, rfl⟩ := ha'
      refine ⟨_, by simp [safeSparseAdd, Arr.addDense, Arr.bcast, Arr.toarray]; rfl, ?_⟩
      refine ⟨by simp, fun k hk => ?_⟩
      simp only [flatEntry, hdiv k hk, hcol k hk, if_true]
    · have hrr : ar = br ∧ ac = bc := by
        by_cases hn1 : n = 1
        · rcases ha with ⟨h1, h2⟩ | ⟨h1, h2⟩ <;> rcases hb with ⟨h3, h4⟩ | ⟨h3, h4⟩ <;> omega
        · have : ar = br := by
            by_contra hne
            exact hgood ⟨hn1, Or.inr ⟨rfl, rfl, hne⟩⟩
          rcases ha with ⟨h1, h2⟩ | ⟨h1, h2⟩ <;> rcases hb with ⟨h3, h4⟩ | ⟨h3, h4⟩ <;> omega
      obtain ⟨rfl, rfl⟩ := hrr
      refine ⟨_, by simp [safeSparseAdd, Arr.addSparse]; rfl, ?_⟩
      refine ⟨?_, fun k hk => rfl⟩
      show ar * ac = n
      rcases ha with ⟨rfl, rfl⟩ | ⟨rfl, rfl⟩ <;> simp

/-- **C34 (refuted, for every size).** A sparse column plus a dense 1-D array of length `n ≠ 1` gives an `n x n` array
(so `n²` entries), and a sparse column plus a sparse row raises ValueError. -/
theorem C34_refuted {n : ℕ} (hn : n ≠ 1) {a b : Arr K} (ha : IsVec n a) (hb : IsVec n b) (hbad : BadPair n a b)
    (hn0 : n ≠ 0) : (∀ r, safeSparseAdd a b = .ok r → ¬ IsVecSum n a b r) ∧
      ((∃ r, safeSparseAdd a b = .ok r ∧ r.rows = n ∧ r.cols = n) ∨ safeSparseAdd a b = .error .valueError) := by
  obtain ⟨asp, a1, ar, ac, av⟩ := a
  obtain ⟨bsp, b1, br, bc, bv⟩ := b
  simp only [IsVec, BadPair] at ha hb hbad
  rcases hbad.2 with ⟨rfl, rfl, rfl⟩ | ⟨rfl, rfl, hne⟩
  · have har : ar = n := by simp at ha; omega
    have hb' : b1 = true ∧ br = 1 ∧ bc = n := by simpa using hb
    obtain ⟨rfl, rfl, hbc⟩ := hb'
    subst har
    subst hbc
    have he : ∃ r, safeSparseAdd (⟨true, a1, bc, 1, av⟩ : Arr K) ⟨false, true, 1, bc, bv⟩ = .ok r ∧ r.rows = bc ∧ r.cols = bc := by
      refine ⟨_, by simp [safeSparseAdd, Arr.addDense, Arr.bcast, Arr.toarray, hn, Ne.symm hn]; rfl, rfl, rfl⟩
    refine ⟨fun r hr hs => ?_, Or.inl he⟩
    obtain ⟨r', he', h1, h2⟩ := he
    rw [hr] at he'
    injection he' with he'
    subst he'
    have := hs.1
    rw [h1, h2] at this
    have h3 : bc * bc ≠ bc * 1 := fun h => hn (Nat.eq_of_mul_eq_mul_left (Nat.pos_of_ne_zero hn0) h)
    omega
  · have he : safeSparseAdd (⟨true, a1, ar, ac, av⟩ : Arr K) ⟨true, b1, br, bc, bv⟩ = .error .valueError := by
      simp [safeSparseAdd, Arr.addSparse, hne]
    exact ⟨fun r hr => absurd (he.symm.trans hr) (by simp), Or.inr he⟩

/-- Instances of both classes. -/
example : IsVec 2 (⟨true, false, 2, 1, fun i _ => (i : ℚ)⟩ : Arr ℚ) ∧ IsVec 2 (⟨false, true, 1, 2, fun _ j => (j : ℚ)⟩ : Arr ℚ) ∧
    BadPair 2 (⟨true, false, 2, 1, fun i _ => (i : ℚ)⟩ : Arr ℚ) ⟨false, true, 1, 2, fun _ j => (j : ℚ)⟩ ∧
    ¬ BadPair 2 (⟨false, true, 1, 2, fun _ j => (j : ℚ)⟩ : Arr ℚ) ⟨true, false, 2, 1, fun i _ => (i : ℚ)⟩ := by
  simp [IsVec, BadPair]

end SparseAdd

/-! ### C71 njit fallback -/

/-- **C71 (`@njit`).** The decorated function returns and raises exactly what the function does, for all arguments. -/
theorem C71_plain {A R : Type} (f : PyFn A R) :
    ∃ w, njitFallback [.func f] [] = .func w ∧ ∀ args kw, w args kw = f args kw := ⟨_, rfl, fun _ _ => rfl⟩

/-- **C71 (`@njit(options)`).** With any non-callable positional or any keyword options, `njit` returns a decorator whose
result behaves as the function. -/
theorem C71_options {A R : Type} (opts : List (DecoArg (PyFn A R))) (kw : List (String × ℕ))
    (h : kw ≠ [] ∨ ∀ g, opts ≠ [.func g]) (f : PyFn A R) :
    ∃ d, njitFallback opts kw = .decorator d ∧ ∀ args k, d f args k = f args k := by
  refine ⟨fun f a k => f a k, ?_, fun _ _ => rfl⟩
  unfold njitFallback
  split
  · rename_i g
    rcases h with h | h
    · exact absurd rfl h
    · exact absurd rfl (h g)
  · rfl

/-- `@njit(nogil=True)` and `@njit()` are of the second kind. -/
example : ([("nogil", 1)] : List (String × ℕ)) ≠ [] ∧ ∀ g : PyFn ℕ ℕ, ([] : List (DecoArg (PyFn ℕ ℕ))) ≠ [.func g] := by
  refine ⟨by simp, by simp⟩

/-! ### C24 get_max_lipschitz -/

/-- **C24 (deprecated helper).** `get_max_lipschitz(A, "logloss", alpha)` is a Lipschitz constant of every per-sample
gradient of the logistic loss; any other loss raises NotImplementedError. -/
theorem C24_get_max_lipschitz {n d : ℕ} (f : LogLoss n d) (ha : 0 ≤ f.alpha) (loss : String) :
    (loss = "logloss" → ∃ L, getMaxLipschitz f.A loss f.alpha = .ok L ∧
      ∀ (i : Fin n) (g : (Fin d → ℝ) → Fin d → ℝ),
        (∀ x, IsGrad (fun x => logistic1 (f.b i) (dot (f.A i) x) + f.alpha / 2 * dot x x) (g x) x) → LipWith L g) ∧
    (loss ≠ "logloss" → getMaxLipschitz f.A loss f.alpha = .error .notImplementedError) := by
  refine ⟨fun h => ⟨f.maxLipschitz, by simp [getMaxLipschitz, h, LogLoss.maxLipschitz], fun i g hg => ?_⟩, fun h => by
    simp [getMaxLipschitz, h]⟩
  exact C24_max_lipschitz f ha i hg

end Copt
