import Mathlib.Analysis.InnerProductSpace.PiL2
import Verif.Proof.ActiveSet
import Verif.Props.Constraint

/-! # Properties C41, C42: pairwise Frank-Wolfe on the l1 ball -/

set_option linter.unusedSectionVars false

namespace Copt

open Spec

open scoped InnerProductSpace

variable {n : ℕ}

/-- The vertex a representation stands for, as a point of the Euclidean space. -/
noncomputable def l1Vertex2 (alpha : ℝ) (r : L1Rep ℝ n) : EuclideanSpace ℝ (Fin n) := WithLp.toLp 2 (l1Vertex alpha r)

/-- A decomposition over points of the l1 ball is a point of the l1 ball. -/
theorem Decomp.mem_l1Ball {alpha : ℝ} {act : ActiveSet (L1Rep ℝ n) ℝ} {x : EuclideanSpace ℝ (Fin n)}
    (h : Decomp (l1Vertex2 alpha) (fun r => l1Vertex alpha r ∈ l1Ball alpha) act x) : WithLp.ofLp x ∈ l1Ball alpha := by
  have gen : ∀ a : ActiveSet (L1Rep ℝ n) ℝ, (∀ p ∈ a, 0 ≤ p.2) → (∀ p ∈ a, l1Vertex alpha p.1 ∈ l1Ball alpha) →
      ∑ i, |(WithLp.ofLp (a.map fun p => p.2 • l1Vertex2 alpha p.1).sum : Fin n → ℝ) i| ≤ (a.map Prod.snd).sum * alpha := by
    intro a
    induction a with
    | nil => intro _ _; simp
    | cons q a ih =>
      intro h0 h1
      have ih' := ih (fun p hp => h0 p (List.mem_cons_of_mem _ hp)) (fun p hp => h1 p (List.mem_cons_of_mem _ hp))
      have hq0 := h0 q List.mem_cons_self
      have hq1 : ∑ i, |l1Vertex alpha q.1 i| ≤ alpha := h1 q List.mem_cons_self
      simp only [List.map_cons, List.sum_cons, add_mul]
      refine le_trans (Finset.sum_le_sum fun i _ => abs_add_le _ _) ?_
      rw [Finset.sum_add_distrib]
      refine add_le_add ?_ ih'
      have : ∀ i, |(WithLp.ofLp (q.2 • l1Vertex2 alpha q.1) : Fin n → ℝ) i| = q.2 * |l1Vertex alpha q.1 i| := fun i => by
        rw [WithLp.ofLp_smul, Pi.smul_apply, smul_eq_mul, abs_mul, abs_of_nonneg hq0]; rfl
      refine le_of_eq_of_le (Finset.sum_congr rfl fun i _ => this i) ?_
      rw [← Finset.mul_sum]
      exact mul_le_mul_of_nonneg_left hq1 hq0
  have := gen act h.nonneg h.valid
  rw [h.sum_one, one_mul, ← h.eq] at this
  exact this

/-- The pairwise LMO of the l1 ball meets the contract used by the loop. -/
theorem l1PairwiseLmo_spec (hn : 0 < n) {alpha : ℝ} (ha : 0 ≤ alpha) (it : ℕ) (u x : EuclideanSpace ℝ (Fin n))
    (act : ActiveSet (L1Rep ℝ n) ℝ) (hact : act ≠ []) :
    ∃ o fw away, l1PairwiseLmo alpha it u x (some act) = .ok o ∧ o.fwRep = some fw ∧ o.awayRep = some away ∧
      (away, o.maxStep) ∈ act ∧ o.dir = l1Vertex2 alpha fw - l1Vertex2 alpha away ∧
      MaximisesOn (l1Ball alpha) (WithLp.ofLp u) (l1Vertex alpha fw) ∧
      ∀ item ∈ act, dot (WithLp.ofLp u) (l1Vertex alpha away) ≤ dot (WithLp.ofLp u) (l1Vertex alpha item.1) := by
  obtain ⟨o, fw, away, h1, h2, h3, h4, h5, h6, h7⟩ := C06_l1_lmo_pairwise_correct hn alpha ha (WithLp.ofLp u) (WithLp.ofLp x) act hact
  refine ⟨⟨WithLp.toLp 2 o.dir, o.fwRep, o.awayRep, o.maxStep⟩, fw, away, ?_, h2, h3, h4, ?_, h6, h7⟩
  · show Except.map _ (L1Ball.lmoPairwise alpha (WithLp.ofLp u) (WithLp.ofLp x) act) = _
    rw [h1]; rfl
  · show WithLp.toLp 2 o.dir = _
    rw [h5]; rfl

/-- **C41.** Every pairwise run on the l1 ball of radius `alpha` from a vertex, with backtracking or DR steps, any objective,
tolerance, iteration limit and callback: it returns (so it never raises "step size too large"), the returned active set has
distinct keys and non-negative weights summing to 1, the returned `x` is the weighted sum of the active vertices and
lies in the ball; and the same holds of the active set and `x` at every callback. -/
theorem C41_active_set (P : FWArgs (EuclideanSpace ℝ (Fin n)) (L1Rep ℝ n)) (hn : 0 < n) {alpha : ℝ} (ha : 0 ≤ alpha)
    (hlmo : P.lmo = l1PairwiseLmo alpha) (hv : P.variant = "pairwise") {r0 : L1Rep ℝ n} (hr0 : P.x0Rep = some r0)
    (hs0 : |r0.1| ≤ 1) (hx0 : P.x0 = l1Vertex2 alpha r0)
    (hstep : P.step = .str "backtracking" ∨ (P.step = .str "DR" ∧ P.lipschitz ≠ none))
    (hlip : ∀ L, P.lipschitz = some L → 0 ≤ L) (htol : 0 ≤ P.tol) (hmi : 1 ≤ P.maxIter) :
    ∃ res act, minimizeFrankWolfe P = .ok res ∧ res.active = some act ∧
      (act.map Prod.fst).Nodup ∧ (∀ p ∈ act, 0 ≤ p.2) ∧ (act.map Prod.snd).sum = 1 ∧
      res.x = (act.map fun p => p.2 • l1Vertex2 alpha p.1).sum ∧ WithLp.ofLp res.x ∈ l1Ball alpha ∧
      ∀ l ∈ res.cbs, ∃ a, l.active = some a ∧ (∀ p ∈ a, 0 ≤ p.2) ∧ (a.map Prod.snd).sum = 1 ∧
        l.x = (a.map fun p => p.2 • l1Vertex2 alpha p.1).sum ∧ WithLp.ofLp l.x ∈ l1Ball alpha := by
  have hV0 : l1Vertex alpha r0 ∈ l1Ball alpha := by
    show norm1 _ ≤ alpha
    rw [norm1_l1Vertex, abs_mul, abs_of_nonneg ha]
    nlinarith [abs_nonneg r0.1]
  obtain ⟨res, hres, ⟨act, hact, hD⟩, hcb⟩ := pairwise_run P (l1Vertex2 alpha) (fun r => l1Vertex alpha r ∈ l1Ball alpha)
    (fun it u x act h => by
      obtain ⟨o, fw, away, h1, h2, h3, h4, h5, h6, -⟩ := l1PairwiseLmo_spec hn ha it u x act h
      exact ⟨o, fw, away, by rw [hlmo]; exact h1, h2, h3, h4, h5, h6.1⟩) hv hr0 hV0 hx0 hstep hlip htol hmi
  refine ⟨res, act, hres, hact, hD.nodup, hD.nonneg, hD.sum_one, hD.eq, hD.mem_l1Ball, fun l hl => ?_⟩
  obtain ⟨a, h1, h2⟩ := hcb l hl
  exact ⟨a, h1, h2.nonneg, h2.sum_one, h2.eq, h2.mem_l1Ball⟩

/-! ### C42 -/

theorem mem_keys_updateActiveSet {Rep : Type} [DecidableEq Rep] {act act' : ActiveSet Rep ℝ} {fw away : Rep} {step : ℝ}
    (h : updateActiveSet act fw away step = .ok act') : away ∈ act'.map Prod.fst := by
  unfold updateActiveSet at h
  simp only at h
  split at h <;> split at h
  all_goals first
    | (cases h; done)
    | (simp only [Except.ok.injEq] at h; rw [← h]; exact mem_keys_dTouch _ _)

/-- **C42 (refuted).** Whatever the step, the away vertex is a key of the set `update_active_set` leaves behind: the test
after the deletion reads `active_set[away]`, which re-inserts it. -/
theorem C42_refuted {Rep : Type} [DecidableEq Rep] {act : ActiveSet Rep ℝ} (hnd : (act.map Prod.fst).Nodup)
    {fw away : Rep} {w : ℝ} (haw : (away, w) ∈ act) (hw : 0 ≤ w) (hne : fw ≠ away) :
    ∃ act', updateActiveSet act fw away w = .ok act' ∧ (away, (0 : ℝ)) ∈ act' := by
  obtain ⟨act', e, hnd', hget, -, -⟩ := updateActiveSet_ok (V := ℝ) (fw := fw) hnd hw (le_of_eq (dGet_of_mem hnd haw).symm)
  refine ⟨act', e, ?_⟩
  obtain ⟨p, hp, hpe⟩ := List.mem_map.mp (mem_keys_updateActiveSet e)
  have h0 : p.2 = 0 := by
    rw [← dGet_of_mem hnd' hp, hpe, hget, if_neg (Ne.symm hne), if_pos rfl, dGet_of_mem hnd haw]
    ring
  have : p = (away, 0) := Prod.ext hpe h0
  rw [← this]; exact hp

/-- **C42 (partial).** What a drop step does achieve: it does not raise, the dropped vertex has weight 0, the weight of
the Frank-Wolfe vertex grows by the dropped weight and all others are unchanged.  Missing: the dropped vertex is still a key
(`C42_refuted`), so it can be selected again and stall the method (`C42_stall`). -/
theorem C42_drop_partial {Rep : Type} [DecidableEq Rep] {act : ActiveSet Rep ℝ} (hnd : (act.map Prod.fst).Nodup)
    {fw away : Rep} {w : ℝ} (haw : (away, w) ∈ act) (hw : 0 ≤ w) (hne : fw ≠ away) :
    ∃ act', updateActiveSet act fw away w = .ok act' ∧ (act'.map Prod.fst).Nodup ∧
      dGet act' away = 0 ∧ dGet act' fw = dGet act fw + w ∧ ∀ k, k ≠ fw → k ≠ away → dGet act' k = dGet act k := by
  obtain ⟨act', e, hnd', hget, -, -⟩ := updateActiveSet_ok (V := ℝ) (fw := fw) hnd hw (le_of_eq (dGet_of_mem hnd haw).symm)
  refine ⟨act', e, hnd', ?_, ?_, fun k h1 h2 => ?_⟩
  · rw [hget, if_neg (Ne.symm hne), if_pos rfl, dGet_of_mem hnd haw]; ring
  · rw [hget, if_pos rfl, if_neg hne]; ring
  · rw [hget, if_neg h1, if_neg h2]; ring

example : ∃ act : ActiveSet ℕ ℝ, (act.map Prod.fst).Nodup ∧ (7, (1 / 2 : ℝ)) ∈ act ∧ (3 : ℕ) ≠ 7 :=
  ⟨[(3, 1 / 2), (7, 1 / 2)], by simp, by simp, by simp⟩

/-! ### The stall -/

/-- Target of the quadratic of the witness. -/
noncomputable def stallC : EuclideanSpace ℝ (Fin 2) := !₂[-3 / 2, 1]

/-- The witness: `f(x) = |x - (-3/2, 1)|^2 / 2` over the unit l1 ball, from the vertex `(1, 0)`, DR steps with the exact
Lipschitz constant 1. -/
noncomputable def stallArgs (maxIter : ℕ) : FWArgs (EuclideanSpace ℝ (Fin 2)) (L1Rep ℝ 2) where
  fg x := (‖x - stallC‖ ^ 2 / 2, x - stallC)
  x0 := l1Vertex2 1 (1, 0)
  lmo := l1PairwiseLmo 1
  x0Rep := some (1, 0)
  variant := "pairwise"
  step := .str "DR"
  lipschitz := some 1
  maxIter := maxIter
  tol := 0
  callback := none

theorem dot2 (u v : Fin 2 → ℝ) : dot u v = u 0 * v 0 + u 1 * v 1 := by
  unfold dot; rw [Fin.sum_univ_two]

theorem inner2 (u v : EuclideanSpace ℝ (Fin 2)) : ⟪u, v⟫_ℝ = dot (WithLp.ofLp v) (WithLp.ofLp u) := by
  rw [dot2, PiLp.inner_apply, Fin.sum_univ_two]; rfl

theorem stall_fw {fw : L1Rep ℝ 2} {u : Fin 2 → ℝ} (hu0 : u 0 = -5 / 2) (hu1 : u 1 = 1)
    (h : MaximisesOn (l1Ball 1) u (l1Vertex 1 fw)) : fw = (-1, 0) := by
  obtain ⟨h1, h2⟩ := h
  have hm : l1Vertex (1 : ℝ) ((-1, 0) : L1Rep ℝ 2) ∈ l1Ball 1 := by
    show norm1 (l1Vertex (1 : ℝ) ((-1, 0) : L1Rep ℝ 2)) ≤ 1
    rw [norm1_l1Vertex]; norm_num
  have h3 := h2 _ hm
  rw [dot_l1Vertex, dot_l1Vertex] at h3
  have h4 : norm1 (l1Vertex (1 : ℝ) fw) ≤ 1 := h1
  rw [norm1_l1Vertex] at h4
  obtain ⟨s, j⟩ := fw
  simp only [one_mul] at h3 h4
  have hs := abs_le.mp (show |s| ≤ 1 by linarith)
  fin_cases j
  · simp only [Fin.zero_eta, Fin.isValue, hu0] at h3 ⊢
    rw [show s = -1 by linarith [hs.1]]
  · simp only [Fin.mk_one, Fin.isValue, hu0, hu1] at h3
    exfalso
    linarith [hs.1, hs.2]

theorem fwStepSize_dr {E Rep : Type} [NormedAddCommGroup E] [InnerProductSpace ℝ E] {P : FWArgs E Rep}
    (h : P.step = .str "DR") (h' : P.lipschitz ≠ none) (l : FWLocals E Rep) (oldF : Option ℝ) {s : ℝ}
    (hs : btStep l.certificate (‖l.dir‖ ^ 2) l.lip l.maxStep = s) :
    fwStepSize P l oldF = .ok ⟨s, l.lip, (P.fg (l.x + s • l.dir)).1, (P.fg (l.x + s • l.dir)).2⟩ := by
  unfold fwStepSize
  rw [h]
  simp only [show ("DR" = "backtracking") = False by decide, if_false, if_true, if_neg h']
  rw [hs]

theorem fwBody_move {E Rep : Type} [NormedAddCommGroup E] [InnerProductSpace ℝ E] [DecidableEq Rep] {P : FWArgs E Rep}
    {it : ℕ} {st : FWState E Rep} {o : LmoOut E Rep ℝ} {s : FWStepOut E} {a : Option (ActiveSet Rep ℝ)}
    (ho : P.lmo it (-st.grad) st.x st.active = .ok o) (hc : ¬ (fwLocals P it st o).certificate ≤ P.tol)
    (hs : fwStepSize P (fwLocals P it st o) st.oldF = .ok s) (hcb : P.callback = none)
    (hu : fwUpdateActive st.active o s.step = .ok a) :
    ∃ st', fwBody P it st = .ok (st', none) ∧ st'.x = st.x + s.step • o.dir ∧ st'.grad = s.gradNext ∧
      st'.lip = some s.lip ∧ st'.active = a ∧
      st'.last = some { fwLocals P it st o with lip := s.lip, stepSize := some s.step } := by
  have h : fwBody P it st = .ok (⟨st.x + s.step • o.dir, s.fNext, s.gradNext, some st.fT, some s.lip, some s.step, a,
      some { fwLocals P it st o with lip := s.lip, stepSize := some s.step }, st.cbs, st.iters ++ [st.x]⟩, none) := by
    unfold fwBody
    rw [ho]
    simp only [bind, Except.bind, pure, Except.pure]
    rw [if_neg hc, hs]
    simp only [fwCallback, hcb, Bool.false_eq_true, if_false, fwMove, hu, bind, Except.bind, pure, Except.pure]
  exact ⟨_, h, rfl, rfl, rfl, rfl, rfl⟩

/-- The witness run below meets the hypotheses of `C41_active_set`, for every positive iteration limit. -/
example (N : ℕ) (hN : 1 ≤ N) : (stallArgs N).lmo = l1PairwiseLmo 1 ∧ (stallArgs N).variant = "pairwise" ∧
    (stallArgs N).x0Rep = some (1, 0) ∧ |(1 : ℝ)| ≤ 1 ∧ (stallArgs N).x0 = l1Vertex2 1 (1, 0) ∧
    (stallArgs N).step = .str "DR" ∧ (stallArgs N).lipschitz ≠ none ∧ (0 : ℝ) ≤ (stallArgs N).tol ∧ 1 ≤ (stallArgs N).maxIter :=
  ⟨rfl, rfl, rfl, by simp, rfl, rfl, by simp [stallArgs], le_rfl, hN⟩

/-- The state the witness run is stuck in. -/
structure Stalled (st : FWState (EuclideanSpace ℝ (Fin 2)) (L1Rep ℝ 2)) : Prop where
  x : st.x = l1Vertex2 1 (-1, 0)
  grad : st.grad = st.x - stallC
  lip : st.lip = some 1
  act : ∃ a, st.active = some a ∧ (a.map Prod.fst).Nodup ∧ (((1 : ℝ), (0 : Fin 2)), (0 : ℝ)) ∈ a ∧
    ∀ p ∈ a, p.1 ≠ ((1 : ℝ), (0 : Fin 2)) → -(1 / 2) < p.1.1 * (if p.1.2 = 0 then -(1 / 2) else 1)

theorem stall_dir {u : EuclideanSpace ℝ (Fin 2)} {fw away : L1Rep ℝ 2} :
    ⟪l1Vertex2 1 fw - l1Vertex2 1 away, u⟫_ℝ = fw.1 * WithLp.ofLp u fw.2 - away.1 * WithLp.ofLp u away.2 := by
  rw [inner_sub_left, inner2, inner2]
  show dot _ (l1Vertex 1 fw) - dot _ (l1Vertex 1 away) = _
  rw [dot_l1Vertex, dot_l1Vertex, one_mul, one_mul]

/-- One iteration from the stalled state changes nothing. -/
theorem stall_body (N it : ℕ) {st : FWState (EuclideanSpace ℝ (Fin 2)) (L1Rep ℝ 2)} (h : Stalled st) :
    ∃ st', fwBody (stallArgs N) it st = .ok (st', none) ∧ Stalled st' ∧
      ∃ l, st'.last = some l ∧ l.it = it ∧ 3 / 2 ≤ l.certificate := by
  obtain ⟨hx, hg, hl, a, ha, hnd, hmem, hcor⟩ := h
  have hne : a ≠ [] := by rintro rfl; cases hmem
  obtain ⟨o, fw, away, ho, hfw, haw, hmaw, hdir, hmax, hmin⟩ :=
    l1PairwiseLmo_spec (by norm_num : 0 < 2) zero_le_one it (-st.grad) st.x a hne
  have hu : -st.grad = (!₂[-1 / 2, 1] : EuclideanSpace ℝ (Fin 2)) := by
    rw [hg, hx]
    ext i
    fin_cases i
    · simp [l1Vertex2, l1Vertex, stallC]; norm_num
    · simp [l1Vertex2, l1Vertex, stallC]
  have hu0 : WithLp.ofLp (-st.grad) 0 = -(1 / 2) := by rw [hu]; simp; norm_num
  have hu1 : WithLp.ofLp (-st.grad) 1 = 1 := by rw [hu]; simp
  have hcorr : ∀ r : L1Rep ℝ 2, dot (WithLp.ofLp (-st.grad)) (l1Vertex 1 r) = r.1 * (if r.2 = 0 then -(1 / 2) else 1) := by
    rintro ⟨s, j⟩
    rw [dot_l1Vertex, one_mul]
    fin_cases j
    · simp only [Fin.zero_eta, hu0, if_true]
    · simp only [Fin.mk_one, hu1, if_neg (one_ne_zero : (1 : Fin 2) ≠ 0)]
  -- the away vertex is the dropped one
  have haway : away = (1, 0) := by
    by_contra hc
    have h1 := hcor _ hmaw hc
    have h2 := hmin _ hmem
    rw [hcorr, hcorr] at h2
    simp only [if_true] at h2
    linarith
  have hm0 : o.maxStep = 0 := by
    have h1 := dGet_of_mem hnd hmaw
    have h2 := dGet_of_mem hnd hmem
    simp only [haway] at h1 h2
    rw [← h1, h2]
  -- the Frank-Wolfe vertex has correlation at least 1
  have hfw1 : 1 ≤ fw.1 * (if fw.2 = 0 then -(1 / 2) else 1) := by
    have hm : l1Vertex (1 : ℝ) ((1, 1) : L1Rep ℝ 2) ∈ l1Ball 1 := by
      show norm1 (l1Vertex (1 : ℝ) ((1, 1) : L1Rep ℝ 2)) ≤ 1
      rw [norm1_l1Vertex]; norm_num
    have := hmax.2 _ hm
    rw [hcorr, hcorr] at this
    simpa using this
  have hfne : fw ≠ (1, 0) := by
    rintro rfl
    norm_num at hfw1
  have hcert : (fwLocals (stallArgs N) it st o).certificate = fw.1 * (if fw.2 = 0 then -(1 / 2) else 1) + 1 / 2 := by
    show ⟪o.dir, -st.grad⟫_ℝ = _
    rw [hdir, inner_sub_left, inner2, inner2]
    show dot _ (l1Vertex 1 fw) - dot _ (l1Vertex 1 away) = _
    rw [hcorr, hcorr, haway]
    simp only [if_true]; ring
  have hc : ¬ (fwLocals (stallArgs N) it st o).certificate ≤ (stallArgs N).tol := by
    rw [hcert]; show ¬ _ ≤ (0 : ℝ); linarith
  have hlip : (fwLocals (stallArgs N) it st o).lip = 1 := by
    show fwLip _ st o.dir = 1
    unfold fwLip; rw [hl]
  have hstep : btStep (fwLocals (stallArgs N) it st o).certificate (‖(fwLocals (stallArgs N) it st o).dir‖ ^ 2)
      (fwLocals (stallArgs N) it st o).lip (fwLocals (stallArgs N) it st o).maxStep = 0 := by
    unfold btStep
    rw [if_neg]
    · exact hm0
    · rintro ⟨-, h2⟩
      rw [show (fwLocals (stallArgs N) it st o).maxStep = 0 from hm0] at h2
      refine absurd h2 (not_lt.mpr (div_nonneg ?_ ?_))
      · rw [hcert]; linarith
      · rw [hlip]; positivity
  have hs := fwStepSize_dr (P := stallArgs N) rfl (by simp [stallArgs]) (fwLocals (stallArgs N) it st o) st.oldF hstep
  obtain ⟨a', e, hnd', hget, -, hkeys⟩ := updateActiveSet_ok (V := ℝ) (act := a) (fw := fw) (away := (1, 0)) hnd le_rfl
    (le_of_eq (dGet_of_mem hnd hmem).symm)
  have hup : fwUpdateActive st.active o 0 = .ok (some a') := by
    unfold fwUpdateActive
    rw [ha, hfw, haw, haway]
    simp only [e]; rfl
  obtain ⟨st', hb, h1, h2, h3, h4, h5⟩ := fwBody_move (P := stallArgs N) (it := it) (st := st) (by rw [ha]; exact ho) hc hs rfl hup
  have hx' : st'.x = st.x := by rw [h1]; simp only [zero_smul, add_zero]
  refine ⟨st', hb, ⟨hx'.trans hx, ?_, ?_, a', h4, hnd', ?_, ?_⟩, _, h5, rfl, ?_⟩
  · rw [h2, h1]; rfl
  · rw [h3]; simp only [hlip]
  · obtain ⟨p, hp, hpe⟩ := List.mem_map.mp (mem_keys_updateActiveSet e)
    have h0 : p.2 = 0 := by
      rw [← dGet_of_mem hnd' hp, hpe, hget, dGet_of_mem hnd hmem]; simp
    rw [← (Prod.ext hpe h0 : p = ((1, 0), 0))]; exact hp
  · intro p hp hpne
    rcases hkeys p.1 (List.mem_map_of_mem hp) with hk | hk | hk
    · obtain ⟨q, hq, hqe⟩ := List.mem_map.mp hk
      rw [← hqe] at hpne ⊢
      exact hcor q hq hpne
    · rw [hk]; linarith
    · exact absurd hk hpne
  · show 3 / 2 ≤ (fwLocals (stallArgs N) it st o).certificate
    rw [hcert]; linarith

/-- The first iteration is a drop step to `(-1, 0)`. -/
theorem stall_first (N : ℕ) : ∃ st', fwBody (stallArgs N) 0 (fwInit (stallArgs N) (some [((1, 0), 1)])) = .ok (st', none) ∧
    Stalled st' ∧ st'.last ≠ none := by
  set st := fwInit (stallArgs N) (some [((1, 0), 1)]) with hst
  have hx : st.x = l1Vertex2 1 (1, 0) := rfl
  have hg : st.grad = st.x - stallC := rfl
  have hnd : (List.map Prod.fst [(((1, 0) : L1Rep ℝ 2), (1 : ℝ))]).Nodup := by simp
  obtain ⟨o, fw, away, ho, hfw, haw, hmaw, hdir, hmax, -⟩ :=
    l1PairwiseLmo_spec (by norm_num : 0 < 2) zero_le_one 0 (-st.grad) st.x [((1, 0), 1)] (by simp)
  obtain ⟨haway, hm1⟩ : away = (1, 0) ∧ o.maxStep = 1 := by simpa using hmaw
  have hu : -st.grad = (!₂[-5 / 2, 1] : EuclideanSpace ℝ (Fin 2)) := by
    rw [hg, hx]
    ext i
    fin_cases i
    · simp [l1Vertex2, l1Vertex, stallC]; norm_num
    · simp [l1Vertex2, l1Vertex, stallC]
  have hu0 : WithLp.ofLp (-st.grad) 0 = -5 / 2 := by rw [hu]; simp
  have hu1 : WithLp.ofLp (-st.grad) 1 = 1 := by rw [hu]; simp
  have hfw' : fw = (-1, 0) := stall_fw hu0 hu1 hmax
  have hcert : (fwLocals (stallArgs N) 0 st o).certificate = 5 := by
    show ⟪o.dir, -st.grad⟫_ℝ = _
    rw [hdir, stall_dir, hfw', haway, hu0]; norm_num
  have hd : o.dir = !₂[-2, 0] := by
    rw [hdir, hfw', haway]
    ext i
    fin_cases i
    · simp [l1Vertex2, l1Vertex]; norm_num
    · simp [l1Vertex2, l1Vertex]
  have hc : ¬ (fwLocals (stallArgs N) 0 st o).certificate ≤ (stallArgs N).tol := by
    rw [hcert]; show ¬ (5 : ℝ) ≤ 0; norm_num
  have hlip : (fwLocals (stallArgs N) 0 st o).lip = 1 := rfl
  have hstep : btStep (fwLocals (stallArgs N) 0 st o).certificate (‖(fwLocals (stallArgs N) 0 st o).dir‖ ^ 2)
      (fwLocals (stallArgs N) 0 st o).lip (fwLocals (stallArgs N) 0 st o).maxStep = 1 := by
    rw [hcert, hlip, show (fwLocals (stallArgs N) 0 st o).maxStep = 1 from hm1,
      show (fwLocals (stallArgs N) 0 st o).dir = !₂[-2, 0] from hd, EuclideanSpace.real_norm_sq_eq]
    unfold btStep btShort
    rw [if_neg]
    simp; norm_num
  have hs := fwStepSize_dr (P := stallArgs N) rfl (by simp [stallArgs]) (fwLocals (stallArgs N) 0 st o) st.oldF hstep
  obtain ⟨a', e, hnd', hget, -, hkeys⟩ := updateActiveSet_ok (V := ℝ) (act := [((1, 0), 1)]) (fw := fw) (away := ((1, 0) : L1Rep ℝ 2))
    hnd zero_le_one (by simp [dGet_cons])
  have hup : fwUpdateActive st.active o 1 = .ok (some a') := by
    unfold fwUpdateActive
    rw [show st.active = some [((1, 0), 1)] from rfl, hfw, haw, haway]
    simp only [e]; rfl
  obtain ⟨st', hb, h1, h2, h3, h4, h5⟩ := fwBody_move (P := stallArgs N) (it := 0) (st := st) ho hc hs rfl hup
  refine ⟨st', hb, ⟨?_, ?_, ?_, a', h4, hnd', ?_, ?_⟩, by rw [h5]; simp⟩
  · rw [h1, hdir, hfw', haway, hx]; simp only [one_smul]; abel
  · rw [h2, h1]; rfl
  · rw [h3]; simp only [hlip]
  · obtain ⟨p, hp, hpe⟩ := List.mem_map.mp (mem_keys_updateActiveSet e)
    have h0 : p.2 = 0 := by
      rw [← dGet_of_mem hnd' hp, hpe, hget, dGet_cons, hfw']; norm_num
    rw [← (Prod.ext hpe h0 : p = ((1, 0), 0))]; exact hp
  · intro p hp hpne
    rcases hkeys p.1 (List.mem_map_of_mem hp) with hk | hk | hk
    · exact absurd (by simpa [keys] using hk) hpne
    · rw [hk, hfw']; norm_num
    · exact absurd hk hpne

/-- **C42 (the stall).** For every iteration limit of at least 2 the witness run returns `x = (-1, 0)`, with a certificate of at
least 3/2 (not below the tolerance 0), although `(-3/4, 1/4)` is in the ball and has a strictly smaller
objective value: after one drop step the dropped vertex is selected as away vertex, with weight 0, for ever. -/
theorem C42_stall (N : ℕ) (hN : 2 ≤ N) : ∃ res, minimizeFrankWolfe (stallArgs N) = .ok res ∧
    res.x = !₂[-1, 0] ∧ 3 / 2 ≤ res.certificate ∧ res.nit + 1 = N ∧
    ∃ y : EuclideanSpace ℝ (Fin 2), WithLp.ofLp y ∈ l1Ball 1 ∧ ((stallArgs N).fg y).1 < ((stallArgs N).fg res.x).1 := by
  have loop : ∀ fuel it st, Stalled st → 1 ≤ fuel → ∃ st' l, fwLoop (stallArgs N) fuel it st = .ok (st', .exhausted) ∧
      Stalled st' ∧ st'.last = some l ∧ l.it + 1 = it + fuel ∧ 3 / 2 ≤ l.certificate := by
    intro fuel
    induction fuel with
    | zero => intro it st _ h; omega
    | succ fuel ih =>
      intro it st h _
      obtain ⟨st1, hb, h1, l, hl, hit, hcert⟩ := stall_body N it h
      rw [fwLoop, hb]
      simp only [bind, Except.bind]
      rcases Nat.eq_zero_or_pos fuel with rfl | hpos
      · exact ⟨st1, l, rfl, h1, hl, by omega, hcert⟩
      · obtain ⟨st', l', e, h2, h3, h4, h5⟩ := ih (it + 1) st1 h1 hpos
        exact ⟨st', l', e, h2, h3, by omega, h5⟩
  obtain ⟨st1, hb, h1, -⟩ := stall_first N
  obtain ⟨M, rfl⟩ : ∃ M, N = M + 1 := ⟨N - 1, by omega⟩
  obtain ⟨st, l, e, hS, hl, hit, hcert⟩ := loop M 1 st1 h1 (by omega)
  have hx : st.x = !₂[-1, 0] := by
    rw [hS.x]
    ext i
    fin_cases i <;> simp [l1Vertex2, l1Vertex]
  have hrun : fwLoop (stallArgs (M + 1)) (M + 1) 0 (fwInit (stallArgs (M + 1)) (some [((1, 0), 1)])) = .ok (st, .exhausted) := by
    rw [fwLoop, hb]
    simp only [bind, Except.bind]
    exact e
  have hact : fwActive0 (stallArgs (M + 1)) = .ok (some [((1, 0), 1)]) := by
    unfold fwActive0
    rw [if_neg (by simp [stallArgs]), if_pos (show (stallArgs (M + 1)).variant = "pairwise" from rfl)]; rfl
  have hmin : minimizeFrankWolfe (stallArgs (M + 1)) = fwFinish (stallArgs (M + 1)) (st, .exhausted) := by
    rw [minimizeFrankWolfe, if_neg (by simp [stallArgs]), hact]
    simp only [bind, Except.bind]
    rw [show (stallArgs (M + 1)).maxIter = M + 1 from rfl, hrun]
  rw [hmin]
  unfold fwFinish
  simp only [hl]
  refine ⟨_, rfl, hx, hcert, by simp only; omega, !₂[-3 / 4, 1 / 4], ?_, ?_⟩
  · show norm1 _ ≤ (1 : ℝ)
    unfold norm1
    rw [Fin.sum_univ_two]
    simp [abs_of_nonneg]
    rw [abs_of_nonpos (by norm_num)]; norm_num
  · simp only [hx]
    show ‖_ - stallC‖ ^ 2 / 2 < ‖_ - stallC‖ ^ 2 / 2
    rw [EuclideanSpace.real_norm_sq_eq, EuclideanSpace.real_norm_sq_eq, Fin.sum_univ_two, Fin.sum_univ_two]
    simp [stallC]
    norm_num

end Copt
