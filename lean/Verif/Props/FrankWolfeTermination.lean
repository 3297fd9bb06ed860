import Verif.Props.FrankWolfe

/-!
# C87, C88: Frank-Wolfe reaches the requested tolerance

`minimize_frank_wolfe` without callback, over a bounded convex set with an exact LMO, for an objective that is smooth and
bounded below on the set (convexity is not needed): if `max_iter` is at least an explicit number the run stops by itself,
with a certificate at most `tol`.
-/

set_option linter.unusedSectionVars false

namespace Copt

open Spec

open scoped InnerProductSpace

variable {E Rep : Type} [NormedAddCommGroup E] [InnerProductSpace ℝ E] [DecidableEq Rep]

/-- What one iteration with certificate above `tol` gains on an objective with constant `L` over a set of diameter `D`. -/
noncomputable def fwGain (tol L D : ℝ) : ℝ := min (tol / 2) (tol ^ 2 / (2 * (L * D ^ 2)))

theorem fwGain_pos {tol L D : ℝ} (h1 : 0 < tol) (h2 : 0 < L) (h3 : 0 < D) : 0 < fwGain tol L D :=
  lt_min (by linarith) (by positivity)

/-- The best decrease over all steps `γ ≤ 1` is at least `fwGain`. -/
theorem fwGain_le {q tol G L D N : ℝ} (htol : 0 < tol) (hG : tol < G) (hL : 0 < L) (hD : 0 < D) (hN : N ≤ D ^ 2)
    (h : ∀ γ, 0 ≤ γ → γ ≤ 1 → q ≤ -(γ * G) + L / 2 * γ ^ 2 * N) : q ≤ -fwGain tol L D := by
  have hLD : 0 < L * D ^ 2 := by positivity
  have key : ∀ γ, 0 ≤ γ → γ ≤ 1 → q ≤ -(γ * tol) + (L * D ^ 2) / 2 * γ ^ 2 := by
    intro γ h0 h1
    have h2 := h γ h0 h1
    have h3 := mul_le_mul_of_nonneg_left hG.le h0
    have h4 := mul_le_mul_of_nonneg_left hN (by positivity : 0 ≤ L / 2 * γ ^ 2)
    linarith
  set B := L * D ^ 2 with hB
  unfold fwGain
  rw [← hB]
  by_cases hc : B ≤ tol
  · have := key 1 zero_le_one le_rfl
    have h5 := min_le_left (tol / 2) (tol ^ 2 / (2 * B))
    linarith
  · have hc := not_le.mp hc
    have := key (tol / B) (by positivity) ((div_le_one hLD).mpr hc.le)
    have h5 := min_le_right (tol / 2) (tol ^ 2 / (2 * B))
    have e : -(tol / B * tol) + B / 2 * (tol / B) ^ 2 = -(tol ^ 2 / (2 * B)) := by field_simp; ring
    linarith

/-- If every iteration gains `δ` and the objective is bounded below, the loop stops with the certificate at most `tol`. -/
theorem fw_reaches (P : FWArgs E Rep) {C : Set E} {f : E → ℝ} {flow δ : ℝ}
    (hlow : ∀ x ∈ C, flow ≤ f x) (hv : P.variant = "vanilla") (htol : 0 ≤ P.tol) (hcb : P.callback = none)
    (hstepok : StepOK P) (hok : ∀ it u x, ∃ o, P.lmo it u x none = .ok o) (hex : ExactLmo C P.lmo)
    (hiter : f P.x0 - flow < P.maxIter * δ)
    (I : ℕ → FWState E Rep → Prop) (hI0 : I 0 (fwInit P none))
    (hI : ∀ it st, I it st → FWBase P it st ∧ st.x ∈ C ∧ f st.x ≤ f P.x0 - it * δ)
    (hstep : ∀ it st st', I it st → fwBody P it st = .ok (st', none) → I (it + 1) st') :
    ∃ res, minimizeFrankWolfe P = .ok res ∧ res.why = .converged ∧ res.certificate ≤ P.tol ∧ res.x ∈ C ∧
      IsFWGap C (P.fg res.x).2 res.x res.certificate ∧ f res.x ≤ f P.x0 - res.nit * δ ∧
      res.nit * δ ≤ f P.x0 - flow := by
  have h0 := hI 0 _ hI0
  have hpos : 1 ≤ P.maxIter := by
    rcases Nat.eq_zero_or_pos P.maxIter with hz | hz
    · have := hlow P.x0 h0.2.1
      rw [hz, Nat.cast_zero, zero_mul] at hiter
      linarith
    · exact hz
  obtain ⟨res, hres⟩ := C43_returns P htol hv hpos hstepok hok
  refine ⟨res, hres, ?_⟩
  obtain ⟨-, act, st, w, ha, hloop, hfin⟩ := minimizeFW_ok hres
  obtain rfl := vanilla_act hv ha
  obtain ⟨l, hl, hrx, hrn, hrc, -, hrw, -⟩ := fwFinish_ok hfin
  have key := fwLoop_induct (P := P) I
    (fun it st w => st.x ∈ C ∧ f st.x ≤ f P.x0 - it * δ ∧ w = .converged ∧ ∃ l, st.last = some l ∧ l.it = it ∧
      l.certificate ≤ P.tol ∧ IsFWGap C (P.fg st.x).2 st.x l.certificate)
    hstep
    (by
      intro it st st' w hIs hb
      obtain ⟨hB, hx, hf⟩ := hI it st hIs
      obtain ⟨o, l, ho, hx', -, hl, hli, -, -, hlc, -, -, -, hw⟩ := fw_stop hB hb
      rcases hw with ⟨hw, hc, -⟩ | ⟨-, -, -, cb, hP, -⟩
      · refine ⟨hx' ▸ hx, hx' ▸ hf, hw, l, hl, hli, hc, ?_⟩
        rw [hx', hlc]
        exact gap_of_exact hex ho
      · rw [hcb] at hP; cases hP)
    P.maxIter 0 _ hI0 st w hloop
  rcases key with ⟨it', -, -, hx, hf, hw, l', hl', hli, hlc, hgap⟩ | ⟨-, hIm⟩
  · rw [hl] at hl'
    simp only [Option.some.injEq] at hl'
    subst hl'
    rw [hrw, hrc, hrx, hrn, hli]
    refine ⟨hw, hlc, hx, hgap, hf, ?_⟩
    have := hlow _ hx
    linarith
  · obtain ⟨-, hx, hf⟩ := hI _ _ hIm
    have := hlow _ hx
    rw [Nat.zero_add] at hf
    linarith

/-- **C87 (Demyanov-Rubinov steps).** With `lipschitz = L` and `step="DR"` the run stops with the certificate - the
Frank-Wolfe gap at the returned point - at most `tol` as soon as
`max_iter * min(tol/2, tol²/(2 L D²)) > f(x0) - inf f`; the number of iterations made is at most
`(f(x0) - inf f) / min(tol/2, tol²/(2 L D²))`. -/
theorem C87_dr (P : FWArgs E Rep) {C : Set E} (hC : Convex ℝ C) {f : E → ℝ} {g : E → E}
    (hfg : ∀ x, (P.fg x).2 = g x) {L D flow : ℝ} (hL : 0 < L) (hDpos : 0 < D)
    (hq : ∀ x ∈ C, ∀ y ∈ C, f y ≤ f x + ⟪g x, y - x⟫_ℝ + L / 2 * ‖y - x‖ ^ 2)
    (hD : ∀ x ∈ C, ∀ y ∈ C, ‖x - y‖ ≤ D) (hlow : ∀ x ∈ C, flow ≤ f x)
    (hv : P.variant = "vanilla") (hx0 : P.x0 ∈ C) (hstep : P.step = .str "DR") (hlip : P.lipschitz = some L)
    (hok : ∀ it u x, ∃ o, P.lmo it u x none = .ok o) (hex : ExactLmo C P.lmo)
    (hmax : ∀ it u x o, P.lmo it u x none = .ok o → o.maxStep = 1) (hcb : P.callback = none) (htol : 0 < P.tol)
    (hiter : f P.x0 - flow < P.maxIter * min (P.tol / 2) (P.tol ^ 2 / (2 * (L * D ^ 2)))) :
    ∃ res, minimizeFrankWolfe P = .ok res ∧ res.why = .converged ∧ res.certificate ≤ P.tol ∧ res.x ∈ C ∧
      IsFWGap C (g res.x) res.x res.certificate ∧
      res.nit * min (P.tol / 2) (P.tol ^ 2 / (2 * (L * D ^ 2))) ≤ f P.x0 - flow := by
  have hso : StepOK P := by
    unfold StepOK; rw [hstep]; exact Or.inr (Or.inl ⟨rfl, by rw [hlip]; simp⟩)
  obtain ⟨res, h1, h2, h3, h4, h5, -, h6⟩ := fw_reaches P hlow hv htol.le hcb hso hok hex hiter
    (fun it st => FWBase P it st ∧ st.x ∈ C ∧ st.lip = some L ∧ f st.x ≤ f P.x0 - it * fwGain P.tol L D)
    ⟨fwBase_init (fun L' h' => by rw [hlip] at h'; cases h'; exact hL.le), hx0, hlip, by simp [fwInit]⟩
    (fun it st h => ⟨h.1, h.2.1, h.2.2.2⟩)
    (by
      rintro it st st' ⟨hB, hx, hl, hf⟩ hb
      have hmax' : ∀ it u x o, P.lmo it u x none = .ok o → 0 ≤ o.maxStep := fun it u x o ho => by
        rw [hmax it u x o ho]; exact zero_le_one
      obtain ⟨o, s, ho, hc, -, -, -, -, -, -, -, hB'⟩ := fw_step htol.le hB hmax' hb
      obtain ⟨a1, a2, v, hvC, hgap, -, hdec⟩ := dr_iteration P hC hfg hL hq hstep hex hmax htol.le hB hx hl hb
      refine ⟨hB', a1, a2, ?_⟩
      have hg2 := gap_of_exact hex ho
      rw [hfg] at hg2 hc
      have hGe : ⟪o.dir, -g st.x⟫_ℝ = ⟪v - st.x, -g st.x⟫_ℝ := hg2.unique hgap
      rw [hGe] at hc
      have := fwGain_le (q := f st'.x - f st.x) htol hc hL hDpos
        (pow_le_pow_left₀ (norm_nonneg _) (hD v hvC _ hx) 2) (fun γ _ hγ => by have := hdec γ hγ; linarith)
      push_cast
      linarith)
  rw [hfg] at h5
  exact ⟨res, h1, h2, h3, h4, h5, h6⟩

/-! ### Backtracking -/

/-- An accepted step satisfies the sufficient decrease test with the final estimate. -/
theorem btLoop_accept (fg : E → ℝ × E) (x d : E) (fT cert normD maxStep : ℝ) (k : ℕ) : ∀ lip,
    let r := btLoop fg x d fT cert normD maxStep k lip
    r.warned = false → r.step = btStep cert normD r.lip maxStep ∧
      r.fNext - fT ≤ btRhs cert normD r.lip maxStep + fwEPS := by
  induction k with
  | zero =>
    intro lip
    rw [btLoop_unfold]
    simp only
    split
    · rename_i h; exact fun _ => ⟨rfl, h⟩
    · intro h; cases h
  | succ k ih =>
    intro lip
    rw [btLoop_unfold]
    simp only
    split
    · rename_i h; exact fun _ => ⟨rfl, h⟩
    · exact ih (lip * 2)

/-- The right-hand side of the test is the best value of the model over steps in `[0, 1]`. -/
theorem btRhs_best {cert normD lip γ : ℝ} (hc : 0 ≤ cert) (hn : 0 ≤ normD) (hl : 0 ≤ lip) (h1 : γ ≤ 1) :
    btRhs cert normD lip 1 ≤ -(γ * cert) + lip / 2 * γ ^ 2 * normD := by
  have hnl : 0 ≤ normD * lip := mul_nonneg hn hl
  rw [btRhs_eq]
  set s := btStep cert normD lip 1 with hs
  unfold btStep at hs
  split at hs
  · rename_i h
    have e : cert = s * (normD * lip) := by rw [hs, div_mul_cancel₀ _ h.1]
    rw [e]
    nlinarith [mul_nonneg hnl (sq_nonneg (γ - s))]
  · rename_i h
    rw [hs]
    by_cases h0 : normD * lip = 0
    · have e1 : lip / 2 * γ ^ 2 * normD = 0 := by
        rw [show lip / 2 * γ ^ 2 * normD = γ ^ 2 / 2 * (normD * lip) by ring, h0, mul_zero]
      have e2 : 1 / 2 * (1 : ℝ) ^ 2 * lip * normD = 0 := by
        rw [show 1 / 2 * (1 : ℝ) ^ 2 * lip * normD = 1 / 2 * (normD * lip) by ring, h0, mul_zero]
      rw [e1, e2]
      have := mul_le_mul_of_nonneg_right h1 hc
      linarith
    · have hp : 0 < normD * lip := lt_of_le_of_ne hnl (Ne.symm h0)
      have hge : normD * lip ≤ cert := by
        have : ¬ cert / (normD * lip) < 1 := fun hh => h ⟨h0, hh⟩
        rw [not_lt, le_div_iff₀ hp] at this
        linarith
      have h3 : 0 ≤ (1 - γ) * (cert - normD * lip) := mul_nonneg (by linarith) (by linarith)
      have h4 : 0 ≤ normD * lip * (1 - γ) ^ 2 := by positivity
      nlinarith

/-- One iteration with backtracking, from an estimate `ℓ` with `L ≤ 2^99 * 0.9 * ℓ`. -/
theorem bt_iteration (P : FWArgs E Rep) {C : Set E} (hC : Convex ℝ C) {f : E → ℝ} {g : E → E}
    (hfg : P.fg = fun x => (f x, g x)) {L D M l : ℝ} (hDpos : 0 < D)
    (hq : ∀ x ∈ C, ∀ y ∈ C, f y ≤ f x + ⟪g x, y - x⟫_ℝ + L / 2 * ‖y - x‖ ^ 2)
    (hD : ∀ x ∈ C, ∀ y ∈ C, ‖x - y‖ ≤ D)
    (hstep : P.step = .str "backtracking") (hex : ExactLmo C P.lmo)
    (hmax : ∀ it u x o, P.lmo it u x none = .ok o → o.maxStep = 1) (htol : 0 < P.tol)
    {it : ℕ} {st st' : FWState E Rep} (hB : FWBase P it st) (hx : st.x ∈ C)
    (hl : ∀ o, P.lmo it (-g st.x) st.x none = .ok o → P.tol < ⟪o.dir, -g st.x⟫_ℝ →
      l ≤ fwLip P st o.dir ∧ fwLip P st o.dir ≤ M)
    (hl0 : 0 ≤ l) (hM : 0 < M) (hLM : 2 * L ≤ M) (hLl : L ≤ 2 ^ 99 * (9 / 10 * l))
    (hb : fwBody P it st = .ok (st', none)) :
    st'.x ∈ C ∧ (∃ l', st'.lip = some l' ∧ 9 / 10 * l ≤ l' ∧ l' ≤ M) ∧
      f st'.x ≤ f st.x - (fwGain P.tol M D - fwEPS) := by
  have hmax' : ∀ it u x o, P.lmo it u x none = .ok o → 0 ≤ o.maxStep := fun it u x o ho => by
    rw [hmax it u x o ho]; exact zero_le_one
  obtain ⟨o, s, ho, hc, hs, -, hx', -, -, -⟩ := fw_step htol.le hB hmax' hb
  obtain ⟨o2, s2, ho2, -, hs2, -, hm⟩ := fwBody_none hb
  obtain ⟨act, -, hst'⟩ := fwMove_ok hm
  obtain ⟨v, hvC, hdir, -⟩ := hex _ _ _ _ ho
  have hgst : st.grad = (P.fg st.x).2 := by rw [← hB.fg]
  have hfst : st.fT = (P.fg st.x).1 := by rw [← hB.fg]
  rw [hgst, hB.act, ho] at ho2
  simp only [Except.ok.injEq] at ho2
  subst ho2
  rw [hs] at hs2
  simp only [Except.ok.injEq] at hs2
  subst hs2
  have hg : (P.fg st.x).2 = g st.x := by rw [hfg]
  have hf : (P.fg st.x).1 = f st.x := by rw [hfg]
  rw [hg] at ho hc
  obtain ⟨hl1, hl2⟩ := hl o ho hc
  have hm1 := hmax _ _ _ _ ho
  set d := o.dir with hd
  set ℓ := fwLip P st d with hℓ
  have hℓ0 : 0 ≤ ℓ := le_trans hl0 hl1
  have hpos : 0 < ⟪d, -g st.x⟫_ℝ := by linarith
  set cert := ⟪d, -g st.x⟫_ℝ with hcert
  have hcertE : (fwLocals P it st o).certificate = cert := by
    show ⟪o.dir, -st.grad⟫_ℝ = _
    rw [hgst, hg]
  unfold fwStepSize at hs
  rw [hstep] at hs
  simp only [if_true, Except.ok.injEq] at hs
  rw [hcertE] at hs
  change FWStepOut.mk (backtrackingStepSize st.x st.fT st.oldF P.fg cert ℓ o.maxStep d (‖d‖ ^ 2)).step
    (backtrackingStepSize st.x st.fT st.oldF P.fg cert ℓ o.maxStep d (‖d‖ ^ 2)).lip
    (backtrackingStepSize st.x st.fT st.oldF P.fg cert ℓ o.maxStep d (‖d‖ ^ 2)).fNext
    (backtrackingStepSize st.x st.fT st.oldF P.fg cert ℓ o.maxStep d (‖d‖ ^ 2)).gradNext = s at hs
  rw [hm1, hfst, hf] at hs
  have hb0 := btInit_bounds hℓ0 st.oldF (f st.x) cert (‖d‖ ^ 2)
  set ℓ0 := btInit st.oldF (f st.x) cert (‖d‖ ^ 2) ℓ with hℓ0e
  set r := btLoop P.fg st.x d (f st.x) cert (‖d‖ ^ 2) 1 99 ℓ0 with hr
  have hrs : s.step = r.step ∧ s.lip = r.lip ∧ s.fNext = r.fNext := by
    rw [← hs]; exact ⟨rfl, rfl, rfl⟩
  have hsm := btLoop_smooth P.fg st.x d (f st.x) (L := L) hpos (sq_nonneg ‖d‖) zero_le_one (fun s h0 h1 => by
    have hxs : st.x + s • d ∈ C := by rw [hdir]; exact hC.add_smul_sub_mem hx hvC ⟨h0, h1⟩
    have := hq _ hx _ hxs
    rw [add_sub_cancel_left, inner_smul_right, norm_smul, mul_pow, Real.norm_eq_abs, sq_abs] at this
    have hin : ⟪g st.x, d⟫_ℝ = -cert := by rw [hcert, inner_neg_right, real_inner_comm]; ring
    rw [hin] at this
    rw [hfg]
    show f (st.x + s • d) ≤ _
    linarith) 99 ℓ0 (by linarith) (by
      refine le_trans hLl (mul_le_mul_of_nonneg_left ?_ (by positivity))
      linarith)
  have hsp := btLoop_spec P.fg st.x d (f st.x) hpos (sq_nonneg ‖d‖) zero_le_one 99 ℓ0 (by linarith)
  have hac := btLoop_accept P.fg st.x d (f st.x) cert (‖d‖ ^ 2) 1 99 ℓ0
  rw [← hr] at hsm hsp hac
  obtain ⟨hw, hub⟩ := hsm
  obtain ⟨h1, h2, h3, h4, -⟩ := hsp
  obtain ⟨-, h5⟩ := hac hw
  have hrM : r.lip ≤ M := le_trans hub (max_le (by linarith) hLM)
  have hr0 : 0 ≤ r.lip := by linarith
  have hxC : st'.x ∈ C := by
    rw [hx', hrs.1, hdir]; exact hC.add_smul_sub_mem hx hvC ⟨h1, h2⟩
  refine ⟨hxC, ⟨s.lip, by rw [hst'], by rw [hrs.2.1]; linarith, by rw [hrs.2.1]; exact hrM⟩, ?_⟩
  have hfn : f st'.x = r.fNext := by
    rw [hx', hrs.1]
    have := congrArg Prod.fst h4
    simp only [hfg] at this
    exact this.symm
  have hN : ‖d‖ ^ 2 ≤ D ^ 2 := by
    rw [hdir]; exact pow_le_pow_left₀ (norm_nonneg _) (hD v hvC _ hx) 2
  have := fwGain_le (q := btRhs cert (‖d‖ ^ 2) r.lip 1) htol hc hM hDpos hN (fun γ h0 hγ => by
    refine le_trans (btRhs_best hpos.le (sq_nonneg _) hr0 hγ) ?_
    have : r.lip / 2 * γ ^ 2 * ‖d‖ ^ 2 ≤ M / 2 * γ ^ 2 * ‖d‖ ^ 2 := by
      have := mul_nonneg (sq_nonneg γ) (sq_nonneg ‖d‖)
      nlinarith
    linarith)
  rw [hfn]
  linarith

/-- Common part of the backtracking theorems: the first estimate is between `l0` and `M`. -/
theorem bt_reaches (P : FWArgs E Rep) {C : Set E} (hC : Convex ℝ C) {f : E → ℝ} {g : E → E}
    (hfg : P.fg = fun x => (f x, g x)) {L D flow M l0 : ℝ} (hDpos : 0 < D)
    (hq : ∀ x ∈ C, ∀ y ∈ C, f y ≤ f x + ⟪g x, y - x⟫_ℝ + L / 2 * ‖y - x‖ ^ 2)
    (hD : ∀ x ∈ C, ∀ y ∈ C, ‖x - y‖ ≤ D) (hlow : ∀ x ∈ C, flow ≤ f x)
    (hv : P.variant = "vanilla") (hx0 : P.x0 ∈ C) (hstep : P.step = .str "backtracking")
    (hok : ∀ it u x, ∃ o, P.lmo it u x none = .ok o) (hex : ExactLmo C P.lmo)
    (hmax : ∀ it u x o, P.lmo it u x none = .ok o → o.maxStep = 1) (hcb : P.callback = none) (htol : 0 < P.tol)
    (hlip : ∀ l, P.lipschitz = some l → 0 ≤ l)
    (hl : ∀ o, P.lmo 0 (-g P.x0) P.x0 none = .ok o → P.tol < ⟪o.dir, -g P.x0⟫_ℝ →
      l0 ≤ fwLip P (fwInit P none) o.dir ∧ fwLip P (fwInit P none) o.dir ≤ M)
    (hl0 : 0 < l0) (hM : 0 < M) (hLM : 2 * L ≤ M) (hδ : fwEPS < fwGain P.tol M D)
    {N : ℕ} (hNm : N ≤ P.maxIter) (hiter : f P.x0 - flow < N * (fwGain P.tol M D - fwEPS))
    (hN : L ≤ 2 ^ 99 * (9 / 10) ^ N * l0) :
    ∃ res, minimizeFrankWolfe P = .ok res ∧ res.why = .converged ∧ res.certificate ≤ P.tol ∧ res.x ∈ C ∧
      IsFWGap C (g res.x) res.x res.certificate ∧ res.nit * (fwGain P.tol M D - fwEPS) ≤ f P.x0 - flow := by
  have hso : StepOK P := by unfold StepOK; rw [hstep]; exact Or.inl rfl
  have hδ' : 0 < fwGain P.tol M D - fwEPS := by linarith
  set δ := fwGain P.tol M D - fwEPS with hδe
  have hiter' : f P.x0 - flow < P.maxIter * δ :=
    lt_of_lt_of_le hiter (mul_le_mul_of_nonneg_right (by exact_mod_cast hNm) hδ'.le)
  obtain ⟨res, h1, h2, h3, h4, h5, -, h6⟩ := fw_reaches P hlow hv htol.le hcb hso hok hex hiter'
    (fun it st => FWBase P it st ∧ st.x ∈ C ∧ f st.x ≤ f P.x0 - it * δ ∧
      ∀ o, P.lmo it (-g st.x) st.x none = .ok o → P.tol < ⟪o.dir, -g st.x⟫_ℝ →
        (9 / 10) ^ it * l0 ≤ fwLip P st o.dir ∧ fwLip P st o.dir ≤ M)
    ⟨fwBase_init hlip, hx0, by simp [fwInit], by
      intro o ho hc; rw [pow_zero, one_mul]; exact hl o ho hc⟩
    (fun it st h => ⟨h.1, h.2.1, h.2.2.1⟩)
    (by
      rintro it st st' ⟨hB, hx, hf, hll⟩ hb
      have hitN : it + 1 ≤ N := by
        have h7 := hlow _ hx
        have h8 : (it : ℝ) * δ < N * δ := by linarith
        have h9 := lt_of_mul_lt_mul_right h8 hδ'.le
        exact_mod_cast h9
      have hmax' : ∀ it u x o, P.lmo it u x none = .ok o → 0 ≤ o.maxStep := fun it u x o ho => by
        rw [hmax it u x o ho]; exact zero_le_one
      obtain ⟨_, _, _, _, _, _, _, _, _, _, _, hB'⟩ := fw_step htol.le hB hmax' hb
      have hLl : L ≤ 2 ^ 99 * (9 / 10 * ((9 / 10) ^ it * l0)) := by
        refine le_trans hN ?_
        have : (9 / 10 : ℝ) ^ N ≤ (9 / 10) ^ (it + 1) := pow_le_pow_of_le_one (by norm_num) (by norm_num) hitN
        have h2 := mul_le_mul_of_nonneg_right this hl0.le
        rw [pow_succ] at h2
        have h3 := mul_le_mul_of_nonneg_left h2 (by positivity : (0:ℝ) ≤ 2 ^ 99)
        linarith
      obtain ⟨a1, ⟨l', a2, a3, a4⟩, a5⟩ := bt_iteration P hC hfg hDpos hq hD hstep hex hmax htol hB hx hll
        (by positivity) hM hLM hLl hb
      refine ⟨hB', a1, by push_cast; linarith, fun o _ _ => ?_⟩
      have e : fwLip P st' o.dir = l' := by rw [fwLip, a2]
      rw [e, pow_succ]
      exact ⟨by linarith, a4⟩)
  rw [hfg] at h5
  exact ⟨res, h1, h2, h3, h4, h5, h6⟩

/-- **C87 (backtracking).** With an initial estimate `lipschitz = l0 > 0` and `step="backtracking"` every iteration gains
`δ = min(tol/2, tol²/(2 M D²)) - EPS` where `M = max(l0, 2 L)` and `EPS = 2⁻²³` is the slack of the line search.  If `δ > 0`
and `N δ > f(x0) - inf f` for some `N ≤ max_iter` the run stops with the certificate at most `tol`.  The last hypothesis on
`N` is about the line search: the estimate may shrink by 10% per iteration and is doubled at most 99 times. -/
theorem C87_backtracking (P : FWArgs E Rep) {C : Set E} (hC : Convex ℝ C) {f : E → ℝ} {g : E → E}
    (hfg : P.fg = fun x => (f x, g x)) {L D flow l0 : ℝ} (hDpos : 0 < D)
    (hq : ∀ x ∈ C, ∀ y ∈ C, f y ≤ f x + ⟪g x, y - x⟫_ℝ + L / 2 * ‖y - x‖ ^ 2)
    (hD : ∀ x ∈ C, ∀ y ∈ C, ‖x - y‖ ≤ D) (hlow : ∀ x ∈ C, flow ≤ f x)
    (hv : P.variant = "vanilla") (hx0 : P.x0 ∈ C) (hstep : P.step = .str "backtracking")
    (hlip : P.lipschitz = some l0) (hl0 : 0 < l0)
    (hok : ∀ it u x, ∃ o, P.lmo it u x none = .ok o) (hex : ExactLmo C P.lmo)
    (hmax : ∀ it u x o, P.lmo it u x none = .ok o → o.maxStep = 1) (hcb : P.callback = none) (htol : 0 < P.tol)
    {M δ : ℝ} (hM : M = max l0 (2 * L)) (hδe : δ = min (P.tol / 2) (P.tol ^ 2 / (2 * (M * D ^ 2))) - 2⁻¹ ^ 23) (hδ : 0 < δ)
    {N : ℕ} (hNm : N ≤ P.maxIter) (hiter : f P.x0 - flow < N * δ) (hN : L ≤ 2 ^ 99 * (9 / 10) ^ N * l0) :
    ∃ res, minimizeFrankWolfe P = .ok res ∧ res.why = .converged ∧ res.certificate ≤ P.tol ∧ res.x ∈ C ∧
      IsFWGap C (g res.x) res.x res.certificate ∧ res.nit * δ ≤ f P.x0 - flow := by
  have e : δ = fwGain P.tol M D - fwEPS := hδe
  have hM0 : 0 < M := by rw [hM]; exact lt_max_of_lt_left hl0
  rw [e] at hiter ⊢
  refine bt_reaches P hC hfg hDpos hq hD hlow hv hx0 hstep hok hex hmax hcb htol
    (fun l h => by rw [hlip] at h; cases h; exact hl0.le) (fun o _ _ => ?_) hl0 hM0 (hM ▸ le_max_right _ _)
    (by linarith) hNm hiter hN
  have : fwLip P (fwInit P none) o.dir = l0 := by rw [fwLip, fwInit, hlip]
  rw [this]
  exact ⟨le_rfl, hM ▸ le_max_left _ _⟩

/-- **C88 (partial).** The default arguments (`step="backtracking"`, `lipschitz=None`): the initial estimate is a difference
quotient of the gradient.  If the gradient is `L`-Lipschitz on the set and that quotient is at least `l0 > 0`, where
`L ≤ 2^99 * 0.9^N * l0`, the run reaches the tolerance as in C87 with `M = 2 L`.  Missing: objectives whose gradient does not
change near `x0` (estimate 0), for which the claim is false (`C88_refuted`). -/
theorem C88_partial (P : FWArgs E Rep) {C : Set E} (hC : Convex ℝ C) {f : E → ℝ} {g : E → E}
    (hfg : P.fg = fun x => (f x, g x)) {L D flow l0 : ℝ} (hL : 0 < L) (hDpos : 0 < D)
    (hq : ∀ x ∈ C, ∀ y ∈ C, f y ≤ f x + ⟪g x, y - x⟫_ℝ + L / 2 * ‖y - x‖ ^ 2)
    (hgl : ∀ x ∈ C, ∀ y ∈ C, ‖g x - g y‖ ≤ L * ‖x - y‖)
    (hD : ∀ x ∈ C, ∀ y ∈ C, ‖x - y‖ ≤ D) (hlow : ∀ x ∈ C, flow ≤ f x)
    (hv : P.variant = "vanilla") (hx0 : P.x0 ∈ C) (hstep : P.step = .str "backtracking")
    (hlip : P.lipschitz = none) (hl0 : 0 < l0)
    (hest : ∀ o, P.lmo 0 (-g P.x0) P.x0 none = .ok o → P.tol < ⟪o.dir, -g P.x0⟫_ℝ →
      l0 * (1e-3 * ‖o.dir‖) ≤ ‖g P.x0 - g (P.x0 + (1e-3 : ℝ) • o.dir)‖)
    (hok : ∀ it u x, ∃ o, P.lmo it u x none = .ok o) (hex : ExactLmo C P.lmo)
    (hmax : ∀ it u x o, P.lmo it u x none = .ok o → o.maxStep = 1) (hcb : P.callback = none) (htol : 0 < P.tol)
    {δ : ℝ} (hδe : δ = min (P.tol / 2) (P.tol ^ 2 / (2 * (2 * L * D ^ 2))) - 2⁻¹ ^ 23) (hδ : 0 < δ)
    {N : ℕ} (hNm : N ≤ P.maxIter) (hiter : f P.x0 - flow < N * δ) (hN : L ≤ 2 ^ 99 * (9 / 10) ^ N * l0) :
    ∃ res, minimizeFrankWolfe P = .ok res ∧ res.why = .converged ∧ res.certificate ≤ P.tol ∧ res.x ∈ C ∧
      IsFWGap C (g res.x) res.x res.certificate ∧ res.nit * δ ≤ f P.x0 - flow := by
  have e : δ = fwGain P.tol (2 * L) D - fwEPS := hδe
  rw [e] at hiter ⊢
  refine bt_reaches P hC hfg hDpos hq hD hlow hv hx0 hstep hok hex hmax hcb htol
    (fun l h => by rw [hlip] at h; cases h) (fun o ho hc => ?_) hl0 (by linarith) le_rfl
    (by linarith) hNm hiter hN
  have hfl : fwLip P (fwInit P none) o.dir = ‖g P.x0 - g (P.x0 + (1e-3 : ℝ) • o.dir)‖ / (1e-3 * ‖o.dir‖) := by
    rw [fwLip, fwInit, hlip]
    simp only [hfg, Real.sqrt_sq (norm_nonneg _)]
  have hd : 0 < ‖o.dir‖ := by
    rw [norm_pos_iff]
    rintro h
    rw [h, inner_zero_left] at hc
    linarith
  have hp : (0:ℝ) < 1e-3 * ‖o.dir‖ := by positivity
  rw [hfl]
  refine ⟨(le_div_iff₀ hp).mpr (hest o ho hc), (div_le_iff₀ hp).mpr ?_⟩
  obtain ⟨v, hvC, hdir, -⟩ := hex _ _ _ _ ho
  have hxs : P.x0 + (1e-3 : ℝ) • o.dir ∈ C := by
    rw [hdir]; exact hC.add_smul_sub_mem hx0 hvC ⟨by norm_num, by norm_num⟩
  refine le_trans (hgl _ hx0 _ hxs) ?_
  rw [sub_add_cancel_left, norm_neg, norm_smul, Real.norm_eq_abs, abs_of_pos (by norm_num : (0:ℝ) < 1e-3)]
  nlinarith

/-! ### C88 fails when the initial estimate is 0 -/

/-- With estimate 0 the line search tries the maximal step 100 times. -/
theorem btLoop_zero (fg : E → ℝ × E) (x d : E) (fT cert normD : ℝ) (h : -cert + fwEPS < (fg (x + d)).1 - fT) (k : ℕ) :
    btLoop fg x d fT cert normD 1 k 0 = ⟨1, 0, (fg (x + d)).1, (fg (x + d)).2, true⟩ := by
  have hs : ¬ btShort cert normD 0 1 := fun h => h.1 (mul_zero _)
  have h1 : btStep cert normD 0 1 = 1 := by rw [btStep, if_neg hs]
  have h2 : btRhs cert normD 0 1 = -cert := by rw [btRhs, if_neg hs]; ring
  induction k with
  | zero =>
    rw [btLoop_unfold]
    simp only [h1, h2, one_smul, zero_mul]
    rw [if_neg (not_le.mpr h)]
  | succ k ih =>
    rw [btLoop_unfold]
    simp only [h1, h2, one_smul, zero_mul]
    rw [if_neg (not_le.mpr h), ih]

/-- A convex objective on `[-1, 1]`: `-x` for `x ≤ 0`, `-x + 5 x²` for `x ≥ 0`. -/
noncomputable def cycF (x : ℝ) : ℝ := -x + 5 * max x 0 ^ 2

/-- Its derivative. -/
noncomputable def cycG (x : ℝ) : ℝ := -1 + 10 * max x 0

/-- Its minimisation over `[-1, 1]` from -1, with the default `step` and `lipschitz`. -/
noncomputable def cycArgs (n : ℕ) (tol : ℝ) : FWArgs ℝ Unit :=
  { fg := fun x => (cycF x, cycG x), x0 := -1, lmo := intervalLmo, x0Rep := none, variant := "vanilla",
    step := .str "backtracking", lipschitz := none, maxIter := n, tol := tol, callback := none }

theorem cycF_bounds (x y : ℝ) : cycF x + cycG x * (y - x) ≤ cycF y ∧
    cycF y ≤ cycF x + cycG x * (y - x) + 10 / 2 * ‖y - x‖ ^ 2 := by
  rw [Real.norm_eq_abs, sq_abs]
  unfold cycF cycG
  rcases le_total x 0 with hx | hx <;> rcases le_total y 0 with hy | hy
  · rw [max_eq_right hx, max_eq_right hy]; constructor <;> nlinarith [sq_nonneg (x - y)]
  · rw [max_eq_right hx, max_eq_left hy]; constructor <;> nlinarith [sq_nonneg (x - y)]
  · rw [max_eq_left hx, max_eq_right hy]; constructor <;> nlinarith [sq_nonneg (x - y), mul_nonneg hx (neg_nonneg.mpr hy)]
  · rw [max_eq_left hx, max_eq_left hy]; constructor <;> nlinarith [sq_nonneg (x - y)]

theorem cycG_lip (x y : ℝ) : ‖cycG x - cycG y‖ ≤ 10 * ‖x - y‖ := by
  unfold cycG
  have : |max x 0 - max y 0| ≤ |x - y| := abs_max_sub_max_le_abs x y 0
  rw [show -1 + 10 * max x 0 - (-1 + 10 * max y 0) = 10 * (max x 0 - max y 0) by ring, norm_mul, Real.norm_eq_abs,
    Real.norm_eq_abs, Real.norm_eq_abs, abs_of_pos (by norm_num : (0:ℝ) < 10)]
  linarith

/-- One iteration jumps to the other end of the interval. -/
theorem cyc_body (n : ℕ) {tol : ℝ} (htol : tol < 2) (it : ℕ) (st : FWState ℝ Unit) (hB : FWBase (cycArgs n tol) it st)
    (hx : st.x = -1 ∨ st.x = 1) (hl : ∀ d, (d = 2 ∨ d = -2) → fwLip (cycArgs n tol) st d = 0)
    {st' : FWState ℝ Unit} {w : Option FWWhy} (hb : fwBody (cycArgs n tol) it st = .ok (st', w)) :
    w = none ∧ (st'.x = -1 ∨ st'.x = 1) ∧ st'.lip = some 0 ∧ ∃ l, st'.last = some l ∧ (l.certificate = 2 ∨ l.certificate = 18) := by
  have e : ∀ a b : ℝ, ⟪a, b⟫_ℝ = b * a := fun _ _ => rfl
  have hE : fwEPS < 1 := by
    unfold fwEPS
    exact pow_lt_one₀ (by norm_num) (by norm_num) (by norm_num)
  have hg : st.grad = cycG st.x := congrArg Prod.snd hB.fg
  have hf : st.fT = cycF st.x := congrArg Prod.fst hB.fg
  obtain ⟨d, c, hd, hc, hlmo, hdc, hxd, hdec⟩ : ∃ d c : ℝ, (d = 2 ∨ d = -2) ∧ (c = 2 ∨ c = 18) ∧
      (∀ o, (cycArgs n tol).lmo it (-st.grad) st.x st.active = .ok o → o.dir = d ∧ o.maxStep = 1) ∧
      ⟪d, -st.grad⟫_ℝ = c ∧ (st.x + d = -1 ∨ st.x + d = 1) ∧ -c + fwEPS < cycF (st.x + d) - cycF st.x := by
    rcases hx with hx | hx
    · have hgv : st.grad = -1 := by rw [hg, hx]; norm_num [cycG]
      refine ⟨2, 2, Or.inl rfl, Or.inl rfl, fun o ho => ?_, by rw [e, hgv]; norm_num, Or.inr (by rw [hx]; norm_num), ?_⟩
      · simp only [cycArgs, intervalLmo, Except.ok.injEq] at ho
        rw [← ho, hgv, hx, if_pos (by norm_num : (0:ℝ) ≤ - -1)]
        exact ⟨by norm_num, rfl⟩
      · rw [hx]
        have e1 : cycF (-1 + 2) = 4 := by norm_num [cycF]
        have e2 : cycF (-1) = 1 := by norm_num [cycF]
        rw [e1, e2]; linarith
    · have hgv : st.grad = 9 := by rw [hg, hx]; norm_num [cycG]
      refine ⟨-2, 18, Or.inr rfl, Or.inr rfl, fun o ho => ?_, by rw [e, hgv]; norm_num, Or.inl (by rw [hx]; norm_num), ?_⟩
      · simp only [cycArgs, intervalLmo, Except.ok.injEq] at ho
        rw [← ho, hgv, hx, if_neg (by norm_num : ¬ (0:ℝ) ≤ -9)]
        exact ⟨by norm_num, rfl⟩
      · rw [hx]
        have e1 : cycF (1 + -2) = 1 := by norm_num [cycF]
        have e2 : cycF 1 = 4 := by norm_num [cycF]
        rw [e1, e2]; linarith
  have hc2 : 2 ≤ c := by rcases hc with rfl | rfl <;> norm_num
  cases w with
  | some w =>
    exfalso
    obtain ⟨o, ho, hor⟩ := fwBody_some hb
    rcases hor with ⟨-, hle, -⟩ | ⟨-, -, s, cb, -, hP, -⟩
    · rw [(hlmo o ho).1, hdc] at hle
      have : (cycArgs n tol).tol = tol := rfl
      linarith
    · cases hP
  | none =>
    obtain ⟨o, s, ho, -, hs, -, hm⟩ := fwBody_none hb
    obtain ⟨act, -, rfl⟩ := fwMove_ok hm
    obtain ⟨ho1, ho2⟩ := hlmo o ho
    have hl0 : fwLip (cycArgs n tol) st o.dir = 0 := by rw [ho1]; exact hl d hd
    have hinit : btInit st.oldF st.fT c (‖d‖ ^ 2) 0 = 0 :=
      le_antisymm (btInit_bounds le_rfl _ _ _ _).2 (by have := (btInit_bounds le_rfl st.oldF st.fT c (‖d‖ ^ 2)).1; linarith)
    have hcE : (fwLocals (cycArgs n tol) it st o).certificate = c := by
      show ⟪o.dir, -st.grad⟫_ℝ = c
      rw [ho1, hdc]
    have hlE : (fwLocals (cycArgs n tol) it st o).lip = 0 := hl0
    have hbt : backtrackingStepSize st.x st.fT st.oldF (cycArgs n tol).fg c 0 1 d (‖d‖ ^ 2) =
        ⟨1, 0, cycF (st.x + d), cycG (st.x + d), true⟩ := by
      unfold backtrackingStepSize
      rw [hinit, btLoop_zero _ _ _ _ _ _ (by rw [hf]; exact hdec)]
      rfl
    have hs' : s = ⟨1, 0, cycF (st.x + d), cycG (st.x + d)⟩ := by
      unfold fwStepSize at hs
      simp only [show (cycArgs n tol).step = .str "backtracking" from rfl, if_true, Except.ok.injEq] at hs
      rw [hcE, hlE] at hs
      change FWStepOut.mk (backtrackingStepSize st.x st.fT st.oldF (cycArgs n tol).fg c 0 o.maxStep o.dir (‖o.dir‖ ^ 2)).step
        (backtrackingStepSize st.x st.fT st.oldF (cycArgs n tol).fg c 0 o.maxStep o.dir (‖o.dir‖ ^ 2)).lip
        (backtrackingStepSize st.x st.fT st.oldF (cycArgs n tol).fg c 0 o.maxStep o.dir (‖o.dir‖ ^ 2)).fNext
        (backtrackingStepSize st.x st.fT st.oldF (cycArgs n tol).fg c 0 o.maxStep o.dir (‖o.dir‖ ^ 2)).gradNext = s at hs
      rw [ho1, ho2, hbt] at hs
      exact hs.symm
    subst hs'
    refine ⟨rfl, ?_, rfl, _, rfl, ?_⟩
    · simp only [one_smul, ho1]; exact hxd
    · show (fwLocals (cycArgs n tol) it st o).certificate = 2 ∨ _
      rw [hcE]; exact hc

/-- **C88 (refuted).** For every `max_iter ≥ 1` and `0 ≤ tol < 2` the run with the default `step` and `lipschitz` jumps between the ends
of `[-1, 1]` until the iterations are exhausted: the objective is convex, its derivative is 10-Lipschitz, the LMO is exact, and
the returned value is at least 1 although the minimum is below 0.  (The gradient does not change near `x0`, so the estimate of
the Lipschitz constant is 0, and doubling it does not help.) -/
theorem C88_refuted (n : ℕ) (hn : 1 ≤ n) {tol : ℝ} (h0 : 0 ≤ tol) (htol : tol < 2) :
    ExactLmo (Set.Icc (-1 : ℝ) 1) (cycArgs n tol).lmo ∧
    (∀ x y, cycF x + ⟪cycG x, y - x⟫_ℝ ≤ cycF y ∧ ‖cycG x - cycG y‖ ≤ 10 * ‖x - y‖) ∧
    ∃ res, minimizeFrankWolfe (cycArgs n tol) = .ok res ∧ res.why = .exhausted ∧ res.nit + 1 = n ∧ tol < res.certificate ∧
      cycF (1 / 10) + 1 < cycF res.x := by
  have e : ∀ a b : ℝ, ⟪a, b⟫_ℝ = b * a := fun _ _ => rfl
  refine ⟨intervalLmo_exact, fun x y => ⟨by rw [e, mul_comm]; exact (cycF_bounds x y).1, cycG_lip x y⟩, ?_⟩
  obtain ⟨res, hres⟩ := C43_returns (cycArgs n tol) h0 rfl hn (Or.inl rfl) (fun it u x => ⟨_, rfl⟩)
  refine ⟨res, hres, ?_⟩
  have hmax : ∀ it u x o, (cycArgs n tol).lmo it u x none = .ok o → 0 ≤ o.maxStep := by
    intro it u x o ho
    simp only [cycArgs, intervalLmo, Except.ok.injEq] at ho
    rw [← ho]; exact zero_le_one
  have hnit := C43_callback (cycArgs n tol) rfl (fun L h => by cases h) hmax hres
  obtain ⟨-, act, st, w, ha, hloop, hfin⟩ := minimizeFW_ok hres
  obtain rfl := vanilla_act rfl ha
  obtain ⟨l, hl, hrx, hrn, hrc, -, hrw, -⟩ := fwFinish_ok hfin
  have key := fwLoop_induct (P := cycArgs n tol)
    (fun it st => FWBase (cycArgs n tol) it st ∧ (st.x = -1 ∨ st.x = 1) ∧
      (∀ d, (d = 2 ∨ d = -2) → fwLip (cycArgs n tol) st d = 0) ∧
      (it ≠ 0 → ∃ l, st.last = some l ∧ (l.certificate = 2 ∨ l.certificate = 18)))
    (fun _ _ _ => False)
    (by
      rintro it st st' ⟨hB, hx, hl, -⟩ hb
      obtain ⟨_, _, _, _, _, _, _, _, _, _, _, hB'⟩ := fw_step h0 hB hmax hb
      obtain ⟨-, h1, h2, h3⟩ := cyc_body n htol it st hB hx hl hb
      exact ⟨hB', h1, fun d _ => by rw [fwLip, h2], fun _ => h3⟩)
    (by
      rintro it st st' w ⟨hB, hx, hl, -⟩ hb
      have := (cyc_body n htol it st hB hx hl hb).1
      cases this)
    (cycArgs n tol).maxIter 0 _
    ⟨fwBase_init (fun L h => by cases h), Or.inl rfl, by
      intro d hd
      have h1 : cycG (-1) = -1 := by norm_num [cycG]
      have h2 : cycG (-1 + (1e-3 : ℝ) • d) = -1 := by
        unfold cycG
        rw [max_eq_right (by rcases hd with rfl | rfl <;> norm_num)]; norm_num
      show ‖cycG (-1) - cycG (-1 + (1e-3 : ℝ) • d)‖ / _ = 0
      rw [h1, h2, sub_self, norm_zero, zero_div], fun h => absurd rfl h⟩ st w hloop
  rcases key with ⟨_, -, -, hf⟩ | ⟨hw, -, hx, -, hlast⟩
  · exact hf.elim
  · obtain ⟨l', hl', hc⟩ := hlast (by show 0 + n ≠ 0; omega)
    rw [hl] at hl'
    simp only [Option.some.injEq] at hl'
    subst hl'
    rw [hrw, hrc, hrx]
    refine ⟨hw, hnit.2.1 (hrw.trans hw), by rcases hc with h | h <;> rw [h] <;> linarith, ?_⟩
    have e0 : cycF (1 / 10) = -(1 / 20) := by unfold cycF; rw [max_eq_left (by norm_num)]; norm_num
    rcases hx with h | h <;> rw [h, e0]
    · have : cycF (-1) = 1 := by norm_num [cycF]
      rw [this]; norm_num
    · have : cycF 1 = 4 := by norm_num [cycF]
      rw [this]; norm_num

/-! ### Instances -/

/-- The quadratic `x²/2` over `[-1, 1]` from 1. -/
noncomputable def halfSqArgs (step : String) (lip : Option ℝ) (n : ℕ) : FWArgs ℝ Unit :=
  { fg := fun x => (x ^ 2 / 2, x), x0 := 1, lmo := intervalLmo, x0Rep := none, variant := "vanilla",
    step := .str step, lipschitz := lip, maxIter := n, tol := 1 / 5, callback := none }

theorem halfSq_quad : ∀ x ∈ Set.Icc (-1 : ℝ) 1, ∀ y ∈ Set.Icc (-1 : ℝ) 1,
    y ^ 2 / 2 ≤ x ^ 2 / 2 + ⟪x, y - x⟫_ℝ + 1 / 2 * ‖y - x‖ ^ 2 := by
  have e : ∀ a b : ℝ, ⟪a, b⟫_ℝ = b * a := fun _ _ => rfl
  intro x _ y _
  rw [e, Real.norm_eq_abs, sq_abs]; nlinarith

theorem icc_diam : ∀ x ∈ Set.Icc (-1 : ℝ) 1, ∀ y ∈ Set.Icc (-1 : ℝ) 1, ‖x - y‖ ≤ 2 := by
  intro x hx y hy
  rw [Real.norm_eq_abs, abs_le]; constructor <;> linarith [hx.1, hx.2, hy.1, hy.2]

theorem intervalLmo_max (it : ℕ) (u x : ℝ) (o : LmoOut ℝ Unit ℝ) (ho : intervalLmo it u x none = .ok o) : o.maxStep = 1 := by
  simp only [intervalLmo, Except.ok.injEq] at ho
  rw [← ho]

/-- The hypotheses of `C87_dr` hold with `max_iter = 101`. -/
example : ∃ res, minimizeFrankWolfe (halfSqArgs "DR" (some 1) 101) = .ok res ∧ res.certificate ≤ 1 / 5 := by
  obtain ⟨res, h1, -, h2, -⟩ := C87_dr (halfSqArgs "DR" (some 1) 101) (convex_Icc (-1 : ℝ) 1) (f := fun x => x ^ 2 / 2)
    (g := fun x => x) (fun _ => rfl) (L := 1) (D := 2) (flow := 0) one_pos two_pos halfSq_quad icc_diam
    (fun x _ => by positivity) rfl ⟨by norm_num [halfSqArgs], by norm_num [halfSqArgs]⟩ rfl rfl (fun _ _ _ => ⟨_, rfl⟩) intervalLmo_exact
    intervalLmo_max rfl (by norm_num [halfSqArgs]) (by
      simp only [halfSqArgs]
      rw [min_eq_right (by norm_num)]
      norm_num)
  exact ⟨res, h1, h2⟩

/-- The hypotheses of `C87_backtracking` hold with `max_iter = 500`, `N = 201`. -/
example : ∃ res, minimizeFrankWolfe (halfSqArgs "backtracking" (some 1) 500) = .ok res ∧ res.certificate ≤ 1 / 5 := by
  obtain ⟨res, h1, -, h2, -⟩ := C87_backtracking (halfSqArgs "backtracking" (some 1) 500) (convex_Icc (-1 : ℝ) 1)
    (f := fun x => x ^ 2 / 2) (g := fun x => x) rfl (L := 1) (D := 2) (flow := 0) two_pos halfSq_quad icc_diam
    (fun x _ => by positivity) rfl ⟨by norm_num [halfSqArgs], by norm_num [halfSqArgs]⟩ rfl rfl one_pos
    (fun _ _ _ => ⟨_, rfl⟩) intervalLmo_exact intervalLmo_max rfl (by norm_num [halfSqArgs]) (M := 2) (by norm_num)
    (δ := 1 / 400 - 2⁻¹ ^ 23) (by
      simp only [halfSqArgs]
      rw [min_eq_right (by norm_num)]
      norm_num) (by norm_num) (N := 201) (by norm_num [halfSqArgs]) (by simp only [halfSqArgs]; norm_num) (by norm_num)
  exact ⟨res, h1, h2⟩

/-- The hypotheses of `C88_partial` hold for the default `lipschitz=None`: the difference quotient is exactly 1. -/
example : ∃ res, minimizeFrankWolfe (halfSqArgs "backtracking" none 500) = .ok res ∧ res.certificate ≤ 1 / 5 := by
  obtain ⟨res, h1, -, h2, -⟩ := C88_partial (halfSqArgs "backtracking" none 500) (convex_Icc (-1 : ℝ) 1)
    (f := fun x => x ^ 2 / 2) (g := fun x => x) rfl (L := 1) (D := 2) (flow := 0) (l0 := 1) one_pos two_pos halfSq_quad
    (fun x _ y _ => by rw [one_mul]) icc_diam
    (fun x _ => by positivity) rfl ⟨by norm_num [halfSqArgs], by norm_num [halfSqArgs]⟩ rfl rfl one_pos
    (fun o _ _ => by
      rw [sub_add_cancel_left, norm_neg, norm_smul, Real.norm_of_nonneg (by norm_num : (0:ℝ) ≤ 1e-3), one_mul])
    (fun _ _ _ => ⟨_, rfl⟩) intervalLmo_exact intervalLmo_max rfl (by norm_num [halfSqArgs])
    (δ := 1 / 400 - 2⁻¹ ^ 23) (by
      simp only [halfSqArgs]
      rw [min_eq_right (by norm_num)]
      norm_num) (by norm_num) (N := 201) (by norm_num [halfSqArgs]) (by simp only [halfSqArgs]; norm_num) (by norm_num)
  exact ⟨res, h1, h2⟩

end Copt
