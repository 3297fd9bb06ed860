import Verif.Proof.FloatRandomized
import Verif.Proof.SubgradSum
import Verif.Proof.FloatOracles

/-! # Passes of SAGA and SVRG with rounded arithmetic: uniform constants and the objective -/

set_option linter.unusedSectionVars false

namespace Copt

open Spec

variable {n p : ℕ}

/-- A constant for finitely many cases. -/
theorem exists_max_const {α : Type} {Q : α → ℝ → Prop} (hmono : ∀ a C C', C ≤ C' → Q a C → Q a C') : ∀ l : List α, (∀ a ∈ l, ∃ C, 0 ≤ C ∧ Q a C) → ∃ C, 0 ≤ C ∧ ∀ a ∈ l, Q a C
  | [], _ => ⟨0, le_rfl, fun a ha => by simp at ha⟩
  | a :: l, h => by
    obtain ⟨C, hC, h1⟩ := h a List.mem_cons_self
    obtain ⟨C', hC', h2⟩ := exists_max_const hmono l fun b hb => h b (List.mem_cons_of_mem _ hb)
    refine ⟨max C C', hC.trans (le_max_left _ _), fun b hb => ?_⟩
    rcases List.mem_cons.mp hb with rfl | hb
    · exact hmono _ _ _ (le_max_left _ _) h1
    · exact hmono _ _ _ (le_max_right _ _) (h2 b hb)

/-- A finite convex function is Lipschitz on boxes. -/
theorem convex_box_lip {F : (Fin p → ℝ) → ℝ} (hF : ConvexOn ℝ Set.univ F) (B : ℝ) : ∃ L, 0 ≤ L ∧ ∀ x y : Fin p → ℝ, (∀ c, |x c| ≤ B) → (∀ c, |y c| ≤ B) →
    |F x - F y| ≤ L * ∑ c, |x c - y c| := by
  have hc : Continuous F := by
    have := hF.continuousOn isOpen_univ
    rwa [continuousOn_univ] at this
  set B' := max B 0 with hB'
  have hB0 : 0 ≤ B' := le_max_right _ _
  obtain ⟨Mx, hMx⟩ := (isCompact_closedBall (0 : Fin p → ℝ) (B' + 2)).bddAbove_image (f := fun x => |F x|) hc.abs.continuousOn
  have hlip := ConvexOn.lipschitzOnWith_of_abs_le (f := F) (x₀ := 0) (r := B' + 2) (ε := 1) (M := Mx) (hF.subset (Set.subset_univ _) (convex_ball _ _)) one_pos
    (fun a ha => hMx ⟨a, by rw [Metric.mem_closedBall]; exact ha.le, rfl⟩)
  refine ⟨(2 * Mx / 1).toNNReal, NNReal.coe_nonneg _, fun x y hx hy => ?_⟩
  have hmem : ∀ z : Fin p → ℝ, (∀ c, |z c| ≤ B) → z ∈ Metric.ball (0 : Fin p → ℝ) (B' + 2 - 1) := fun z hz => by
    rw [Metric.mem_ball, dist_zero_right]
    refine lt_of_le_of_lt ((pi_norm_le_iff_of_nonneg hB0).mpr fun c => ?_) (by linarith : B' < B' + 2 - 1)
    rw [Real.norm_eq_abs]
    exact (hz c).trans (le_max_left _ _)
  have h1 := hlip.dist_le_mul x (hmem x hx) y (hmem y hy)
  rw [Real.dist_eq] at h1
  refine h1.trans (mul_le_mul_of_nonneg_left ?_ (NNReal.coe_nonneg _))
  refine (dist_pi_le_iff (Finset.sum_nonneg fun _ _ => abs_nonneg _)).mpr fun c => ?_
  rw [Real.dist_eq]
  exact Finset.single_le_sum (f := fun c => |x c - y c|) (fun _ _ => abs_nonneg _) (Finset.mem_univ c)

section Obj
variable {P : VRArgs ℝ n p} {pen : Fin P.blocks.nb → (Fin p → ℝ) → ℝ} {f : ℝ → ℝ → ℝ} {M R D : ℝ}

/-- The objective is convex. -/
theorem PenProblem.obj_convex (hq : PenProblem P pen f M R D) : ConvexOn ℝ Set.univ (vrObj P pen f) := by
  refine convexOn_of_segments fun x y t ht0 ht1 => ?_
  unfold vrObj
  have hs : ∀ h, pen h ((1 - t) • x + t • y) ≤ (1 - t) * pen h x + t * pen h y := fun h => hq.penalty.conv h x y t ht0 ht1
  have hsum : ∑ h, pen h ((1 - t) • x + t • y) ≤ (1 - t) * ∑ h, pen h x + t * ∑ h, pen h y := by
    rw [Finset.mul_sum, Finset.mul_sum, ← Finset.sum_add_distrib]
    exact Finset.sum_le_sum fun h _ => hs h
  obtain ⟨z, hz⟩ : ∃ z, z = (1 - t) • x + t • y := ⟨_, rfl⟩
  have hx := hq.conv z x
  have hy := hq.conv z y
  have nx : 0 ≤ P.alpha / 2 * ‖euc x - euc z‖ ^ 2 := mul_nonneg (by linarith [hq.alpha]) (sq_nonneg _)
  have ny : 0 ≤ P.alpha / 2 * ‖euc y - euc z‖ ^ 2 := mul_nonneg (by linarith [hq.alpha]) (sq_nonneg _)
  obtain ⟨g, hg⟩ : ∃ g, g = finiteSumGrad (fun i (c : Fin p) => P.A.ent i c) P.b P.deriv P.alpha z := ⟨_, rfl⟩
  rw [← hg] at hx hy
  have e0 : (1 - t) * ∑ c, g c * (x c - z c) + t * ∑ c, g c * (y c - z c) = 0 := by
    rw [Finset.mul_sum, Finset.mul_sum, ← Finset.sum_add_distrib]
    refine Finset.sum_eq_zero fun c _ => ?_
    have : z c = (1 - t) * x c + t * y c := by rw [hz]; rfl
    rw [this]; ring
  have k1 := mul_le_mul_of_nonneg_left hx (by linarith : 0 ≤ 1 - t)
  have k2 := mul_le_mul_of_nonneg_left hy ht0
  have k3 := mul_nonneg (by linarith : 0 ≤ 1 - t) nx
  have k4 := mul_nonneg ht0 ny
  rw [← hz] at hsum ⊢
  linarith

variable {step : ℝ}

/-- A pass of SVRG with exact arithmetic. -/
theorem svrg_exact_pass (hp : 0 < p) (hP : P.Good) (hq : PenProblem P pen f M R D) (hfull : FullBlocks P) {S : Support n P.blocks.nb} (hok : SupportOk P.A hP.blocks S)
    (hstep : 0 < step) (hs1 : 10 * n * (M * R + P.alpha) * (step * D) ≤ 1) {xs : Fin p → ℝ} {mu : ℝ} (hmu : 0 < mu)
    (hgrow : ∀ y, vrObj P pen f xs + mu / 2 * sqDist y xs ≤ vrObj P pen f y) (st : SvrgState ℝ p) {idx : List ℕ} (hidx : idx.Perm (List.range n)) :
    ∃ avg st', fullGrad P st.x = some avg ∧ svrgEpoch P S step st.x avg st idx = some st' ∧
      (1 + mu * step / (20 * D)) * (vrObj P pen f st'.x - vrObj P pen f xs) ≤ vrObj P pen f st.x - vrObj P pen f xs ∧
      ∑ c, |st'.x c - st.x c| ≤ √(p * n * (2 * (step * D) * (vrObj P pen f st.x - vrObj P pen f xs))) := by
  have hD1 := hq.D_one hP hp
  have hL : 0 ≤ M * R + P.alpha := add_nonneg (mul_nonneg hq.nonneg hq.R_nonneg) hq.alpha
  set Fs := vrObj P pen f xs with hFsdef
  have hFs : ∀ y, Fs ≤ vrObj P pen f y := fun y => by
    have := hgrow y
    have h0 : 0 ≤ sqDist y xs := Finset.sum_nonneg fun c _ => sq_nonneg _
    have := mul_nonneg (by linarith : 0 ≤ mu / 2) h0
    linarith
  obtain ⟨avg, st', x, u, T, havg, hrun, hx0, hxn, hB, hall, herr⟩ := svrg_blockPass hq hP hfull hok hstep st hidx
  have hdesc := hB.pass_descent hq.samples hL hD1 hs1 (Wp := 0) (Qp := 0) (m := 0) (by simp) (fun k hk => by have := herr k hk; simpa using this)
  obtain ⟨G, hG0, hG, hgap⟩ := hB.pass_gap hq.samples hL hD1 hs1 hall (Wp := 0) (Qp := 0) (by simp) herr
  rw [hx0, hxn] at hdesc
  rw [hxn] at hgap
  rw [add_zero] at hG
  have hQ := passSq_nonneg x n
  have hd : vrObj P pen f st'.x + 1 / (step * D) / 2 * passSq x n ≤ vrObj P pen f st.x := by
    unfold vrObj
    simp only [ne_eq, OfNat.ofNat_ne_zero, not_false_eq_true, zero_pow, mul_zero, add_zero] at hdesc
    linarith
  have hgx : vrObj P pen f st'.x ≤ Fs + G * ‖euc st'.x - euc xs‖ := hgap xs
  have hlin := svrg_pass_linear hstep hD1 hmu hQ hd hG hgx
      (by
        have := hgrow st'.x
        have e : ‖euc st'.x - euc xs‖ ^ 2 = sqDist st'.x xs := norm_euc_sq fun c => st'.x c - xs c
        rw [e]; linarith) (hFs st'.x)
  refine ⟨avg, st', havg, hrun, hlin, change_le x hx0 hxn ?_⟩
  have h1 : 1 / (step * D) / 2 * passSq x n ≤ vrObj P pen f st.x - Fs := by
    have := hFs st'.x
    linarith
  have h2 : passSq x n = 2 * (step * D) * (1 / (step * D) / 2 * passSq x n) := by field_simp
  rw [h2]
  exact mul_le_mul_of_nonneg_left h1 (by positivity)

/-- Everything that describes a pass with rounded arithmetic. -/
structure FlPass (σ : Type) (n p : ℕ) where
  fl : ℝ → ℝ
  w : ℝ
  fd : ℝ → ℝ → ℝ
  fp : SparseProx ℝ p
  order : ℕ → List ℕ
  tol : ℝ
  maxIter : ℕ
  st : σ

/-- The rounding has precision `w`. -/
structure FlPrec (fl : ℝ → ℝ) (w : ℝ) : Prop where
  nonneg : 0 ≤ w
  le : w ≤ 1
  round : ∀ x, |fl x - x| ≤ w * |x| + w

theorem flPrec_of_scale {fl : ℝ → ℝ} {u eta w r : ℝ} (h : Scale fl u eta w r) : FlPrec fl w where
  nonneg := h.w_nonneg
  le := h.w_le
  round x := by
    have h1 := h.rnd.err x
    have h2 := mul_le_mul_of_nonneg_right h.u_le (abs_nonneg x)
    have h3 := h.eta_le'
    linarith

/-- The rounded pass of SVRG stays near the exact one, with one constant for all roundings, orders and starting points in a box. -/
theorem svrg_pass_near (hq : PenProblem P pen f M R D) (hP : P.Good) (hfull : FullBlocks P) (hstep : 0 ≤ step) {K : ℝ} (hK : 0 ≤ K)
    {S : Support n P.blocks.nb} (hok : SupportOk P.A hP.blocks S) (B : ℝ) : ∃ C, 0 ≤ C ∧ ∀ idx : List ℕ, idx.Perm (List.range n) →
    ∀ (r : FlPass (SvrgState ℝ p) n p), FlPrec r.fl r.w → FlVROracles P step r.fl r.fd r.fp K r.w → (∀ c, |r.st.x c| ≤ B) → ∀ avg t, fullGrad P r.st.x = some avg →
      svrgEpoch P S step r.st.x avg r.st idx = some t → ∃ avg' t', flFullGrad r.fl (P.flWith r.fd r.fp r.order r.tol r.maxIter) r.st.x = some avg' ∧
        flSvrgEpoch r.fl (P.flWith r.fd r.fp r.order r.tol r.maxIter) S step r.st.x avg' r.st idx = some t' ∧ ∀ c, |t'.x c - t.x c| ≤ C * r.w := by
  obtain ⟨C, hC, h⟩ := exists_max_const (Q := fun (idx : List ℕ) C => idx.Perm (List.range n) →
    ∀ (r : FlPass (SvrgState ℝ p) n p), FlPrec r.fl r.w → FlVROracles P step r.fl r.fd r.fp K r.w → (∀ c, |r.st.x c| ≤ B) → ∀ avg t, fullGrad P r.st.x = some avg →
      svrgEpoch P S step r.st.x avg r.st idx = some t → ∃ avg' t', flFullGrad r.fl (P.flWith r.fd r.fp r.order r.tol r.maxIter) r.st.x = some avg' ∧
        flSvrgEpoch r.fl (P.flWith r.fd r.fp r.order r.tol r.maxIter) S step r.st.x avg' r.st idx = some t' ∧ ∀ c, |t'.x c - t.x c| ≤ C * r.w)
    (fun idx C C' hCC h hi r h1 h2 h3 avg t h4 h5 => by
      obtain ⟨avg', t', k1, k2, k3⟩ := h hi r h1 h2 h3 avg t h4 h5
      exact ⟨avg', t', k1, k2, fun c => (k3 c).trans (mul_le_mul_of_nonneg_right hCC h1.nonneg)⟩) (List.range n).permutations (by
    intro idx hidx
    have hperm := List.mem_permutations.mp hidx
    let ι := { r : FlPass (SvrgState ℝ p) n p × (Fin p → ℝ) × SvrgState ℝ p // FlPrec r.1.fl r.1.w ∧ FlVROracles P step r.1.fl r.1.fd r.1.fp K r.1.w ∧ (∀ c, |r.1.st.x c| ≤ B) ∧
      fullGrad P r.1.st.x = some r.2.1 ∧ svrgEpoch P S step r.1.st.x r.2.1 r.1.st idx = some r.2.2 }
    have hf : FlFam (fun i : ι => i.1.1.fl) (fun i => i.1.1.w) := ⟨fun i => i.2.1.nonneg, fun i => i.2.1.le, fun i => i.2.1.round⟩
    obtain ⟨avg', t', h1, h2, h3⟩ := svrgEpoch_fam (order := fun i : ι => i.1.1.order) (tol := fun i => i.1.1.tol) (maxIter := fun i => i.1.1.maxIter) hf hq hP hfull hstep hK
      (fun i => i.2.2.1) hok (idx := idx) (fun k hk => List.mem_range.mp (hperm.subset hk)) (fun i => i.1.1.st) (fun i => i.1.2.2)
      (fun c => Appr.refl_of_le hf.nonneg (C := B) fun i => i.2.2.2.1 c) (avg := fun i => i.1.2.1) (fun i => i.2.2.2.2.1) (fun i => i.2.2.2.2.2)
    choose C hC hCC using h3
    refine ⟨∑ c, C c, Finset.sum_nonneg fun c _ => hC c, fun _ r k1 k2 k3 avg t k4 k5 => ?_⟩
    let i : ι := ⟨(r, avg, t), k1, k2, k3, k4, k5⟩
    refine ⟨avg' i, t' i, h1 i, h2 i, fun c => (hCC c i).1.trans (mul_le_mul_of_nonneg_right ?_ k1.nonneg)⟩
    exact Finset.single_le_sum (f := C) (fun c _ => hC c) (Finset.mem_univ c))
  exact ⟨C, hC, fun idx hidx => h idx (List.mem_permutations.mpr hidx) hidx⟩

/-- Points with a small objective lie in a box. -/
theorem grow_box {F : (Fin p → ℝ) → ℝ} {xs : Fin p → ℝ} {mu V : ℝ} (hmu : 0 < mu) (hgrow : ∀ y, F xs + mu / 2 * sqDist y xs ≤ F y) : ∃ B, 0 ≤ B ∧ ∀ y, F y - F xs ≤ V → ∀ c, |y c| ≤ B := by
  refine ⟨√(2 * V / mu) + ∑ c, |xs c|, add_nonneg (Real.sqrt_nonneg _) (Finset.sum_nonneg fun _ _ => abs_nonneg _), fun y hy c => ?_⟩
  have h1 : sqDist y xs ≤ 2 * V / mu := by
    rw [le_div_iff₀ hmu]
    have := hgrow y
    linarith
  have h2 : |y c - xs c| ≤ √(2 * V / mu) := (sqDist_coord c).trans (Real.sqrt_le_sqrt h1)
  have h3 : |xs c| ≤ ∑ c, |xs c| := Finset.single_le_sum (f := fun c => |xs c|) (fun _ _ => abs_nonneg _) (Finset.mem_univ c)
  calc |y c| = |(y c - xs c) + xs c| := by ring_nf
    _ ≤ |y c - xs c| + |xs c| := abs_add_le _ _
    _ ≤ _ := by linarith

/-- The computed sum of the changes. -/
theorem flChange_near {fl : ℝ → ℝ} {u eta w r s B : ℝ} (hs : Scale fl u eta w r) (hpw : 2 * p * w ≤ 1) {a b : Fin p → ℝ} (ha : ∀ c, |a c| ≤ B) (hb : ∀ c, |b c| ≤ B)
    (hB : 0 ≤ B) (h : FlSum fl (List.ofFn fun c => |fl (a c - b c)|) s) : abs (s - ∑ c, |a c - b c|) ≤ (p * (2 * B + 1) + 2 * p * (p * (4 * B + 1) + 1)) * w := by
  have hpr := flPrec_of_scale hs
  have hw := hs.w_nonneg
  have hp0 : (0 : ℝ) ≤ p := Nat.cast_nonneg p
  have hd : ∀ c, |a c - b c| ≤ 2 * B := fun c => (abs_sub _ _).trans (by linarith [ha c, hb c])
  have h0 : ∀ c, abs (|fl (a c - b c)| - |a c - b c|) ≤ (2 * B + 1) * w := fun c => by
    refine (abs_abs_sub_abs_le_abs_sub _ _).trans ((hpr.round _).trans ?_)
    have := mul_le_mul_of_nonneg_left (hd c) hw
    linarith
  have h1 : abs (∑ c, |fl (a c - b c)| - ∑ c, |a c - b c|) ≤ p * (2 * B + 1) * w := by
    rw [← Finset.sum_sub_distrib]
    refine (Finset.abs_sum_le_sum_abs _ _).trans ((Finset.sum_le_sum fun c _ => h0 c).trans ?_)
    rw [Finset.sum_const, Finset.card_univ, Fintype.card_fin, nsmul_eq_mul]
    linarith
  have h2 : ∑ c, |fl (a c - b c)| ≤ p * (4 * B + 1) := by
    have : ∀ c : Fin p, |fl (a c - b c)| ≤ 4 * B + 1 := fun c => by
      have := (abs_le.mp (h0 c)).2
      have : (2 * B + 1) * w ≤ (2 * B + 1) * 1 := mul_le_mul_of_nonneg_left hs.w_le (by linarith)
      linarith [hd c]
    refine (Finset.sum_le_sum fun c _ => this c).trans ?_
    rw [Finset.sum_const, Finset.card_univ, Fintype.card_fin, nsmul_eq_mul]
  have h3 := h.error hs.rnd (by
    rw [List.length_ofFn]
    have := mul_le_mul_of_nonneg_left hs.u_le (by positivity : (0 : ℝ) ≤ 2 * p)
    linarith)
  rw [List.length_ofFn, List.map_ofFn, List.sum_ofFn, List.sum_ofFn] at h3
  simp only [Function.comp_def, abs_abs] at h3
  have h4 : u * ∑ c, |fl (a c - b c)| + eta ≤ w * (p * (4 * B + 1) + 1) := by
    have k1 := mul_le_mul hs.u_le h2 (Finset.sum_nonneg fun _ _ => abs_nonneg _) hw
    have k2 := hs.eta_le'
    linarith
  have h5 : 0 ≤ u * ∑ c, |fl (a c - b c)| + eta := add_nonneg (mul_nonneg hs.rnd.u_nonneg (Finset.sum_nonneg fun _ _ => abs_nonneg _)) hs.rnd.eta_nonneg
  have h6 : abs (s - ∑ c, |fl (a c - b c)|) ≤ 2 * p * (w * (p * (4 * B + 1) + 1)) := by
    refine h3.trans ?_
    have := mul_le_mul_of_nonneg_left h4 (by positivity : (0 : ℝ) ≤ 2 * p)
    linarith
  calc abs (s - ∑ c, |a c - b c|) = abs ((s - ∑ c, |fl (a c - b c)|) + (∑ c, |fl (a c - b c)| - ∑ c, |a c - b c|)) := by ring_nf
    _ ≤ abs (s - ∑ c, |fl (a c - b c)|) + abs (∑ c, |fl (a c - b c)| - ∑ c, |a c - b c|) := abs_add_le _ _
    _ ≤ _ := by linarith

/-- A pass of SVRG with rounded arithmetic and the objective. -/
theorem svrg_pass_fl (hp : 0 < p) (hP : P.Good) (hq : PenProblem P pen f M R D) (hfull : FullBlocks P) {S : Support n P.blocks.nb} (hok : SupportOk P.A hP.blocks S)
    (hstep : 0 < step) (hs1 : 10 * n * (M * R + P.alpha) * (step * D) ≤ 1) {xs : Fin p → ℝ} {mu : ℝ} (hmu : 0 < mu)
    (hgrow : ∀ y, vrObj P pen f xs + mu / 2 * sqDist y xs ≤ vrObj P pen f y) {K : ℝ} (hK : 0 ≤ K) (V : ℝ) :
    ∃ C, 0 ≤ C ∧ ∀ (fl : ℝ → ℝ) (u eta w : ℝ) (fd : ℝ → ℝ → ℝ) (fp : SparseProx ℝ p) (order : ℕ → List ℕ) (tol : ℝ) (maxIter : ℕ) (st : SvrgState ℝ p) (idx : List ℕ),
      Scale fl u eta w 1 → C * w ≤ 1 → FlVROracles P step fl fd fp K w → vrObj P pen f st.x - vrObj P pen f xs ≤ V → idx.Perm (List.range n) →
      ∃ avg' st', flFullGrad fl (P.flWith fd fp order tol maxIter) st.x = some avg' ∧ flSvrgEpoch fl (P.flWith fd fp order tol maxIter) S step st.x avg' st idx = some st' ∧
        vrObj P pen f st'.x - vrObj P pen f xs ≤ (vrObj P pen f st.x - vrObj P pen f xs) / (1 + mu * step / (20 * D)) + C * w ∧
        vrObj P pen f st'.x - vrObj P pen f xs ≤ C * (∑ c, |st'.x c - st.x c| + w) ∧
        ∑ c, |st'.x c - st.x c| ≤ √(p * n * (2 * (step * D) * (vrObj P pen f st.x - vrObj P pen f xs))) + C * w ∧
        ∀ s, FlSum fl (List.ofFn fun c => |fl (st'.x c - st.x c)|) s → abs (s - ∑ c, |st'.x c - st.x c|) ≤ C * w := by
  have hD1 := hq.D_one hP hp
  have hD0 : 0 < D := by linarith
  set Fs := vrObj P pen f xs with hFsdef
  obtain ⟨q, hqd⟩ : ∃ q, q = 1 + mu * step / (20 * D) := ⟨_, rfl⟩
  have hq1 : 0 < q - 1 := by rw [hqd]; simp only [add_sub_cancel_left]; positivity
  obtain ⟨B, hB, hbox⟩ := grow_box (F := vrObj P pen f) (V := V) hmu hgrow
  obtain ⟨L, hL, hlip⟩ := convex_box_lip hq.obj_convex (B + 1)
  obtain ⟨C1, hC1, hnear⟩ := svrg_pass_near hq hP hfull hstep.le hK hok B
  have hp0 : (0 : ℝ) ≤ p := Nat.cast_nonneg p
  have hFs : ∀ y, Fs ≤ vrObj P pen f y := fun y => by
    have := hgrow y
    have h0 : 0 ≤ sqDist y xs := Finset.sum_nonneg fun c _ => sq_nonneg _
    have := mul_nonneg (by linarith : 0 ≤ mu / 2) h0
    linarith
  obtain ⟨C3, hC3⟩ : ∃ C3, C3 = p * (2 * (B + 1) + 1) + 2 * p * (p * (4 * (B + 1) + 1) + 1) := ⟨_, rfl⟩
  have hC30 : 0 ≤ C3 := by rw [hC3]; positivity
  have hpC : 0 ≤ p * C1 := by positivity
  have hLq : 0 ≤ L / (q - 1) := by positivity
  refine ⟨C1 + 2 * p + L * (p * C1) + L / (q - 1) + L / (q - 1) * (p * C1) + p * C1 + C3, by positivity, ?_⟩
  obtain ⟨C, hC⟩ : ∃ C, C = C1 + 2 * p + L * (p * C1) + L / (q - 1) + L / (q - 1) * (p * C1) + p * C1 + C3 := ⟨_, rfl⟩
  have n1 : 0 ≤ L * (p * C1) := by positivity
  have n2 : 0 ≤ L / (q - 1) * (p * C1) := by positivity
  have hCge : C1 ≤ C ∧ 2 * p ≤ C ∧ L * (p * C1) ≤ C ∧ L / (q - 1) ≤ C ∧ L / (q - 1) * (p * C1) + L * (p * C1) ≤ C ∧ p * C1 ≤ C ∧ C3 ≤ C := by
    rw [hC]; exact ⟨by linarith, by linarith, by linarith, by linarith, by linarith, by linarith, by linarith⟩
  rw [← hC, ← hqd]
  intro fl u eta w fd fp order tol maxIter st idx hs hw1 hO hV hidx
  have hw := hs.w_nonneg
  have hm : ∀ {a : ℝ}, a ≤ C → a * w ≤ C * w := fun h => mul_le_mul_of_nonneg_right h hw
  obtain ⟨avg, t, ha, ht, hlin, hch⟩ := svrg_exact_pass hp hP hq hfull hok hstep hs1 hmu hgrow st hidx
  rw [← hqd, ← hFsdef] at hlin
  rw [← hFsdef] at hch
  obtain ⟨avg', t', ha', ht', hd⟩ := hnear idx hidx ⟨fl, w, fd, fp, order, tol, maxIter, st⟩ (flPrec_of_scale hs) hO (hbox _ hV) avg t ha ht
  have hVt : vrObj P pen f t.x - Fs ≤ V := by
    have h0 := sub_nonneg.mpr (hFs t.x)
    have : (q - 1) * (vrObj P pen f t.x - Fs) ≥ 0 := mul_nonneg hq1.le h0
    linarith
  have hbt := hbox _ hVt
  have hbs := hbox _ hV
  have hd1 : ∀ c, |t'.x c - t.x c| ≤ 1 := fun c => (hd c).trans ((hm hCge.1).trans hw1)
  have hbt' : ∀ c, |t'.x c| ≤ B + 1 := fun c => by
    calc |t'.x c| = |(t'.x c - t.x c) + t.x c| := by ring_nf
      _ ≤ |t'.x c - t.x c| + |t.x c| := abs_add_le _ _
      _ ≤ _ := by linarith [hd1 c, hbt c]
  have hsd : ∑ c, |t'.x c - t.x c| ≤ p * C1 * w := by
    refine (Finset.sum_le_sum fun c _ => hd c).trans ?_
    rw [Finset.sum_const, Finset.card_univ, Fintype.card_fin, nsmul_eq_mul]
    simp only
    linarith
  have hFt : vrObj P pen f t'.x - vrObj P pen f t.x ≤ L * (p * C1) * w := by
    have h1 := (abs_le.mp (hlip t'.x t.x hbt' fun c => (hbt c).trans (by linarith))).2
    have h2 := mul_le_mul_of_nonneg_left hsd hL
    linarith
  have htri : ∀ a b e : Fin p → ℝ, ∑ c, |a c - b c| ≤ ∑ c, |a c - e c| + ∑ c, |e c - b c| := fun a b e => by
    rw [← Finset.sum_add_distrib]
    exact Finset.sum_le_sum fun c _ => abs_sub_le _ _ _
  have hq0 : 0 < q := by linarith
  have hdiv : vrObj P pen f t.x - Fs ≤ (vrObj P pen f st.x - Fs) / q := by
    rw [le_div_iff₀ hq0, mul_comm]; exact hlin
  refine ⟨avg', t', ha', ht', ?_, ?_, ?_, ?_⟩
  · have := hm hCge.2.2.1
    linarith
  · have h1 : (q - 1) * (vrObj P pen f t.x - Fs) ≤ L * ∑ c, |t.x c - st.x c| := by
      have h1 := (abs_le.mp (hlip st.x t.x (fun c => (hbs c).trans (by linarith)) fun c => (hbt c).trans (by linarith))).2
      simp only [abs_sub_comm (st.x _)] at h1
      linarith
    have h2 : vrObj P pen f t.x - Fs ≤ L / (q - 1) * ∑ c, |t.x c - st.x c| := by
      rw [div_mul_eq_mul_div, le_div_iff₀ hq1, mul_comm]; exact h1
    have h3 := htri t.x st.x t'.x
    simp only [abs_sub_comm (t.x _) (t'.x _)] at h3
    have h4 := mul_le_mul_of_nonneg_left (h3.trans (add_le_add_left hsd _)) hLq
    have h5 : L / (q - 1) * ∑ c, |t'.x c - st.x c| ≤ C * ∑ c, |t'.x c - st.x c| := mul_le_mul_of_nonneg_right hCge.2.2.2.1 (Finset.sum_nonneg fun _ _ => abs_nonneg _)
    have h6 := hm hCge.2.2.2.2.1
    linarith
  · have h3 := htri t'.x st.x t.x
    have h6 := hm hCge.2.2.2.2.2.1
    linarith
  · intro s hsum
    have h1 := flChange_near hs (B := B + 1) (by have := hm hCge.2.1; linarith) hbt' (fun c => (hbs c).trans (by linarith)) (by linarith) hsum
    rw [← hC3] at h1
    exact h1.trans (hm hCge.2.2.2.2.2.2)

open Classical in
/-- The loop over passes with rounded arithmetic: an invariant of the passes holds at the last one. -/
theorem flSvrgLoop_inv {fl : ℝ → ℝ} {sum : ℕ → (Fin p → ℝ) → ℝ} {P : VRArgs ℝ n p} {S : Support n P.blocks.nb} (I : ℕ → SvrgState ℝ p → Prop) (J : ℕ → SvrgState ℝ p → SvrgState ℝ p → Prop)
    (hI : ∀ k st, I k st → ∃ avg st', flFullGrad fl P st.x = some avg ∧ flSvrgEpoch fl P S step st.x avg st (P.order k) = some st' ∧ I (k + 1) st' ∧ J k st st') :
    ∀ (rem it : ℕ) (st : SvrgState ℝ p), I it st → ∃ r, flSvrgLoop fl sum P S step rem it st = some r ∧ it ≤ r.nit ∧ r.nit ≤ it + rem ∧ r.x = r.final.x ∧ I (r.nit + 1) r.final ∧
      ∃ prev, I r.nit prev ∧ J r.nit prev r.final ∧ (r.success = true → sum r.nit (fun c => |fl (r.final.x c - prev.x c)|) < P.tol) ∧
        (r.success = false → r.nit = it + rem ∧ P.tol ≤ sum r.nit (fun c => |fl (r.final.x c - prev.x c)|)) := by
  intro rem
  induction rem with
  | zero =>
    intro it st hst
    obtain ⟨avg, st', havg, hst', hI', hJ⟩ := hI it st hst
    by_cases ht : sum it (fun c => |fl (st'.x c - st.x c)|) < P.tol
    · exact ⟨⟨st'.x, true, it, st'⟩, by rw [flSvrgLoop]; simp [havg, hst', ht], le_rfl, le_rfl, rfl, hI', st, hst, hJ, fun _ => ht, by simp⟩
    · exact ⟨⟨st'.x, false, it, st'⟩, by rw [flSvrgLoop]; simp [havg, hst', ht], le_rfl, le_rfl, rfl, hI', st, hst, hJ, by simp, fun _ => ⟨rfl, not_lt.mp ht⟩⟩
  | succ rem ih =>
    intro it st hst
    obtain ⟨avg, st', havg, hst', hI', hJ⟩ := hI it st hst
    by_cases ht : sum it (fun c => |fl (st'.x c - st.x c)|) < P.tol
    · exact ⟨⟨st'.x, true, it, st'⟩, by rw [flSvrgLoop]; simp [havg, hst', ht], le_rfl, by show it ≤ _; omega, rfl, hI', st, hst, hJ, fun _ => ht, by simp⟩
    · obtain ⟨r, hr, h1, h2, h3, h4, prev, h5, h6, h7, h8⟩ := ih (it + 1) st' hI'
      refine ⟨r, by rw [flSvrgLoop]; simp [havg, hst', ht, hr], by omega, by omega, h3, h4, prev, h5, h6, h7, fun hs => ?_⟩
      have := h8 hs
      exact ⟨by omega, this.2⟩

end Obj

end Copt
