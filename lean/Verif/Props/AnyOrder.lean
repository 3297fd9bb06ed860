import Verif.Props.Svrg
import Verif.Props.SagaContraction
import Verif.Proof.AnyOrder
import Mathlib.Algebra.Order.Chebyshev

/-! # SAGA and SVRG without penalty converge for every order in which the passes visit the samples (C83, C84) -/

set_option linter.unusedSectionVars false

namespace Copt

open Spec

variable {n p : ℕ}

/-- A smooth problem handed to the solvers: convex losses with `M`-Lipschitz derivatives, rows of squared norm at most `R`, every block touched by at least
one in `D` samples, and a stationary point `xs` at which the objective is `mu`-strongly convex. -/
structure SmoothRegular (P : VRArgs ℝ n p) (M R D mu : ℝ) (xs : Fin p → ℝ) : Prop where
  samples : 0 < n
  noPenalty : P.prox = noProx
  mono : ∀ b, Monotone fun t => P.deriv t b
  nonneg : 0 ≤ M
  lip : ∀ s t b, |P.deriv s b - P.deriv t b| ≤ M * |s - t|
  rows : ∀ i, ∑ c : Fin p, P.A.ent i c ^ 2 ≤ R
  touched : ∀ h, ∃ i, Touches P.A.indptr P.A.indices P.blocks.ptr i h
  often : ∀ h (T : Finset (Fin n)), (∀ i, i ∈ T ↔ Touches P.A.indptr P.A.indices P.blocks.ptr i h) → (n : ℝ) ≤ D * T.card
  often_one : 1 ≤ D
  alpha : 0 ≤ P.alpha
  stationary : ∀ c, finiteSumGrad (fun i (c : Fin p) => P.A.ent i c) P.b P.deriv P.alpha xs c = 0
  strong_pos : 0 < mu
  strong_le : mu ≤ M * R + P.alpha
  strong : ∀ y, mu * sqDist y xs ≤ ∑ c, finiteSumGrad (fun i (c : Fin p) => P.A.ent i c) P.b P.deriv P.alpha y c * (y c - xs c)

section Facts
variable {P : VRArgs ℝ n p} {M R D mu : ℝ} {xs : Fin p → ℝ}

/-- The row of sample `i`. -/
noncomputable abbrev rowV (P : VRArgs ℝ n p) (i : Fin n) : EuclideanSpace ℝ (Fin p) := euc fun c : Fin p => P.A.ent i c

/-- The gradient of the objective. -/
noncomputable abbrev gradV (P : VRArgs ℝ n p) (x : Fin p → ℝ) : EuclideanSpace ℝ (Fin p) :=
  euc (finiteSumGrad (fun i (c : Fin p) => P.A.ent i c) P.b P.deriv P.alpha x)

open Classical in
/-- The reweighting of sample `i`: the weight of the block for features of blocks the sample touches, zero elsewhere. -/
noncomputable def maskW (P : VRArgs ℝ n p) (hP : P.Good) (i : Fin n) (c : Fin p) : ℝ :=
  if Near P.A hP.blocks i c then blockWeight P.A hP.blocks c else 0

theorem maskW_le (hP : P.Good) (h : SmoothRegular P M R D mu xs) (i : Fin n) (c : Fin p) : |maskW P hP i c| ≤ D := by
  classical
  unfold maskW
  split
  · have h1 := h.often (hP.blocks.of c) (Finset.univ.filter fun i => Near P.A hP.blocks i c) (fun i => by simp)
    obtain ⟨i, hi⟩ := h.touched (hP.blocks.of c)
    have hpos : 0 < touchCount P.A P.blocks.ptr (hP.blocks.of c) := by
      unfold touchCount
      exact Finset.card_pos.mpr ⟨i, by simpa using hi⟩
    unfold blockWeight
    rw [abs_of_nonneg (by positivity), div_le_iff₀ (by exact_mod_cast hpos)]
    refine h1.trans (le_of_eq ?_)
    unfold touchCount
    congr
  · simpa using le_trans zero_le_one h.often_one

theorem maskW_sum (hP : P.Good) (h : SmoothRegular P M R D mu xs) (c : Fin p) : ∑ i, maskW P hP i c = n := by
  classical
  have := sum_near_weight P.A hP.blocks c (h.touched (hP.blocks.of c)) (1 : ℝ)
  simp only [mul_one] at this
  exact this

theorem row_le (h : SmoothRegular P M R D mu xs) (i : Fin n) : ‖rowV P i‖ ^ 2 ≤ R := by
  rw [norm_euc_sq]; exact h.rows i

theorem R_nonneg (h : SmoothRegular P M R D mu xs) : 0 ≤ R := (sq_nonneg _).trans (row_le h ⟨0, h.samples⟩)

/-- The derivative of a sample times its row is `M R`-Lipschitz. -/
theorem gi_lip (h : SmoothRegular P M R D mu xs) (i : Fin n) (x y : Fin p → ℝ) : |P.gi x i - P.gi y i| * ‖rowV P i‖ ≤ M * R * ‖euc x - euc y‖ := by
  have h1 : |P.gi x i - P.gi y i| ≤ M * (‖rowV P i‖ * ‖euc x - euc y‖) := by
    refine (h.lip _ _ _).trans (mul_le_mul_of_nonneg_left ?_ h.nonneg)
    have h2 : (∑ c : Fin p, P.A.ent i c * x c) - ∑ c : Fin p, P.A.ent i c * y c = inner ℝ (rowV P i) (euc x - euc y) := by
      rw [inner_sub_right, inner_euc, inner_euc]
    rw [h2]
    exact abs_real_inner_le_norm _ _
  calc |P.gi x i - P.gi y i| * ‖rowV P i‖ ≤ M * (‖rowV P i‖ * ‖euc x - euc y‖) * ‖rowV P i‖ := mul_le_mul_of_nonneg_right h1 (norm_nonneg _)
    _ = M * ‖rowV P i‖ ^ 2 * ‖euc x - euc y‖ := by ring
    _ ≤ _ := mul_le_mul_of_nonneg_right (mul_le_mul_of_nonneg_left (row_le h i) h.nonneg) (norm_nonneg _)

theorem gradV_strong (h : SmoothRegular P M R D mu xs) (x : Fin p → ℝ) : mu * ‖euc x - euc xs‖ ^ 2 ≤ inner ℝ (gradV P x) (euc x - euc xs) := by
  have e : euc x - euc xs = euc fun c => x c - xs c := rfl
  rw [e, norm_euc_sq, inner_euc]
  exact h.strong x

/-- Cocoercivity of the gradient at the stationary point. -/
theorem gradV_coco (h : SmoothRegular P M R D mu xs) (x : Fin p → ℝ) :
    ‖gradV P x‖ ^ 2 ≤ (M * R + P.alpha) * inner ℝ (gradV P x) (euc x - euc xs) := by
  have hn : (0 : ℝ) < n := by exact_mod_cast h.samples
  set e : Fin p → ℝ := fun c => x c - xs c with he
  set A : Fin n → ℝ := fun i => P.gi x i - P.gi xs i with hA
  set t : Fin n → ℝ := fun i => ∑ c : Fin p, P.A.ent i c * e c with ht
  set a : Fin p → ℝ := fun c => (∑ i, A i * P.A.ent i c) / n with ha
  have hgrad : gradV P x = euc a + P.alpha • euc e := by
    ext c
    have := h.stationary c
    simp only [finiteSumGrad] at this
    simp only [finiteSumGrad, ha, hA, he, PiLp.add_apply, PiLp.smul_apply, smul_eq_mul, VRArgs.gi, sub_mul, Finset.sum_sub_distrib, sub_div]
    linarith
  have hco : ∀ i, A i ^ 2 ≤ M * (A i * t i) ∧ 0 ≤ A i * t i := by
    intro i
    have h1 : t i = ∑ c : Fin p, P.A.ent i c * x c - ∑ c : Fin p, P.A.ent i c * xs c := by
      rw [← Finset.sum_sub_distrib]; exact Finset.sum_congr rfl fun c _ => by simp only [he]; ring
    rw [h1]
    exact scalar_coco (h.mono (P.b i)) (fun a b => h.lip a b (P.b i)) _ _
  have hain : inner ℝ (euc a) (euc e) = (∑ i, A i * t i) / n := by
    rw [inner_euc]
    simp only [ha, ht, div_mul_eq_mul_div, Finset.sum_mul, Finset.mul_sum, ← Finset.sum_div]
    congr 1
    rw [Finset.sum_comm]
    exact Finset.sum_congr rfl fun i _ => Finset.sum_congr rfl fun c _ => by ring
  have ha0 : 0 ≤ inner ℝ (euc a) (euc e) := by
    rw [hain]; exact div_nonneg (Finset.sum_nonneg fun i _ => (hco i).2) hn.le
  have ha2 : ‖euc a‖ ^ 2 ≤ M * R * inner ℝ (euc a) (euc e) := by
    have h1 : euc a = (1 / (n : ℝ)) • ∑ i, A i • rowV P i := by
      ext c
      simp only [ha, PiLp.smul_apply, smul_eq_mul, WithLp.ofLp_sum, Finset.sum_apply, WithLp.ofLp_smul, Pi.smul_apply]
      field_simp
    have h2 : ‖euc a‖ ≤ (1 / (n : ℝ)) * ∑ i, |A i| * ‖rowV P i‖ := by
      rw [h1, norm_smul, Real.norm_of_nonneg (by positivity)]
      refine mul_le_mul_of_nonneg_left ((norm_sum_le _ _).trans (Finset.sum_le_sum fun i _ => ?_)) (by positivity)
      rw [norm_smul, Real.norm_eq_abs]
    have h3 : (∑ i, |A i| * ‖rowV P i‖) ^ 2 ≤ n * ∑ i, (|A i| * ‖rowV P i‖) ^ 2 := by
      have := sq_sum_le_card_mul_sum_sq (s := Finset.univ) (f := fun i => |A i| * ‖rowV P i‖)
      simpa using this
    have h4 : ∑ i, (|A i| * ‖rowV P i‖) ^ 2 ≤ M * R * ∑ i, A i * t i := by
      rw [Finset.mul_sum]
      refine Finset.sum_le_sum fun i _ => ?_
      rw [mul_pow, sq_abs]
      calc A i ^ 2 * ‖rowV P i‖ ^ 2 ≤ (M * (A i * t i)) * R :=
            mul_le_mul (hco i).1 (row_le h i) (sq_nonneg _) ((sq_nonneg _).trans (hco i).1)
        _ = _ := by ring
    have h5 : ‖euc a‖ ^ 2 ≤ ((1 / (n : ℝ)) * ∑ i, |A i| * ‖rowV P i‖) ^ 2 := pow_le_pow_left₀ (norm_nonneg _) h2 2
    refine h5.trans ?_
    rw [hain, mul_pow]
    calc (1 / (n : ℝ)) ^ 2 * (∑ i, |A i| * ‖rowV P i‖) ^ 2 ≤ (1 / (n : ℝ)) ^ 2 * (n * (M * R * ∑ i, A i * t i)) :=
          mul_le_mul_of_nonneg_left (h3.trans (mul_le_mul_of_nonneg_left h4 hn.le)) (by positivity)
      _ = _ := by field_simp
  have hee : euc x - euc xs = euc e := rfl
  rw [hgrad, hee, inner_add_left, inner_smul_left, real_inner_self_eq_norm_sq]
  have hal := h.alpha
  have hMR : 0 ≤ M * R := mul_nonneg h.nonneg (R_nonneg h)
  simp only [conj_trivial]
  set N := inner ℝ (euc a) (euc e) with hN
  have h6 : ‖euc a + P.alpha • euc e‖ ^ 2 = ‖euc a‖ ^ 2 + 2 * (P.alpha * N) + P.alpha ^ 2 * ‖euc e‖ ^ 2 := by
    rw [norm_add_sq_real, inner_smul_right, norm_smul, Real.norm_of_nonneg hal, mul_pow]
  -- `N² ≤ ‖a‖² ‖e‖² ≤ M R N ‖e‖²`, hence `N ≤ M R ‖e‖²`
  have h7 : N ≤ M * R * ‖euc e‖ ^ 2 := by
    have c1 : N ^ 2 ≤ ‖euc a‖ ^ 2 * ‖euc e‖ ^ 2 := by
      have := abs_real_inner_le_norm (euc a) (euc e)
      rw [← hN, abs_of_nonneg ha0] at this
      have := pow_le_pow_left₀ ha0 this 2
      rwa [mul_pow] at this
    rcases eq_or_lt_of_le ha0 with h0 | h0
    · rw [← h0]; positivity
    · have c2 : N * N ≤ N * (M * R * ‖euc e‖ ^ 2) := by
        calc N * N = N ^ 2 := by ring
          _ ≤ ‖euc a‖ ^ 2 * ‖euc e‖ ^ 2 := c1
          _ ≤ (M * R * N) * ‖euc e‖ ^ 2 := mul_le_mul_of_nonneg_right ha2 (sq_nonneg _)
          _ = _ := by ring
      exact le_of_mul_le_mul_left c2 h0
  rw [h6]
  nlinarith [mul_le_mul_of_nonneg_left h7 hal, mul_nonneg hal ha0]

theorem gradV_le (h : SmoothRegular P M R D mu xs) (x : Fin p → ℝ) : ‖gradV P x‖ ≤ (M * R + P.alpha) * ‖euc x - euc xs‖ := by
  have h1 := gradV_coco h x
  have hL : 0 ≤ M * R + P.alpha := add_nonneg (mul_nonneg h.nonneg (R_nonneg h)) h.alpha
  have h2 := mul_le_mul_of_nonneg_left (real_inner_le_norm (gradV P x) (euc x - euc xs)) hL
  rcases eq_or_lt_of_le (norm_nonneg (gradV P x)) with h0 | h0
  · rw [← h0]; positivity
  · refine le_of_mul_le_mul_left ?_ h0
    nlinarith

/-- A gradient step of length `g` contracts. -/
theorem gradV_contract (h : SmoothRegular P M R D mu xs) (x : Fin p → ℝ) {g : ℝ} (hg : 0 ≤ g) (hgL : g * (M * R + P.alpha) ≤ 1) :
    ‖(euc x - euc xs) - g • gradV P x‖ ≤ (1 - g * mu / 2) * ‖euc x - euc xs‖ := by
  refine grad_contract hg (gradV_strong h x) (gradV_coco h x) hgL ?_ ?_
  · have := gradV_strong h x
    have := mul_nonneg h.strong_pos.le (sq_nonneg ‖euc x - euc xs‖)
    linarith
  · have := mul_le_mul_of_nonneg_left h.strong_le hg
    linarith

end Facts

/-! ### SVRG -/

section Svrg
variable {P : VRArgs ℝ n p} {M R D mu : ℝ} {xs : Fin p → ℝ}

/-- Every sample that touches a block stores all its features; true of single-feature blocks. -/
def FullBlocks (P : VRArgs ℝ n p) : Prop :=
  ∀ (i : Fin n) (h : Fin P.blocks.nb) (c : Fin p), InBlock P.blocks.ptr h c → Touches P.A.indptr P.A.indices P.blocks.ptr i h →
    StoresAt P.A.indptr P.A.indices i c

theorem maskW_grad_sum (hP : P.Good) (h : SmoothRegular P M R D mu xs) (v : Fin p → ℝ) :
    ∑ i, (euc fun c => maskW P hP i c * v c) = (n : ℝ) • euc v := by
  ext c
  simp only [WithLp.ofLp_sum, Finset.sum_apply, WithLp.ofLp_smul, Pi.smul_apply, smul_eq_mul]
  rw [← Finset.sum_mul, maskW_sum hP h]

/-- One SVRG step in closed form. -/
theorem svrgStep_dir (hP : P.Good) (h : SmoothRegular P M R D mu xs) (hfull : FullBlocks P) {S : Support n P.blocks.nb} (hS : SupportOk P.A hP.blocks S)
    (step : ℝ) (snap avg : Fin p → ℝ) (st : SvrgState ℝ p) (i : Fin n) : ∃ st', svrgStep P S step snap avg st i = some st' ∧
      ∀ c, st'.x c = st.x c - step * ((P.gi st.x i - P.gi snap i) * P.A.ent i c + maskW P hP i c * (avg c + P.alpha * st.x c)) := by
  obtain ⟨hs, -, tmp, mid, h0, h1, h2, h3⟩ := svrgStep_spec P hP hS step snap avg st i
  rw [h.noPenalty] at h0
  refine ⟨_, h0, fun c => ?_⟩
  show mid c = _
  unfold maskW
  by_cases hc : Near P.A hP.blocks i c
  · rw [if_pos hc, h2 c hc, h1 c, if_pos (hfull i _ c (hP.blocks.of_spec c) hc)]
  · rw [if_neg hc, h3 c hc, ent_eq_zero fun hh => hc (near_of_stores hP.blocks hh)]; ring

theorem svrgEpoch_contract (hP : P.Good) (h : SmoothRegular P M R D mu xs) (hfull : FullBlocks P) {S : Support n P.blocks.nb}
    (hS : SupportOk P.A hP.blocks S) {step : ℝ} (hstep : 0 < step)
    (hs1 : 8 * (n * step) * ((M * R + P.alpha * D) * D * (M * R + P.alpha)) ≤ mu) (avg : Fin p → ℝ) (st st' : SvrgState ℝ p)
    (havg : fullGrad P st.x = some avg) {idx : List ℕ} (hidx : idx.Perm (List.range n)) (hrun : svrgEpoch P S step st.x avg st idx = some st') :
    ‖euc st'.x - euc xs‖ ≤ (1 - n * step * mu / 4) * ‖euc st.x - euc xs‖ := by
  have hn : (0 : ℝ) < n := by exact_mod_cast h.samples
  have hlen : idx.length = n := by simpa using hidx.length_eq
  have hMR : 0 ≤ M * R := mul_nonneg h.nonneg (R_nonneg h)
  have hal := h.alpha
  have hD1 := h.often_one
  have hD0 : 0 ≤ D := zero_le_one.trans hD1
  have hL : 0 < M * R + P.alpha := h.strong_pos.trans_le h.strong_le
  set L := M * R + P.alpha with hLdef
  set Lam := M * R + P.alpha * D with hLam
  have hLL : L ≤ Lam := by rw [hLdef, hLam]; nlinarith
  have hgD : 8 * (n * step) * (Lam * D) ≤ 1 := by
    refine le_of_mul_le_mul_right ?_ hL
    calc 8 * (n * step) * (Lam * D) * L = 8 * (n * step) * (Lam * D * L) := by ring
      _ ≤ mu := hs1
      _ ≤ 1 * L := by rw [one_mul]; exact h.strong_le
  set g := n * step with hg
  have hg0 : 0 < g := by positivity
  have hLam0 : 0 < Lam := hL.trans_le hLL
  have hgLam : 8 * g * Lam ≤ 1 := by
    have : 8 * g * Lam ≤ 8 * g * (Lam * D) := by
      refine mul_le_mul_of_nonneg_left ?_ (by positivity)
      nlinarith
    linarith
  obtain ⟨sts, h0, hend, hsteps⟩ := foldlM_trace _ idx st st' hrun
  rw [fullGrad_spec P hP.csr st.x] at havg
  have havg' : ∀ c : Fin p, avg c = (∑ i, P.gi st.x i * P.A.ent i c) / (n : ℝ) := fun c => by rw [← Option.some.inj havg]
  have hmem : ∀ k (hk : k < idx.length), idx[k] < n := fun k hk => List.mem_range.mp (hidx.subset (List.getElem_mem hk))
  -- the pass as a walk
  let G : Fin p → ℝ := finiteSumGrad (fun i (c : Fin p) => P.A.ent i c) P.b P.deriv P.alpha st.x
  let Q : ℕ → EuclideanSpace ℝ (Fin p) := fun i => if hi : i < n then euc (fun c => maskW P hP ⟨i, hi⟩ c * G c) else 0
  let d : ℕ → EuclideanSpace ℝ (Fin p) := fun k => if hi : idx.getD k 0 < n then
    euc (fun c => (P.gi (sts k).x ⟨idx.getD k 0, hi⟩ - P.gi st.x ⟨idx.getD k 0, hi⟩) * P.A.ent (⟨idx.getD k 0, hi⟩ : Fin n) c +
      maskW P hP ⟨idx.getD k 0, hi⟩ c * (avg c + P.alpha * (sts k).x c)) else 0
  have hwalk := walk_drift (n := n) (g := step) (B0 := D * ‖gradV P st.x‖) (m := 0) (Lam := Lam) (fun k => euc (sts k).x) d
    (fun k => Q (idx.getD k 0)) hstep.le (by positivity) le_rfl hLam0.le ?_ ?_ ?_ (by nlinarith)
  rotate_left
  · intro k hk
    have hk' : k < idx.length := hlen ▸ hk
    have hget : idx.getD k 0 = idx[k] := by simp [hk']
    obtain ⟨s2, hs2, hx⟩ := svrgStep_dir hP h hfull hS step st.x avg (sts k) ⟨idx[k], hmem k hk'⟩
    have := hsteps k hk'
    rw [hs2] at this
    obtain rfl := Option.some.inj this
    ext c
    simp only [d, hget, hmem k hk', dif_pos, PiLp.sub_apply, PiLp.smul_apply, smul_eq_mul]
    exact hx c
  · intro k hk
    have hk' : k < idx.length := hlen ▸ hk
    have hget : idx.getD k 0 = idx[k] := by simp [hk']
    simp only [Q, hget, hmem k hk', dif_pos]
    exact norm_scale_le _ _ (maskW_le hP h _) hD0
  · intro k hk A hA
    have hk' : k < idx.length := hlen ▸ hk
    have hget : idx.getD k 0 = idx[k] := by simp [hk']
    simp only [d, Q, hget, hmem k hk', dif_pos]
    set i : Fin n := ⟨idx[k], hmem k hk'⟩
    have hAk : ‖euc (sts k).x - euc st.x‖ ≤ A := by simpa [h0] using hA k le_rfl
    have hsplit : (euc fun c => (P.gi (sts k).x i - P.gi st.x i) * P.A.ent i c + maskW P hP i c * (avg c + P.alpha * (sts k).x c)) -
        euc (fun c => maskW P hP i c * G c) =
        (P.gi (sts k).x i - P.gi st.x i) • rowV P i + euc (fun c => maskW P hP i c * (P.alpha * ((sts k).x c - st.x c))) := by
      ext c
      simp only [PiLp.sub_apply, PiLp.add_apply, PiLp.smul_apply, smul_eq_mul, G, finiteSumGrad, havg' c, VRArgs.gi]
      ring
    rw [hsplit]
    refine (norm_add_le _ _).trans ?_
    have b1 : ‖(P.gi (sts k).x i - P.gi st.x i) • rowV P i‖ ≤ M * R * A := by
      rw [norm_smul, Real.norm_eq_abs]
      exact (gi_lip h i _ _).trans (mul_le_mul_of_nonneg_left hAk hMR)
    have b2 : ‖euc (fun c => maskW P hP i c * (P.alpha * ((sts k).x c - st.x c)))‖ ≤ D * (P.alpha * A) := by
      refine (norm_scale_le _ _ (maskW_le hP h i) hD0).trans (mul_le_mul_of_nonneg_left ?_ hD0)
      have : (euc fun c => P.alpha * ((sts k).x c - st.x c)) = P.alpha • (euc (sts k).x - euc st.x) := rfl
      rw [this, norm_smul, Real.norm_of_nonneg hal]
      exact mul_le_mul_of_nonneg_left hAk hal
    rw [hLam]; linarith
  obtain ⟨-, hw⟩ := hwalk
  rw [sum_perm Q hidx] at hw
  have hQ : ∑ i : Fin n, Q i = (n : ℝ) • gradV P st.x := by
    rw [← maskW_grad_sum hP h]
    exact Finset.sum_congr rfl fun i _ => by simp [Q, G]
  have hl : sts n = st' := hlen ▸ hend
  rw [hQ] at hw
  simp only [h0, hl, add_zero, zero_add] at hw
  have hsmul : step • (n : ℝ) • gradV P st.x = g • gradV P st.x := by rw [smul_smul, hg, mul_comm]
  rw [hsmul] at hw
  have hc := gradV_contract h st.x hg0.le (by
    have : g * L ≤ g * Lam := mul_le_mul_of_nonneg_left hLL hg0.le
    linarith [mul_pos hg0 hLam0] : g * (M * R + P.alpha) ≤ 1)
  have hgr := gradV_le h st.x
  set e := ‖euc st.x - euc xs‖ with he
  have he0 : 0 ≤ e := norm_nonneg _
  have htri : ‖euc st'.x - euc xs‖ ≤ ‖(euc st.x - euc xs) - g • gradV P st.x‖ + ‖euc st'.x - euc st.x + g • gradV P st.x‖ := by
    refine le_trans (le_of_eq ?_) (norm_add_le _ _)
    congr 1; abel
  have hfin : n * step * (Lam * (2 * n * step * (D * ‖gradV P st.x‖))) ≤ g * mu / 4 * e := by
    have e1 : n * step * (Lam * (2 * n * step * (D * ‖gradV P st.x‖))) = 2 * g ^ 2 * (Lam * D) * ‖gradV P st.x‖ := by rw [hg]; ring
    rw [e1]
    have e2 : 2 * g ^ 2 * (Lam * D) * ‖gradV P st.x‖ ≤ 2 * g ^ 2 * (Lam * D) * (L * e) := mul_le_mul_of_nonneg_left hgr (by positivity)
    have e3 := mul_le_mul_of_nonneg_right hs1 (mul_nonneg hg0.le he0)
    nlinarith
  linarith

theorem norm_euc_sub {p : ℕ} (x y : Fin p → ℝ) : ‖euc x - euc y‖ = √(sqDist x y) := by
  have : euc x - euc y = euc fun c => x c - y c := rfl
  rw [this, norm_euc]; rfl

theorem sum_abs_le {p : ℕ} (x y : Fin p → ℝ) : ∑ c, |x c - y c| ≤ √p * ‖euc x - euc y‖ := by
  have h1 : (∑ c, |x c - y c|) ^ 2 ≤ p * ∑ c, |x c - y c| ^ 2 := by
    have := sq_sum_le_card_mul_sum_sq (s := Finset.univ) (f := fun c => |x c - y c|)
    simpa using this
  refine (abs_le_of_sq_le_sq' ?_ (by positivity)).2
  rw [mul_pow, Real.sq_sqrt (Nat.cast_nonneg p), norm_euc_sub,
    Real.sq_sqrt (show 0 ≤ sqDist x y from Finset.sum_nonneg fun c _ => sq_nonneg _)]
  refine h1.trans (le_of_eq ?_)
  simp [sqDist]

theorem svrgEpoch_total (hP : P.Good) (h : SmoothRegular P M R D mu xs) (hfull : FullBlocks P) {S : Support n P.blocks.nb}
    (hS : SupportOk P.A hP.blocks S) (step : ℝ) (snap avg : Fin p → ℝ) : ∀ (idx : List ℕ) (st : SvrgState ℝ p), (∀ i ∈ idx, i < n) →
    ∃ st', svrgEpoch P S step snap avg st idx = some st'
  | [], st, _ => ⟨st, rfl⟩
  | i :: idx, st, hi => by
    obtain ⟨s2, h2, -⟩ := svrgStep_dir hP h hfull hS step snap avg st ⟨i, hi i (by simp)⟩
    obtain ⟨s3, h3⟩ := svrgEpoch_total hP h hfull hS step snap avg idx s2 (fun j hj => hi j (by simp [hj]))
    refine ⟨s3, ?_⟩
    unfold svrgEpoch at h3 ⊢
    rw [List.foldlM_cons, h2]
    exact h3

theorem svrgLoop_contract (hP : P.Good) (h : SmoothRegular P M R D mu xs) (hfull : FullBlocks P) {S : Support n P.blocks.nb}
    (hS : SupportOk P.A hP.blocks S) {step : ℝ} (hstep : 0 < step)
    (hs1 : 8 * (n * step) * ((M * R + P.alpha * D) * D * (M * R + P.alpha)) ≤ mu) (horder : ∀ k, (P.order k).Perm (List.range n))
    (hr0 : 0 ≤ 1 - n * step * mu / 4) (hr1 : 1 - n * step * mu / 4 ≤ 1) : ∀ (rem it : ℕ) (st : SvrgState ℝ p), ∃ r,
    svrgLoop P S step rem it st = some r ∧ it ≤ r.nit ∧ r.nit ≤ it + rem ∧
      ‖euc r.x - euc xs‖ ≤ (1 - n * step * mu / 4) ^ (r.nit + 1 - it) * ‖euc st.x - euc xs‖ ∧
      (r.success = false → r.nit = it + rem ∧ P.tol ≤ 2 * √p * ((1 - n * step * mu / 4) ^ (r.nit - it) * ‖euc st.x - euc xs‖)) := by
  set rho := 1 - n * step * mu / 4 with hrho
  intro rem
  induction rem with
  | zero =>
    intro it st
    have havg := fullGrad_spec P hP.csr st.x
    obtain ⟨st', hst'⟩ := svrgEpoch_total hP h hfull hS step st.x _ (P.order it) st (fun i hi => List.mem_range.mp ((horder it).subset hi))
    have hc := svrgEpoch_contract hP h hfull hS hstep hs1 _ st st' havg (horder it) hst'
    have hone : ∑ c, |st'.x c - st.x c| ≤ 2 * √p * (rho ^ 0 * ‖euc st.x - euc xs‖) := by
      refine (sum_abs_le _ _).trans ?_
      have : ‖euc st'.x - euc st.x‖ ≤ ‖euc st'.x - euc xs‖ + ‖euc st.x - euc xs‖ := by
        have e1 : euc st'.x - euc st.x = (euc st'.x - euc xs) - (euc st.x - euc xs) := by abel
        rw [e1]; exact norm_sub_le _ _
      have h2 : ‖euc st'.x - euc st.x‖ ≤ 2 * ‖euc st.x - euc xs‖ := by
        have := mul_le_mul_of_nonneg_right hr1 (norm_nonneg (euc st.x - euc xs))
        rw [hrho] at this
        linarith
      have := mul_le_mul_of_nonneg_left h2 (Real.sqrt_nonneg p)
      simp only [pow_zero, one_mul]
      linarith
    by_cases ht : ∑ c, |st'.x c - st.x c| < P.tol
    · refine ⟨⟨st'.x, true, it, st'⟩, ?_, le_rfl, le_rfl, by simpa using hc, by simp⟩
      rw [svrgLoop, havg]; simp [hst', ht]
    · refine ⟨⟨st'.x, false, it, st'⟩, ?_, le_rfl, le_rfl, by simpa using hc, fun _ => ⟨rfl, ?_⟩⟩
      · rw [svrgLoop, havg]; simp [hst', ht]
      · rw [Nat.sub_self]; exact (not_lt.mp ht).trans hone
  | succ rem ih =>
    intro it st
    have havg := fullGrad_spec P hP.csr st.x
    obtain ⟨st', hst'⟩ := svrgEpoch_total hP h hfull hS step st.x _ (P.order it) st (fun i hi => List.mem_range.mp ((horder it).subset hi))
    have hc := svrgEpoch_contract hP h hfull hS hstep hs1 _ st st' havg (horder it) hst'
    by_cases ht : ∑ c, |st'.x c - st.x c| < P.tol
    · refine ⟨⟨st'.x, true, it, st'⟩, ?_, le_rfl, by simp, by simpa using hc, by simp⟩
      rw [svrgLoop, havg]; simp [hst', ht]
    · obtain ⟨r, hr, h1, h2, h3, h4⟩ := ih (it + 1) st'
      refine ⟨r, ?_, by omega, by omega, ?_, fun hs => ?_⟩
      · rw [svrgLoop, havg]; simp [hst', ht, hr]
      · refine h3.trans ?_
        have e1 : r.nit + 1 - it = (r.nit + 1 - (it + 1)) + 1 := by omega
        rw [e1, pow_succ, mul_assoc]
        exact mul_le_mul_of_nonneg_left hc (pow_nonneg hr0 _)
      · obtain ⟨k1, k2⟩ := h4 hs
        refine ⟨by omega, k2.trans (mul_le_mul_of_nonneg_left ?_ (by positivity))⟩
        have e1 : r.nit - it = (r.nit - (it + 1)) + 1 := by omega
        rw [e1, pow_succ, mul_assoc]
        exact mul_le_mul_of_nonneg_left hc (pow_nonneg hr0 _)

theorem support_ne_nil (hP : P.Good) (h : SmoothRegular P M R D mu xs) (hp : 0 < p) {S : Support n P.blocks.nb} (hS : SupportOk P.A hP.blocks S) :
    S.bs ≠ [] := by
  obtain ⟨i, hi⟩ := h.touched (hP.blocks.of ⟨0, hp⟩)
  have h1 := hS.count (hP.blocks.of ⟨0, hp⟩)
  have hpos : 0 < touchCount P.A P.blocks.ptr (hP.blocks.of ⟨0, hp⟩) := by
    classical
    unfold touchCount
    exact Finset.card_pos.mpr ⟨i, by simpa using hi⟩
  intro hnil
  rw [hnil] at h1
  simp at h1
  omega

/-- **C83.** `minimize_svrg` on a smooth problem, with passes that visit every sample once in any order whatever: it returns, after `nit + 1` passes the
distance of the result to the minimiser is at most `(1 - n step mu / 4)^(nit + 1)` times the initial distance, and without success all `max_iter` passes
were made and `tol` is at most `2 √p (1 - n step mu / 4)^nit` times the initial distance - so for positive `tol` and enough passes it succeeds. -/
theorem C83_svrg_any_order (hp : 0 < p) (hP : P.Good) (h : SmoothRegular P M R D mu xs) (hfull : FullBlocks P)
    {step : ℝ} (hss : P.stepSize = some step) (hstep : 0 < step) (hs1 : 8 * (n * step) * ((M * R + P.alpha * D) * D * (M * R + P.alpha)) ≤ mu)
    (horder : ∀ k, (P.order k).Perm (List.range n)) (hmax : 0 < P.maxIter) : ∃ r, minimizeSvrg P = .ok r ∧
      √(sqDist r.x xs) ≤ (1 - n * step * mu / 4) ^ (r.nit + 1) * √(sqDist P.x0 xs) ∧
      (r.success = false → r.nit + 1 = P.maxIter ∧ P.tol ≤ 2 * √p * ((1 - n * step * mu / 4) ^ r.nit * √(sqDist P.x0 xs))) := by
  obtain ⟨S, hS, hok⟩ := hP.support
  have hn : (0 : ℝ) < n := by exact_mod_cast h.samples
  have hL : 0 < M * R + P.alpha := h.strong_pos.trans_le h.strong_le
  have hmu := h.strong_pos
  have hD1 := h.often_one
  have hMR : 0 ≤ M * R := mul_nonneg h.nonneg (R_nonneg h)
  have hg : 0 < n * step := by positivity
  have hg1 : n * step * mu ≤ 1 := by
    have hLam : M * R + P.alpha ≤ (M * R + P.alpha * D) * D := by
      have := h.alpha
      nlinarith [mul_nonneg hMR (sub_nonneg.mpr hD1), mul_nonneg this (sub_nonneg.mpr hD1), mul_nonneg (mul_nonneg this (sub_nonneg.mpr hD1)) (zero_le_one.trans hD1)]
    have h1 : 8 * (n * step) * ((M * R + P.alpha) * (M * R + P.alpha)) ≤ mu :=
      (mul_le_mul_of_nonneg_left (mul_le_mul_of_nonneg_right hLam hL.le) (by positivity)).trans hs1
    have h2 : 8 * (n * step) * (M * R + P.alpha) ≤ 1 := by
      refine le_of_mul_le_mul_right ?_ hL
      calc _ = 8 * (n * step) * ((M * R + P.alpha) * (M * R + P.alpha)) := by ring
        _ ≤ mu := h1
        _ ≤ 1 * (M * R + P.alpha) := by rw [one_mul]; exact h.strong_le
    have h3 : n * step * mu ≤ n * step * (M * R + P.alpha) := mul_le_mul_of_nonneg_left h.strong_le hg.le
    nlinarith [mul_nonneg hg.le hL.le]
  obtain ⟨k, hk⟩ : ∃ k, P.maxIter = k + 1 := ⟨P.maxIter - 1, by omega⟩
  obtain ⟨r, hr, -, h2, h3, h4⟩ := svrgLoop_contract hP h hfull hok hstep hs1 horder (by linarith) (by nlinarith [mul_pos hg hmu]) k 0
    { x := P.x0, tmp := fun _ => 0 }
  refine ⟨r, ?_, ?_, fun hs => ?_⟩
  · unfold minimizeSvrg
    rw [hss, hS, hk]
    simp only [orFault, bind, Except.bind]
    rw [if_neg (support_ne_nil hP h hp hok), hr]
  · rw [← norm_euc_sub, ← norm_euc_sub]; simpa using h3
  · obtain ⟨k1, k2⟩ := h4 hs
    rw [← norm_euc_sub]
    exact ⟨by omega, by simpa using k2⟩

end Svrg

/-! ### SAGA -/

section Saga
variable {P : VRArgs ℝ n p} {M R D mu : ℝ} {xs : Fin p → ℝ}

/-- The arrays between two inner iterations: the average of the memory and the cleared scratch array. -/
structure SagaClean (P : VRArgs ℝ n p) (st : SagaState ℝ n p) : Prop where
  avg : ∀ c : Fin p, st.avg c = (∑ i, st.mem i * P.A.ent i c) / (n : ℝ)
  tmp : st.tmp = fun _ => 0

/-- One SAGA step in closed form. -/
theorem sagaStep_dir (hP : P.Good) (h : SmoothRegular P M R D mu xs) {S : Support n P.blocks.nb} (hS : SupportOk P.A hP.blocks S)
    (step : ℝ) (st : SagaState ℝ n p) (hcl : SagaClean P st) (i : Fin n) : ∃ st', sagaStep P S step st i = some st' ∧ SagaClean P st' ∧
      st'.mem = Function.update st.mem i (P.gi st.x i) ∧
      ∀ c, st'.x c = st.x c - step * ((P.gi st.x i - st.mem i) * P.A.ent i c + maskW P hP i c * (st.avg c + P.alpha * st.x c)) := by
  obtain ⟨hs, -, h1⟩ := sagaStep_spec P hP hS step st hcl.tmp i
  rw [h.noPenalty] at h1
  refine ⟨_, h1, ⟨fun c => ?_, rfl⟩, rfl, fun c => ?_⟩
  · show st.avg c + (P.gi st.x i - st.mem i) * P.A.ent i c / (n : ℝ) = (∑ j, Function.update st.mem i (P.gi st.x i) j * P.A.ent j c) / (n : ℝ)
    rw [hcl.avg c, ← add_div]
    congr 1
    have e1 : ∀ j, Function.update st.mem i (P.gi st.x i) j * P.A.ent j c = st.mem j * P.A.ent j c +
        if j = i then (P.gi st.x i - st.mem i) * P.A.ent i c else 0 := by
      intro j
      by_cases hj : j = i
      · subst hj; simp; ring
      · simp [hj]
    rw [Finset.sum_congr rfl fun j _ => e1 j, Finset.sum_add_distrib]
    simp
  · show sagaMid P hP step st i c = _
    unfold sagaMid maskW
    by_cases hc : Near P.A hP.blocks i c
    · rw [if_pos hc, if_pos hc]
    · rw [if_neg hc, if_neg hc, ent_eq_zero fun hh => hc (near_of_stores hP.blocks hh)]; ring

theorem sagaEpoch_total (hP : P.Good) (h : SmoothRegular P M R D mu xs) {S : Support n P.blocks.nb} (hS : SupportOk P.A hP.blocks S) (step : ℝ) :
    ∀ (idx : List ℕ) (st : SagaState ℝ n p), SagaClean P st → (∀ i ∈ idx, i < n) → ∃ st', sagaEpoch P S step st idx = some st'
  | [], st, _, _ => ⟨st, rfl⟩
  | i :: idx, st, hcl, hi => by
    obtain ⟨s2, h2, hc2, -⟩ := sagaStep_dir hP h hS step st hcl ⟨i, hi i (by simp)⟩
    obtain ⟨s3, h3⟩ := sagaEpoch_total hP h hS step idx s2 hc2 (fun j hj => hi j (by simp [hj]))
    refine ⟨s3, ?_⟩
    unfold sagaEpoch at h3 ⊢
    rw [List.foldlM_cons, h2]
    exact h3

/-- The Lyapunov function of a pass decreases. -/
theorem saga_pass_arith {e e' m m' g mu Lam D L B : ℝ} (he : 0 ≤ e) (hm : 0 ≤ m) (hg : 0 < g) (hD : 1 ≤ D) (hL : 0 < L) (hmuL : mu ≤ L)
    (hLL : L ≤ Lam) (hs : 40 * g * (Lam * D * L) ≤ mu) (hB : B = D * L * e + m) (h1 : e' ≤ (1 - g * mu / 2) * e + g * (m + 2 * g * Lam * B))
    (h2 : m' ≤ 4 * g * Lam * B) : e' + 2 * g * m' ≤ (1 - g * mu / 4) * (e + 2 * g * m) := by
  have hLam : 0 < Lam := hL.trans_le hLL
  have hD0 : 0 < D := zero_lt_one.trans_le hD
  have k1 : 40 * g * (Lam * D) ≤ 1 := by
    refine le_of_mul_le_mul_right ?_ hL
    calc 40 * g * (Lam * D) * L = 40 * g * (Lam * D * L) := by ring
      _ ≤ 1 * L := by linarith
  have k2 : 40 * g * Lam ≤ 1 := by
    have : 40 * g * Lam * 1 ≤ 40 * g * Lam * D := mul_le_mul_of_nonneg_left hD (by positivity)
    linarith
  have k3 : 40 * (g * mu) ≤ 1 := by
    have : g * mu ≤ g * Lam := mul_le_mul_of_nonneg_left (hmuL.trans hLL) hg.le
    linarith
  have k4 : 10 * g ^ 2 * Lam * B ≤ g * mu / 4 * e + 10 * g ^ 2 * Lam * m := by
    rw [hB]
    have := mul_le_mul_of_nonneg_right hs (mul_nonneg hg.le he)
    nlinarith
  have k5 : 10 * g ^ 2 * Lam * m ≤ g * m / 4 := by
    have := mul_le_mul_of_nonneg_right k2 (mul_nonneg hg.le hm)
    nlinarith
  have k6 : g * mu * (g * m) ≤ g * m / 40 := by
    have := mul_le_mul_of_nonneg_right k3 (mul_nonneg hg.le hm)
    linarith
  have k7 : 2 * g * m' ≤ 8 * g ^ 2 * Lam * B := by
    have := mul_le_mul_of_nonneg_left h2 (by positivity : 0 ≤ 2 * g)
    nlinarith
  nlinarith [mul_nonneg hg.le hm]

theorem sagaEpoch_contract (hP : P.Good) (h : SmoothRegular P M R D mu xs) {S : Support n P.blocks.nb} (hS : SupportOk P.A hP.blocks S)
    {step : ℝ} (hstep : 0 < step) (hs1 : 40 * (n * step) * (((1 + D) * (M * R) + P.alpha * D) * D * (M * R + P.alpha)) ≤ mu)
    (st : SagaState ℝ n p) (hcl : SagaClean P st) {m : ℝ} (hm : 0 ≤ m) (herr : ∀ j, |st.mem j - P.gi st.x j| * ‖rowV P j‖ ≤ m)
    {idx : List ℕ} (hidx : idx.Perm (List.range n)) : ∃ st', sagaEpoch P S step st idx = some st' ∧ SagaClean P st' ∧ ∃ m', 0 ≤ m' ∧
      (∀ j, |st'.mem j - P.gi st'.x j| * ‖rowV P j‖ ≤ m') ∧
      ‖euc st'.x - euc xs‖ + 2 * (n * step) * ((1 + D) * m') ≤ (1 - n * step * mu / 4) * (‖euc st.x - euc xs‖ + 2 * (n * step) * ((1 + D) * m)) := by
  have hn : (0 : ℝ) < n := by exact_mod_cast h.samples
  have hlen : idx.length = n := by simpa using hidx.length_eq
  have hMR : 0 ≤ M * R := mul_nonneg h.nonneg (R_nonneg h)
  have hal := h.alpha
  have hD1 := h.often_one
  have hD0 : 0 ≤ D := zero_le_one.trans hD1
  have hL : 0 < M * R + P.alpha := h.strong_pos.trans_le h.strong_le
  have hnd : idx.Nodup := hidx.nodup_iff.mpr List.nodup_range
  set L := M * R + P.alpha with hLdef
  set Lam := (1 + D) * (M * R) + P.alpha * D with hLam
  have hLL : L ≤ Lam := by rw [hLdef, hLam]; nlinarith [mul_nonneg hD0 hMR]
  set g := n * step with hg
  have hg0 : 0 < g := by positivity
  have hLam0 : 0 < Lam := hL.trans_le hLL
  have hgLam : 40 * g * Lam ≤ 1 := by
    have k1 : 40 * g * (Lam * D) ≤ 1 := by
      refine le_of_mul_le_mul_right ?_ hL
      calc 40 * g * (Lam * D) * L = 40 * g * (Lam * D * L) := by ring
        _ ≤ mu := hs1
        _ ≤ 1 * L := by rw [one_mul]; exact h.strong_le
    have : 40 * g * Lam * 1 ≤ 40 * g * Lam * D := mul_le_mul_of_nonneg_left hD1 (by positivity)
    linarith
  have hlt : ∀ i ∈ idx, i < n := fun i hi => List.mem_range.mp (hidx.subset hi)
  obtain ⟨st', hrun⟩ := sagaEpoch_total hP h hS step idx st hcl hlt
  obtain ⟨sts, h0, hend, hsteps⟩ := foldlM_trace _ idx st st' hrun
  have hmem : ∀ k (hk : k < idx.length), idx[k] < n := fun k hk => hlt _ (List.getElem_mem hk)
  -- the arrays along the pass
  have hinv : ∀ k ≤ n, SagaClean P (sts k) ∧ (∀ j : Fin n, j.val ∉ idx.take k → (sts k).mem j = st.mem j) ∧
      ∀ j : Fin n, j.val ∈ idx.take k → ∃ t < k, (sts k).mem j = P.gi (sts t).x j := by
    intro k
    induction k with
    | zero => intro _; rw [h0]; exact ⟨hcl, fun _ _ => rfl, fun j hj => by simp at hj⟩
    | succ k ih =>
      intro hk
      obtain ⟨i1, i2, i3⟩ := ih (by omega)
      have hk' : k < idx.length := by omega
      obtain ⟨s2, hs2, hc2, hm2, -⟩ := sagaStep_dir hP h hS step (sts k) i1 ⟨idx[k], hmem k hk'⟩
      have := hsteps k hk'
      rw [hs2] at this
      obtain rfl := Option.some.inj this
      have htake : ∀ j, j ∈ idx.take (k + 1) ↔ j ∈ idx.take k ∨ j = idx[k] := by
        intro j; rw [List.take_succ_eq_append_getElem hk', List.mem_append, List.mem_singleton]
      refine ⟨hc2, fun j hj => ?_, fun j hj => ?_⟩
      · rw [htake] at hj
        push Not at hj
        rw [hm2, Function.update_of_ne (fun hh => hj.2 (by rw [hh])), i2 j hj.1]
      · rw [htake] at hj
        by_cases hji : j = ⟨idx[k], hmem k hk'⟩
        · refine ⟨k, by omega, ?_⟩
          rw [hm2, hji, Function.update_self]
        · rcases hj with hj | hj
          · obtain ⟨t, ht, he⟩ := i3 j hj
            exact ⟨t, by omega, by rw [hm2, Function.update_of_ne hji, he]⟩
          · exact absurd (Fin.ext hj) hji
  let G : Fin p → ℝ := finiteSumGrad (fun i (c : Fin p) => P.A.ent i c) P.b P.deriv P.alpha st.x
  let Q : ℕ → EuclideanSpace ℝ (Fin p) := fun i => if hi : i < n then euc (fun c => maskW P hP ⟨i, hi⟩ c * G c) else 0
  let d : ℕ → EuclideanSpace ℝ (Fin p) := fun k => if hi : idx.getD k 0 < n then
    euc (fun c => (P.gi (sts k).x ⟨idx.getD k 0, hi⟩ - (sts k).mem ⟨idx.getD k 0, hi⟩) * P.A.ent (⟨idx.getD k 0, hi⟩ : Fin n) c +
      maskW P hP ⟨idx.getD k 0, hi⟩ c * ((sts k).avg c + P.alpha * (sts k).x c)) else 0
  have hwalk := walk_drift (n := n) (g := step) (B0 := D * ‖gradV P st.x‖) (m := (1 + D) * m) (Lam := Lam) (fun k => euc (sts k).x) d
    (fun k => Q (idx.getD k 0)) hstep.le (by positivity) (by positivity) hLam0.le ?_ ?_ ?_ (by nlinarith [mul_pos hg0 hLam0])
  rotate_left
  · intro k hk
    have hk' : k < idx.length := hlen ▸ hk
    have hget : idx.getD k 0 = idx[k] := by simp [hk']
    obtain ⟨s2, hs2, -, -, hx⟩ := sagaStep_dir hP h hS step (sts k) (hinv k hk.le).1 ⟨idx[k], hmem k hk'⟩
    have := hsteps k hk'
    rw [hs2] at this
    obtain rfl := Option.some.inj this
    ext c
    simp only [d, hget, hmem k hk', dif_pos, PiLp.sub_apply, PiLp.smul_apply, smul_eq_mul]
    exact hx c
  · intro k hk
    have hk' : k < idx.length := hlen ▸ hk
    have hget : idx.getD k 0 = idx[k] := by simp [hk']
    simp only [Q, hget, hmem k hk', dif_pos]
    exact norm_scale_le _ _ (maskW_le hP h _) hD0
  · intro k hk A hA
    have hk' : k < idx.length := hlen ▸ hk
    have hget : idx.getD k 0 = idx[k] := by simp [hk']
    obtain ⟨i1, i2, i3⟩ := hinv k hk.le
    simp only [d, Q, hget, hmem k hk', dif_pos]
    set i : Fin n := ⟨idx[k], hmem k hk'⟩ with hi
    have hA' : ∀ t ≤ k, ‖euc (sts t).x - euc st.x‖ ≤ A := fun t ht => by simpa [h0] using hA t ht
    have hA0 : 0 ≤ A := (norm_nonneg _).trans (hA' k le_rfl)
    have hmi : (sts k).mem i = st.mem i := i2 i (by
      intro hc
      obtain ⟨t, ht, he⟩ := List.mem_take_iff_getElem.mp hc
      have : t = k := (List.Nodup.getElem_inj_iff hnd).mp he
      omega)
    have hmj : ∀ j, |(sts k).mem j - P.gi st.x j| * ‖rowV P j‖ ≤ m + M * R * A := by
      intro j
      by_cases hj : j.val ∈ idx.take k
      · obtain ⟨t, ht, he⟩ := i3 j hj
        rw [he]
        have := (gi_lip h j (sts t).x st.x).trans (mul_le_mul_of_nonneg_left (hA' t ht.le) hMR)
        linarith
      · rw [i2 j hj]
        have := herr j
        have := mul_nonneg hMR hA0
        linarith
    have hsplit : (euc fun c => (P.gi (sts k).x i - (sts k).mem i) * P.A.ent i c + maskW P hP i c * ((sts k).avg c + P.alpha * (sts k).x c)) -
        euc (fun c => maskW P hP i c * G c) =
        (P.gi (sts k).x i - P.gi st.x i) • rowV P i - (st.mem i - P.gi st.x i) • rowV P i +
          euc (fun c => maskW P hP i c * ((∑ j, ((sts k).mem j - P.gi st.x j) * P.A.ent j c) / n + P.alpha * ((sts k).x c - st.x c))) := by
      ext c
      simp only [PiLp.sub_apply, PiLp.add_apply, PiLp.smul_apply, smul_eq_mul, G, finiteSumGrad, i1.avg c, hmi, sub_mul, Finset.sum_sub_distrib, sub_div]
      simp only [VRArgs.gi]
      ring
    rw [hsplit]
    refine (norm_add_le _ _).trans ?_
    have b1 : ‖(P.gi (sts k).x i - P.gi st.x i) • rowV P i‖ ≤ M * R * A := by
      rw [norm_smul, Real.norm_eq_abs]
      exact (gi_lip h i _ _).trans (mul_le_mul_of_nonneg_left (hA' k le_rfl) hMR)
    have b2 : ‖(st.mem i - P.gi st.x i) • rowV P i‖ ≤ m := by
      rw [norm_smul, Real.norm_eq_abs]; exact herr i
    have b3 : ‖euc (fun c => maskW P hP i c * ((∑ j, ((sts k).mem j - P.gi st.x j) * P.A.ent j c) / n + P.alpha * ((sts k).x c - st.x c)))‖ ≤
        D * (m + M * R * A + P.alpha * A) := by
      refine (norm_scale_le _ _ (maskW_le hP h i) hD0).trans (mul_le_mul_of_nonneg_left ?_ hD0)
      have e1 : (euc fun c => (∑ j, ((sts k).mem j - P.gi st.x j) * P.A.ent j c) / n + P.alpha * ((sts k).x c - st.x c)) =
          (1 / (n : ℝ)) • ∑ j, ((sts k).mem j - P.gi st.x j) • rowV P j + P.alpha • (euc (sts k).x - euc st.x) := by
        ext c
        simp only [PiLp.sub_apply, PiLp.add_apply, PiLp.smul_apply, smul_eq_mul, WithLp.ofLp_sum, Finset.sum_apply, WithLp.ofLp_smul, Pi.smul_apply]
        ring
      rw [e1]
      refine (norm_add_le _ _).trans (add_le_add ?_ ?_)
      · rw [norm_smul, Real.norm_of_nonneg (by positivity)]
        have : ‖∑ j, ((sts k).mem j - P.gi st.x j) • rowV P j‖ ≤ n * (m + M * R * A) := by
          refine (norm_sum_le _ _).trans ?_
          have hle : ∀ j ∈ (Finset.univ : Finset (Fin n)), ‖((sts k).mem j - P.gi st.x j) • rowV P j‖ ≤ m + M * R * A := fun j _ => by
            rw [norm_smul, Real.norm_eq_abs]; exact hmj j
          refine (Finset.sum_le_sum hle).trans (le_of_eq ?_)
          rw [Finset.sum_const, nsmul_eq_mul, Finset.card_univ, Fintype.card_fin]
        calc 1 / (n : ℝ) * _ ≤ 1 / (n : ℝ) * (n * (m + M * R * A)) := mul_le_mul_of_nonneg_left this (by positivity)
          _ = _ := by field_simp
      · rw [norm_smul, Real.norm_of_nonneg hal]
        exact mul_le_mul_of_nonneg_left (hA' k le_rfl) hal
    have b4 := norm_sub_le ((P.gi (sts k).x i - P.gi st.x i) • rowV P i) ((st.mem i - P.gi st.x i) • rowV P i)
    rw [hLam]; linarith
  obtain ⟨hdrift, hw⟩ := hwalk
  rw [sum_perm Q hidx] at hw
  have hQ : ∑ i : Fin n, Q i = (n : ℝ) • gradV P st.x := by
    rw [← maskW_grad_sum hP h]
    exact Finset.sum_congr rfl fun i _ => by simp [Q, G]
  have hl : sts n = st' := hlen ▸ hend
  rw [hQ] at hw
  simp only [h0, hl] at hw hdrift
  have hsmul : step • (n : ℝ) • gradV P st.x = g • gradV P st.x := by rw [smul_smul, hg, mul_comm]
  rw [hsmul] at hw
  have hc := gradV_contract h st.x hg0.le (by
    have : g * L ≤ g * Lam := mul_le_mul_of_nonneg_left hLL hg0.le
    linarith [mul_pos hg0 hLam0] : g * (M * R + P.alpha) ≤ 1)
  have hgr := gradV_le h st.x
  set e := ‖euc st.x - euc xs‖ with he
  have he0 : 0 ≤ e := norm_nonneg _
  set B := D * L * e + (1 + D) * m with hB
  have hBle : D * ‖gradV P st.x‖ + (1 + D) * m ≤ B := by
    have := mul_le_mul_of_nonneg_left hgr hD0
    rw [hB]; linarith
  have hB0 : 0 ≤ B := le_trans (by positivity) hBle
  have hdr : ∀ k ≤ n, ‖euc (sts k).x - euc st.x‖ ≤ 2 * g * B := by
    intro k hk
    refine (hdrift k hk).trans ?_
    have hkn : (k : ℝ) ≤ n := by exact_mod_cast hk
    calc 2 * (k : ℝ) * step * (D * ‖gradV P st.x‖ + (1 + D) * m) ≤ 2 * (k : ℝ) * step * B := mul_le_mul_of_nonneg_left hBle (by positivity)
      _ ≤ 2 * n * step * B := by
        refine mul_le_mul_of_nonneg_right (mul_le_mul_of_nonneg_right (by linarith) hstep.le) hB0
      _ = _ := by rw [hg]; ring
  obtain ⟨c1, -, c3⟩ := hinv n le_rfl
  rw [hl] at c1 c3
  have hfull : idx.take n = idx := by rw [← hlen]; exact List.take_length
  rw [hfull] at c3
  refine ⟨st', hrun, c1, M * R * (4 * g * B), by positivity, fun j => ?_, ?_⟩
  · obtain ⟨t, ht, hj⟩ := c3 j (hidx.symm.subset (List.mem_range.mpr j.isLt))
    rw [hj]
    refine (gi_lip h j _ _).trans (mul_le_mul_of_nonneg_left ?_ hMR)
    have d1 := hdr t ht.le
    have d2 := hdr n le_rfl
    rw [hl] at d2
    have e1 : euc (sts t).x - euc st'.x = (euc (sts t).x - euc st.x) - (euc st'.x - euc st.x) := by abel
    rw [e1]
    refine (norm_sub_le _ _).trans ?_
    linarith
  · have htri : ‖euc st'.x - euc xs‖ ≤ ‖(euc st.x - euc xs) - g • gradV P st.x‖ + ‖euc st'.x - euc st.x + g • gradV P st.x‖ := by
      refine le_trans (le_of_eq ?_) (norm_add_le _ _)
      congr 1; abel
    have hfin : n * step * ((1 + D) * m + Lam * (2 * n * step * (D * ‖gradV P st.x‖ + (1 + D) * m))) ≤ g * ((1 + D) * m + 2 * g * Lam * B) := by
      refine mul_le_mul_of_nonneg_left (add_le_add le_rfl ?_) hg0.le
      calc Lam * (2 * n * step * (D * ‖gradV P st.x‖ + (1 + D) * m)) = 2 * g * Lam * (D * ‖gradV P st.x‖ + (1 + D) * m) := by rw [hg]; ring
        _ ≤ _ := mul_le_mul_of_nonneg_left hBle (by positivity)
    refine saga_pass_arith he0 (by positivity) hg0 hD1 hL h.strong_le hLL hs1 hB (by linarith) ?_
    have : (1 + D) * (M * R) ≤ Lam := by rw [hLam]; nlinarith [mul_nonneg hal hD0]
    calc (1 + D) * (M * R * (4 * g * B)) = (1 + D) * (M * R) * (4 * g * B) := by ring
      _ ≤ Lam * (4 * g * B) := mul_le_mul_of_nonneg_right this (by positivity)
      _ = _ := by ring

theorem sagaLoop_contract (hP : P.Good) (h : SmoothRegular P M R D mu xs) {S : Support n P.blocks.nb} (hS : SupportOk P.A hP.blocks S)
    {step : ℝ} (hstep : 0 < step) (hs1 : 40 * (n * step) * (((1 + D) * (M * R) + P.alpha * D) * D * (M * R + P.alpha)) ≤ mu)
    (horder : ∀ k, (P.order k).Perm (List.range n)) (hr0 : 0 ≤ 1 - n * step * mu / 4) (hr1 : 1 - n * step * mu / 4 ≤ 1) :
    ∀ (rem it : ℕ) (st : SagaState ℝ n p) (m : ℝ), SagaClean P st → 0 ≤ m → (∀ j, |st.mem j - P.gi st.x j| * ‖rowV P j‖ ≤ m) → ∃ r,
    sagaLoop P S step rem it st = some r ∧ it ≤ r.nit ∧ r.nit ≤ it + rem ∧
      ‖euc r.x - euc xs‖ ≤ (1 - n * step * mu / 4) ^ (r.nit + 1 - it) * (‖euc st.x - euc xs‖ + 2 * (n * step) * ((1 + D) * m)) ∧
      (r.success = false → r.nit = it + rem ∧
        P.tol ≤ 2 * √p * ((1 - n * step * mu / 4) ^ (r.nit - it) * (‖euc st.x - euc xs‖ + 2 * (n * step) * ((1 + D) * m)))) := by
  set rho := 1 - n * step * mu / 4 with hrho
  have hD0 : 0 ≤ D := zero_le_one.trans h.often_one
  intro rem
  induction rem with
  | zero =>
    intro it st m hcl hm herr
    obtain ⟨st', hst', hcl', m', hm', herr', hc⟩ := sagaEpoch_contract hP h hS hstep hs1 st hcl hm herr (horder it)
    rw [← hrho] at hc
    set W := ‖euc st.x - euc xs‖ + 2 * (n * step) * ((1 + D) * m) with hW
    have hx' : ‖euc st'.x - euc xs‖ ≤ rho * W := by
      have : 0 ≤ 2 * (n * step) * ((1 + D) * m') := by positivity
      linarith
    have hxW : ‖euc st.x - euc xs‖ ≤ W := by
      have : 0 ≤ 2 * (n * step) * ((1 + D) * m) := by positivity
      linarith
    have hW0 : 0 ≤ W := (norm_nonneg _).trans hxW
    have hone : ∑ c, |st'.x c - st.x c| ≤ 2 * √p * (rho ^ 0 * W) := by
      refine (sum_abs_le _ _).trans ?_
      have : ‖euc st'.x - euc st.x‖ ≤ ‖euc st'.x - euc xs‖ + ‖euc st.x - euc xs‖ := by
        have e1 : euc st'.x - euc st.x = (euc st'.x - euc xs) - (euc st.x - euc xs) := by abel
        rw [e1]; exact norm_sub_le _ _
      have h2 : ‖euc st'.x - euc st.x‖ ≤ 2 * W := by
        have := mul_le_mul_of_nonneg_right hr1 hW0
        linarith
      have := mul_le_mul_of_nonneg_left h2 (Real.sqrt_nonneg p)
      simp only [pow_zero, one_mul]
      linarith
    by_cases ht : ∑ c, |st'.x c - st.x c| < P.tol
    · refine ⟨⟨st'.x, true, it, st'⟩, ?_, le_rfl, le_rfl, by simpa using hx', by simp⟩
      rw [sagaLoop]; simp [hst', ht]
    · refine ⟨⟨st'.x, false, it, st'⟩, ?_, le_rfl, le_rfl, by simpa using hx', fun _ => ⟨rfl, ?_⟩⟩
      · rw [sagaLoop]; simp [hst', ht]
      · rw [Nat.sub_self]; exact (not_lt.mp ht).trans hone
  | succ rem ih =>
    intro it st m hcl hm herr
    obtain ⟨st', hst', hcl', m', hm', herr', hc⟩ := sagaEpoch_contract hP h hS hstep hs1 st hcl hm herr (horder it)
    rw [← hrho] at hc
    set W := ‖euc st.x - euc xs‖ + 2 * (n * step) * ((1 + D) * m) with hW
    have hx' : ‖euc st'.x - euc xs‖ ≤ rho * W := by
      have : 0 ≤ 2 * (n * step) * ((1 + D) * m') := by positivity
      linarith
    by_cases ht : ∑ c, |st'.x c - st.x c| < P.tol
    · refine ⟨⟨st'.x, true, it, st'⟩, ?_, le_rfl, by simp, by simpa using hx', by simp⟩
      rw [sagaLoop]; simp [hst', ht]
    · obtain ⟨r, hr, h1, h2, h3, h4⟩ := ih (it + 1) st' m' hcl' hm' herr'
      refine ⟨r, ?_, by omega, by omega, ?_, fun hs => ?_⟩
      · rw [sagaLoop]; simp [hst', ht, hr]
      · refine h3.trans ?_
        have e1 : r.nit + 1 - it = (r.nit + 1 - (it + 1)) + 1 := by omega
        rw [e1, pow_succ, mul_assoc (rho ^ _)]
        exact mul_le_mul_of_nonneg_left hc (pow_nonneg hr0 _)
      · obtain ⟨k1, k2⟩ := h4 hs
        refine ⟨by omega, k2.trans (mul_le_mul_of_nonneg_left ?_ (by positivity))⟩
        have e1 : r.nit - it = (r.nit - (it + 1)) + 1 := by omega
        rw [e1, pow_succ, mul_assoc (rho ^ _)]
        exact mul_le_mul_of_nonneg_left hc (pow_nonneg hr0 _)

/-- **C84.** `minimize_saga` on a smooth problem, with any block structure and passes that visit every sample once in any order whatever: it returns, after
`nit + 1` passes the distance of the result to the minimiser is at most `(1 - n step mu / 4)^(nit + 1)` times a constant fixed by the starting point, and
without success all `max_iter` passes were made and `tol` is at most `2 √p (1 - n step mu / 4)^nit` times that constant. -/
theorem C84_saga_any_order (hp : 0 < p) (hP : P.Good) (h : SmoothRegular P M R D mu xs)
    {step : ℝ} (hss : P.stepSize = some step) (hstep : 0 < step)
    (hs1 : 40 * (n * step) * (((1 + D) * (M * R) + P.alpha * D) * D * (M * R + P.alpha)) ≤ mu)
    (horder : ∀ k, (P.order k).Perm (List.range n)) (hmax : 0 < P.maxIter) (m : ℝ) (hm0 : 0 ≤ m)
    (hm : ∀ j : Fin n, |P.deriv (∑ c : Fin p, P.A.ent j c * P.x0 c) (P.b j)| * √(∑ c : Fin p, P.A.ent j c ^ 2) ≤ m) : ∃ r, minimizeSaga P = .ok r ∧
      √(sqDist r.x xs) ≤ (1 - n * step * mu / 4) ^ (r.nit + 1) * (√(sqDist P.x0 xs) + 2 * (n * step) * ((1 + D) * m)) ∧
      (r.success = false → r.nit + 1 = P.maxIter ∧
        P.tol ≤ 2 * √p * ((1 - n * step * mu / 4) ^ r.nit * (√(sqDist P.x0 xs) + 2 * (n * step) * ((1 + D) * m)))) := by
  obtain ⟨S, hS, hok⟩ := hP.support
  have hn : (0 : ℝ) < n := by exact_mod_cast h.samples
  have hL : 0 < M * R + P.alpha := h.strong_pos.trans_le h.strong_le
  have hmu := h.strong_pos
  have hD1 := h.often_one
  have hMR : 0 ≤ M * R := mul_nonneg h.nonneg (R_nonneg h)
  have hg : 0 < n * step := by positivity
  have hg1 : n * step * mu ≤ 1 := by
    have hLam : M * R + P.alpha ≤ ((1 + D) * (M * R) + P.alpha * D) * D := by
      have := h.alpha
      nlinarith [mul_nonneg hMR (sub_nonneg.mpr hD1), mul_nonneg this (sub_nonneg.mpr hD1), mul_nonneg (mul_nonneg this (sub_nonneg.mpr hD1)) (zero_le_one.trans hD1),
        mul_nonneg (mul_nonneg hMR (zero_le_one.trans hD1)) (zero_le_one.trans hD1)]
    have h1 : 40 * (n * step) * ((M * R + P.alpha) * (M * R + P.alpha)) ≤ mu :=
      (mul_le_mul_of_nonneg_left (mul_le_mul_of_nonneg_right hLam hL.le) (by positivity)).trans hs1
    have h2 : 40 * (n * step) * (M * R + P.alpha) ≤ 1 := by
      refine le_of_mul_le_mul_right ?_ hL
      calc _ = 40 * (n * step) * ((M * R + P.alpha) * (M * R + P.alpha)) := by ring
        _ ≤ mu := h1
        _ ≤ 1 * (M * R + P.alpha) := by rw [one_mul]; exact h.strong_le
    have h3 : n * step * mu ≤ n * step * (M * R + P.alpha) := mul_le_mul_of_nonneg_left h.strong_le hg.le
    nlinarith [mul_nonneg hg.le hL.le]
  obtain ⟨k, hk⟩ : ∃ k, P.maxIter = k + 1 := ⟨P.maxIter - 1, by omega⟩
  obtain ⟨r, hr, -, h2, h3, h4⟩ := sagaLoop_contract hP h hok hstep hs1 horder (by linarith) (by nlinarith [mul_pos hg hmu]) k 0
    (sagaInit P) m ⟨fun c => by simp [sagaInit], rfl⟩ hm0 (fun j => by
      have := hm j
      rw [norm_euc]
      simpa [sagaInit, VRArgs.gi] using this)
  refine ⟨r, ?_, ?_, fun hs => ?_⟩
  · unfold minimizeSaga
    rw [hss, hS, hk]
    simp only [orFault, bind, Except.bind]
    rw [if_neg (support_ne_nil hP h hp hok), hr]
  · rw [← norm_euc_sub, ← norm_euc_sub]; simpa [sagaInit] using h3
  · obtain ⟨k1, k2⟩ := h4 hs
    rw [← norm_euc_sub]
    exact ⟨by omega, by simpa [sagaInit] using k2⟩

end Saga

/-! ### A case that meets the hypotheses

Samples `(1, 0)` and `(0, 1)` with labels 3 and 1, squared loss and single-feature blocks, visited in turn forwards and backwards. -/

/-- Arguments of the example. -/
noncomputable def exAny (step : ℝ) : VRArgs ℝ 2 2 :=
  { A := exA, b := ![3, 1], deriv := fun t b => t - b, alpha := 0, x0 := ![0, 0], stepSize := some step,
    blocks := BlockMat.eye 2, prox := noProx, maxIter := 5, tol := 1, order := fun k => if k % 2 = 0 then [0, 1] else [1, 0] }

theorem exAny_regular (step : ℝ) : SmoothRegular (exAny step) 1 1 2 (1 / 2) ![3, 1] := by
  have htouch : ∀ h : Fin 2, Touches exA.indptr exA.indices (BlockMat.eye 2).ptr h h := fun h =>
    ⟨h.val, ⟨h, by fin_cases h <;> simp [exA], by fin_cases h <;> simp [exA], by fin_cases h <;> simp [exA]⟩, le_refl _, Nat.lt_succ_self _⟩
  refine ⟨by norm_num, rfl, fun b s t h => ?_, by norm_num, fun s t b => ?_, fun i => ?_, fun h => ⟨h, htouch h⟩, fun h T hT => ?_, by norm_num, le_refl _,
    fun c => ?_, by norm_num, by simp [exAny]; norm_num, fun y => ?_⟩
  · simpa [exAny] using h
  · simp [exAny]
  · show ∑ c : Fin 2, exA.ent i c ^ 2 ≤ 1
    simp only [exA_ent, Fin.sum_univ_two]
    fin_cases i <;> simp
  · have hpos : 1 ≤ T.card := Finset.card_pos.mpr ⟨h, (hT h).mpr (htouch h)⟩
    have : (1 : ℝ) ≤ T.card := by exact_mod_cast hpos
    push_cast; linarith
  · show finiteSumGrad (fun i (c : Fin 2) => exA.ent i c) ![3, 1] (fun t b => t - b) 0 ![3, 1] c = 0
    unfold finiteSumGrad
    simp only [exA_ent, Fin.sum_univ_two]
    fin_cases c <;> simp
  · show 1 / 2 * sqDist y ![3, 1] ≤ ∑ c, finiteSumGrad (fun i (c : Fin 2) => exA.ent i c) ![3, 1] (fun t b => t - b) 0 y c * (y c - (![3, 1] : Fin 2 → ℝ) c)
    unfold finiteSumGrad sqDist
    simp only [exA_ent, Fin.sum_univ_two]
    norm_num
    nlinarith

theorem exAny_good (step : ℝ) : (exAny step).Good := ⟨exA_good, exA_nodup, goodBlocks_eye 2⟩

theorem exAny_order (step : ℝ) (k : ℕ) : ((exAny step).order k).Perm (List.range 2) := by
  show (if k % 2 = 0 then [0, 1] else [1, 0]).Perm (List.range 2)
  split <;> decide

/-- Single-feature blocks are stored in full by the samples that touch them. -/
theorem fullBlocks_eye (P : VRArgs ℝ n p) (h : P.blocks = BlockMat.eye p) : FullBlocks P := by
  obtain ⟨A, b, deriv, alpha, x0, ss, blocks, prox, mi, tol, ord⟩ := P
  obtain rfl : blocks = BlockMat.eye p := h
  rintro i hb c hc ⟨c', hst, hb'⟩
  have h1 := hc.1
  have h2 := hc.2
  have h3 := hb'.1
  have h4 := hb'.2
  have e1 : ((BlockMat.eye p).ptr hb.castSucc : ℕ) = hb.val := rfl
  have e2 : ((BlockMat.eye p).ptr hb.succ : ℕ) = hb.val + 1 := rfl
  simp only [e1, e2] at h1 h2 h3 h4
  have : c' = c.val := by omega
  exact this ▸ hst

example : ∃ r, minimizeSvrg (exAny (1 / 64)) = .ok r ∧ √(sqDist r.x ![3, 1]) ≤ (255 / 256 : ℝ) ^ (r.nit + 1) * √(sqDist ![0, 0] ![3, 1]) := by
  obtain ⟨r, h1, h2, -⟩ := C83_svrg_any_order (by norm_num) (exAny_good (1 / 64)) (exAny_regular _) (fullBlocks_eye _ rfl) rfl (by norm_num)
    (by norm_num [exAny]) (exAny_order _) (by simp [exAny])
  refine ⟨r, h1, h2.trans (le_of_eq ?_)⟩
  norm_num [exAny]

example : ∃ r, minimizeSaga (exAny (1 / 960)) = .ok r ∧
    √(sqDist r.x ![3, 1]) ≤ (3839 / 3840 : ℝ) ^ (r.nit + 1) * (√(sqDist ![0, 0] ![3, 1]) + 9 / 240) := by
  obtain ⟨r, h1, h2, -⟩ := C84_saga_any_order (by norm_num) (exAny_good (1 / 960)) (exAny_regular _) rfl (by norm_num)
    (by norm_num [exAny]) (exAny_order _) (by simp [exAny]) 3 (by norm_num) (fun j => by
      show |(∑ c : Fin 2, exA.ent j c * (![0, 0] : Fin 2 → ℝ) c) - (![3, 1] : Fin 2 → ℝ) j| * √(∑ c : Fin 2, exA.ent j c ^ 2) ≤ 3
      simp only [exA_ent, Fin.sum_univ_two]
      fin_cases j <;> norm_num)
  refine ⟨r, h1, h2.trans (le_of_eq ?_)⟩
  norm_num [exAny]

end Copt
