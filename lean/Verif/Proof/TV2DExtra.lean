import Mathlib.Topology.Order.Compact
import Mathlib.Topology.Algebra.Ring.Real
import Mathlib.Topology.Algebra.Order.Field
import Mathlib.Topology.Algebra.Monoid
import Mathlib.Analysis.Normed.Group.Basic
import Mathlib.Tactic.FunProp
import Mathlib.Tactic.NormNum
import Verif.Proof.TVProx

/-! # Existence of the 2-D proximal point, energy of Dykstra's iteration, difference rows -/

set_option linter.unusedSectionVars false

namespace Copt

open Spec

section Real
variable {R C N : ℕ}

theorem continuous_tv1 {n : ℕ} : Continuous (tv1 : (Fin n → ℝ) → ℝ) := by
  unfold tv1; fun_prop

theorem continuous_tv2 : Continuous (tv2 (K := ℝ) R C) := by
  unfold tv2 tvCols tvRows tv1 pix; fun_prop

/-- A nonnegative continuous convex penalty has a proximal point. -/
theorem exists_isProx {pen : (Fin N → ℝ) → ℝ} (hc : Continuous pen) (h0 : ∀ y, 0 ≤ pen y)
    (hpen : ∀ x y : Fin N → ℝ, ∀ t : ℝ, 0 ≤ t → t ≤ 1 → pen ((1 - t) • x + t • y) ≤ (1 - t) * pen x + t * pen y)
    {s : ℝ} (hs : 0 ≤ s) (w : Fin N → ℝ) : ∃ p, IsProx pen s w p := by
  set F : (Fin N → ℝ) → ℝ := fun y => s * pen y + sqDist y w / 2 with hF
  have hFc : Continuous F := by
    have : Continuous fun y : Fin N → ℝ => sqDist y w := by unfold sqDist; fun_prop
    exact (hc.const_mul s |>.comp continuous_id).add (this.div_const 2)
  set r : ℝ := 2 * F w + 1 with hr
  have hFw : 0 ≤ F w := add_nonneg (mul_nonneg hs (h0 _)) (div_nonneg (sqDist_nonneg _ _) (by norm_num))
  have hcomp : IsCompact (Set.Icc (fun k => w k - r) (fun k => w k + r)) := isCompact_Icc
  have hw : w ∈ Set.Icc (fun k => w k - r) (fun k => w k + r) :=
    ⟨fun k => by simp only; linarith, fun k => by simp only; linarith⟩
  obtain ⟨p, hp, hmin⟩ := hcomp.exists_isMinOn ⟨w, hw⟩ hFc.continuousOn
  have hall : ∀ y, F p ≤ F y := by
    intro y
    by_cases hy : y ∈ Set.Icc (fun k => w k - r) (fun k => w k + r)
    · exact hmin hy
    · have hle : F p ≤ F w := hmin hw
      have : ∃ k, r < |y k - w k| := by
        by_contra hcon
        push Not at hcon
        refine hy ⟨fun k => ?_, fun k => ?_⟩
        · have := abs_le.mp (hcon k); simp only; linarith
        · have := abs_le.mp (hcon k); simp only; linarith
      obtain ⟨k, hk⟩ := this
      have h1 : (y k - w k) ^ 2 ≤ sqDist y w :=
        Finset.single_le_sum (f := fun i => (y i - w i) ^ 2) (fun i _ => sq_nonneg _) (Finset.mem_univ k)
      have h2 : r ^ 2 ≤ (y k - w k) ^ 2 := by
        rw [← sq_abs (y k - w k)]
        exact pow_le_pow_left₀ (by linarith) hk.le 2
      have h3 : 0 ≤ s * pen y := mul_nonneg hs (h0 _)
      have : F y = s * pen y + sqDist y w / 2 := rfl
      nlinarith
  refine ⟨p, isProx_of_subgrad fun y => ?_⟩
  suffices 0 ≤ s * pen y - s * pen p - dot (w - p) (y - p) by linarith
  refine nonneg_of_quadratic (b := sqDist y p / 2) fun t ht ht1 => ?_
  have h1 := hall ((1 - t) • p + t • y)
  simp only [hF] at h1
  rw [sqDist_expand ((1 - t) • p + t • y) w p] at h1
  have e1 : (1 - t) • p + t • y - p = t • (y - p) := by
    funext k; simp only [Pi.add_apply, Pi.sub_apply, Pi.smul_apply, smul_eq_mul]; ring
  have e2 : sqDist ((1 - t) • p + t • y) p = t ^ 2 * sqDist y p := by
    rw [sqDist_eq_dot, e1, dot_smul_left, dot_smul_right, sqDist_eq_dot]; ring
  rw [e1, e2, dot_smul_right] at h1
  have h2 := mul_le_mul_of_nonneg_left (hpen p y t ht.le ht1) hs
  nlinarith

end Real

variable {K : Type} [Field K] [LinearOrder K] [IsStrictOrderedRing K] {n R C : ℕ}

theorem tvCols_nonneg (x : Fin (R * C) → K) : 0 ≤ tvCols R C x := Finset.sum_nonneg fun _ _ => tv1_nonneg _

theorem tvRows_nonneg (x : Fin (R * C) → K) : 0 ≤ tvRows R C x := Finset.sum_nonneg fun _ _ => tv1_nonneg _

theorem tv2_nonneg (x : Fin (R * C) → K) : 0 ≤ tv2 R C x := add_nonneg (tvCols_nonneg x) (tvRows_nonneg x)

/-! ### Energy of Dykstra's iteration -/

/-- Loop invariant: the corrections sum to `w - x` and stay in the dual balls. -/
structure DykInv (R C : ℕ) (step : K) (w : Fin (R * C) → K) (st : TV2DState (R * C) K) : Prop where
  sum : ∀ k, st.x k + st.p k + st.q k = w k
  domP : ∀ v, dot st.p v ≤ step * tvCols R C v
  domQ : ∀ v, dot st.q v ≤ step * tvRows R C v

theorem dykInv_init {step : K} (hs : 0 ≤ step) (w : Fin (R * C) → K) :
    DykInv R C step w ⟨w, fun _ => 0, fun _ => 0⟩ where
  sum k := by simp
  domP v := by
    have : dot (fun _ => 0) v = (0 : K) := by simp [dot]
    rw [this]; exact mul_nonneg hs (tvCols_nonneg v)
  domQ v := by
    have : dot (fun _ => 0) v = (0 : K) := by simp [dot]
    rw [this]; exact mul_nonneg hs (tvRows_nonneg v)

theorem dot_energy {a b c d : Fin n → K} (h : ∀ k, a k = b k + (c k - d k)) (h2 : dot d b ≤ dot c b) :
    dot b b + dot (a - b) (a - b) ≤ dot a a := by
  have e : dot a a = dot b b + dot (a - b) (a - b) + 2 * (dot c b - dot d b) := by
    unfold dot
    rw [← Finset.sum_add_distrib, ← Finset.sum_sub_distrib, Finset.mul_sum, ← Finset.sum_add_distrib]
    refine Finset.sum_congr rfl fun k _ => ?_
    simp only [Pi.sub_apply]
    rw [h k]; ring
  rw [e]; linarith

theorem tv2dStep_energy (hR : 0 < R) (hC : 0 < C) (junkC : TVJunk R C C R K) (junkR : TVJunk R C R C K) {step : K}
    (hs : 0 ≤ step) {w : Fin (R * C) → K} (st : TV2DState (R * C) K) (hI : DykInv R C step w st) :
    ∃ st' acc y, tv2dStep junkC junkR step st = .ok (st', acc) ∧ DykInv R C step w st' ∧ DykCert R C step w st' y ∧
      (∀ k, |y k - st'.x k| ≤ acc) ∧ dot st'.x st'.x + acc ^ 2 ≤ dot st.x st.x := by
  obtain ⟨st', acc, y, e, hc, h1, ⟨k, h2⟩, h3, h4⟩ := tv2dStep_spec hR hC junkC junkR hs st hI.sum
  obtain ⟨a1, a2⟩ := tvCols_semi.of_subgrad hs hc.subP
  obtain ⟨b1, b2⟩ := tvRows_semi.of_subgrad hs hc.subQ
  refine ⟨st', acc, y, e, ⟨hc.sum, a1, b1⟩, hc, h1, ?_⟩
  have e1 : dot y y + dot (st.x - y) (st.x - y) ≤ dot st.x st.x :=
    dot_energy (c := st'.p) (d := st.p) (fun k => by rw [h3 k]; ring) (by rw [a2]; exact hI.domP y)
  have e2 : dot st'.x st'.x + dot (y - st'.x) (y - st'.x) ≤ dot y y :=
    dot_energy (c := st'.q) (d := st.q) (fun k => by rw [h4 k]; ring) (by rw [b2]; exact hI.domQ st'.x)
  have e3 : acc ^ 2 ≤ dot (y - st'.x) (y - st'.x) := by
    rw [h2, sq_abs, pow_two]
    exact Finset.single_le_sum (f := fun i => (y - st'.x) i * (y - st'.x) i) (fun i _ => mul_self_nonneg _)
      (Finset.mem_univ k)
  linarith [dot_self_nonneg (st.x - y)]

/-- The loop either stops with a certificate, or runs to the end having lost `tol²` of energy at each iteration. -/
theorem tv2dLoop_spec (hR : 0 < R) (hC : 0 < C) (junkC : ℕ → TVJunk R C C R K) (junkR : ℕ → TVJunk R C R C K)
    {step tol : K} (hs : 0 ≤ step) {w : Fin (R * C) → K} : ∀ (m it : ℕ) (a : Option K) (st : TV2DState (R * C) K),
    DykInv R C step w st → (m = 0 → a ≠ none) →
    ∃ out, tv2dLoop junkC junkR step tol m it a st = .ok out ∧
      (out.warned = false → ∃ st' y acc, DykCert R C step w st' y ∧ st'.x = out.x ∧ (∀ k, |y k - st'.x k| ≤ acc) ∧
        acc < tol) ∧
      (out.warned = true → 0 ≤ tol → (m : K) * tol ^ 2 ≤ dot st.x st.x) := by
  intro m
  induction m with
  | zero =>
    intro it a st hI ha
    cases a with
    | none => exact absurd rfl (ha rfl)
    | some a =>
      refine ⟨⟨st.x, true⟩, rfl, by simp, fun _ _ => ?_⟩
      simpa using dot_self_nonneg st.x
  | succ m ih =>
    intro it a st hI _
    obtain ⟨st', acc, y, e, hI', hc, h1, h2⟩ := tv2dStep_energy hR hC (junkC it) (junkR it) hs st hI
    have hstep : tv2dLoop junkC junkR step tol (m + 1) it a st =
        if acc < tol then .ok ⟨st'.x, false⟩ else tv2dLoop junkC junkR step tol m (it + 1) (some acc) st' := by
      rw [tv2dLoop, e]; rfl
    rw [hstep]
    by_cases h : acc < tol
    · rw [if_pos h]
      exact ⟨_, rfl, fun _ => ⟨st', y, acc, hc, rfl, h1, h⟩, by simp⟩
    · rw [if_neg h]
      obtain ⟨out, eo, g1, g2⟩ := ih (it + 1) (some acc) st' hI' (by simp)
      refine ⟨out, eo, g1, fun hw ht => ?_⟩
      have := g2 hw ht
      have h4 : tol ^ 2 ≤ acc ^ 2 := pow_le_pow_left₀ ht (not_lt.mp h) 2
      push_cast
      linarith

/-! ### Difference rows -/

theorem sum_flatMap' {α : Type} (f : α → List K) (l : List α) : (l.flatMap f).sum = (l.map fun a => (f a).sum).sum := by
  induction l with
  | nil => rfl
  | cons a l ih => rw [List.flatMap_cons, List.sum_append, ih, List.map_cons, List.sum_cons]

theorem sum_map_range (f : ℕ → K) (m : ℕ) : ((List.range m).map f).sum = ∑ i : Fin m, f i := by
  rw [Fin.sum_univ_def, List.map_congr_left (g := f) (fun _ _ => rfl)]
  rw [← List.map_coe_finRange_eq_range, List.map_map]; rfl

theorem diffRow_apply (x : Fin (R * C) → K) {i i' : Fin R} {j j' : Fin C} (hne : ¬ (i = i' ∧ j = j')) :
    ∑ k, diffRow R C i j i' j' k * x k = pix x i j - pix x i' j' := by
  rw [sum_pix (fun k => diffRow R C i j i' j' k * x k)]
  have h : ∀ (r : Fin R) (c : Fin C), pix (fun k => diffRow R C i j i' j' k * x k) r c =
      (if r = i then (if c = j then pix x i j else 0) else 0) -
        (if r = i' then (if c = j' then pix x i' j' else 0) else 0) := by
    intro r c
    have e : pix (fun k => diffRow R C i j i' j' k * x k) r c =
        (if r.val = i'.val ∧ c.val = j'.val then -1 else if r.val = i.val ∧ c.val = j.val then 1 else 0) * pix x r c := by
      show pix (diffRow R C i j i' j') r c * pix x r c = _
      rw [diffRow, pix_ravel2]
    rw [e]
    simp only [← Fin.ext_iff]
    by_cases h1 : r = i' ∧ c = j'
    · obtain ⟨rfl, rfl⟩ := h1
      by_cases h2 : r = i
      · by_cases h3 : c = j
        · exact absurd ⟨h2.symm, h3.symm⟩ hne
        · simp [h2, h3]
      · simp [h2]
    · rw [if_neg h1]
      by_cases h2 : r = i ∧ c = j
      · obtain ⟨rfl, rfl⟩ := h2
        by_cases h3 : r = i'
        · by_cases h4 : c = j'
          · exact absurd ⟨h3, h4⟩ h1
          · simp [h3, h4]
        · simp [h3]
      · rw [if_neg h2, zero_mul]
        by_cases h3 : r = i <;> by_cases h4 : c = j <;> by_cases h5 : r = i' <;> by_cases h6 : c = j' <;>
          simp_all
  simp only [h, Finset.sum_sub_distrib]
  have hs : ∀ (a : Fin R) (b : Fin C) (v : K), ∑ r : Fin R, ∑ c : Fin C, (if r = a then (if c = b then v else 0) else 0) = v := by
    intro a b v
    rw [Finset.sum_eq_single a]
    · simp
    · intro r _ hr; simp [hr]
    · simp
  rw [hs, hs]

/-- Contribution of pixel `(i, j)`. -/
theorem diffRows_abs (x : Fin (R * C) → K) (i : Fin R) (j : Fin C) :
    (((diffRows R C i j).map fun row => ∑ k, row k * x k).map abs).sum =
      (if h : i.val + 1 < R then |pix x ⟨i + 1, h⟩ j - pix x i j| else 0) +
      (if h : j.val + 1 < C then |pix x i ⟨j + 1, h⟩ - pix x i j| else 0) := by
  unfold diffRows
  rw [List.map_append, List.map_append, List.sum_append]
  congr 1
  · by_cases h : i.val + 1 < R
    · rw [if_pos h, dif_pos h]
      simp only [List.map_cons, List.map_nil, List.sum_cons, List.sum_nil, add_zero]
      have := diffRow_apply x (i := i) (i' := ⟨i + 1, h⟩) (j := j) (j' := j)
        (fun hh => by simpa [Fin.ext_iff] using hh.1)
      rw [abs_sub_comm, ← this]
    · rw [if_neg h, dif_neg h]; simp
  · by_cases h : j.val + 1 < C
    · rw [if_pos h, dif_pos h]
      simp only [List.map_cons, List.map_nil, List.sum_cons, List.sum_nil, add_zero]
      have := diffRow_apply x (i := i) (i' := i) (j := j) (j' := ⟨j + 1, h⟩)
        (fun hh => by simpa [Fin.ext_iff] using hh.2)
      rw [abs_sub_comm, ← this]
    · rw [if_neg h, dif_neg h]; simp

theorem tv1_eq_dite (y : Fin n → K) :
    tv1 y = ∑ k : Fin n, (if h : k.val + 1 < n then |y ⟨k + 1, h⟩ - y k| else 0) := by
  rcases n with _ | m
  · simp [tv1]
  · rw [Fin.sum_univ_castSucc]
    simp only [Fin.val_last, lt_irrefl, dite_false, add_zero]
    unfold tv1
    refine Finset.sum_congr rfl fun k _ => ?_
    rw [dif_pos (by simp)]; rfl

theorem tv2dRows_norm (x : Fin (R * C) → K) :
    (((tv2dRows R C).map fun row => ∑ k, row k * x k).map abs).sum = tv2 R C x := by
  unfold tv2dRows
  rw [List.map_map, List.map_flatMap]
  simp only [List.map_flatMap]
  rw [sum_flatMap', sum_map_range]
  simp only [sum_flatMap', sum_map_range]
  unfold tv2 tvCols tvRows
  simp only [tv1_eq_dite]
  rw [Finset.sum_comm (f := fun (j : Fin C) (i : Fin R) => _), ← Finset.sum_add_distrib]
  refine Finset.sum_congr rfl fun i _ => ?_
  rw [← Finset.sum_add_distrib]
  refine Finset.sum_congr rfl fun j _ => ?_
  rw [← diffRows_abs x i j, List.map_map]

theorem tv2dRows_empty : (tv2dRows (K := K) R C).isEmpty = true ↔ R * C ≤ 1 := by
  constructor
  · intro h
    rw [List.isEmpty_iff] at h
    by_contra hc
    push Not at hc
    have hR : 0 < R := Nat.pos_of_ne_zero (by rintro rfl; simp at hc)
    have hC : 0 < C := Nat.pos_of_ne_zero (by rintro rfl; simp at hc)
    unfold tv2dRows at h
    rw [List.flatMap_eq_nil_iff] at h
    have h1 := h 0 (List.mem_range.mpr hR)
    rw [List.flatMap_eq_nil_iff] at h1
    have h2 := h1 0 (List.mem_range.mpr hC)
    unfold diffRows at h2
    rw [List.append_eq_nil_iff] at h2
    obtain ⟨a, b⟩ := h2
    have hR1 : ¬ 0 + 1 < R := by intro hh; rw [if_pos hh] at a; simp at a
    have hC1 : ¬ 0 + 1 < C := by intro hh; rw [if_pos hh] at b; simp at b
    have : R = 1 := by omega
    have : C = 1 := by omega
    subst_vars
    simp at hc
  · intro h
    rw [List.isEmpty_iff]
    unfold tv2dRows
    rw [List.flatMap_eq_nil_iff]
    intro i hi
    rw [List.flatMap_eq_nil_iff]
    intro j hj
    rw [List.mem_range] at hi hj
    unfold diffRows
    have hR : R ≤ R * C := Nat.le_mul_of_pos_right R (by omega)
    have hC : C ≤ R * C := Nat.le_mul_of_pos_left C (by omega)
    rw [if_neg (by omega), if_neg (by omega)]; rfl

end Copt
