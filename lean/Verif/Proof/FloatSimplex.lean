import Verif.Model.FloatProj
import Verif.Proof.Rounding
import Verif.Proof.Constraint
import Mathlib.Data.List.GetD

/-! # The threshold of `euclidean_proj_simplex` computed with rounded arithmetic -/

set_option linter.unusedSectionVars false

namespace Copt

open Spec

variable {rd : ℝ → ℝ} {u eta : ℝ}

theorem abs_partial_le (a : ℕ → ℝ) {n j : ℕ} (hj : j ≤ n) : |∑ k ∈ Finset.range j, a k| ≤ ∑ k ∈ Finset.range n, |a k| :=
  (Finset.abs_sum_le_sum_abs _ _).trans (Finset.sum_le_sum_of_subset_of_nonneg (Finset.range_mono hj) fun _ _ _ => abs_nonneg _)

theorem abs_le_total (a : ℕ → ℝ) {n j : ℕ} (hj : j < n) : |a j| ≤ ∑ k ∈ Finset.range n, |a k| :=
  Finset.single_le_sum (f := fun k => |a k|) (fun _ _ => abs_nonneg _) (Finset.mem_range.mpr hj)

/-- Error of the cumulative sums. -/
theorem flCumsum_error (hr : Rounding rd u eta) (a : ℕ → ℝ) {n : ℕ} (hn : 2 * n * u ≤ 1) {T : ℝ} (hT : u * (∑ k ∈ Finset.range n, |a k|) + eta ≤ T) :
    ∀ j < n, |flCumsum rd a j - ∑ k ∈ Finset.range (j + 1), a k| ≤ 2 * j * T
  | 0, _ => by simp [flCumsum]
  | j + 1, hj => by
    have ih := flCumsum_error hr a hn hT j (by omega)
    have hu := hr.u_nonneg
    have he := hr.eta_nonneg
    have hS : 0 ≤ ∑ k ∈ Finset.range n, |a k| := Finset.sum_nonneg fun _ _ => abs_nonneg _
    have hT0 : 0 ≤ T := le_trans (by positivity) hT
    have e1 := hr.err (flCumsum rd a j + a (j + 1))
    have hsum : ∑ k ∈ Finset.range (j + 1 + 1), a k = ∑ k ∈ Finset.range (j + 1), a k + a (j + 1) := Finset.sum_range_succ _ _
    have hle := abs_partial_le a (n := n) (j := j + 1 + 1) (by omega)
    rw [hsum] at hle ⊢
    set X := ∑ k ∈ Finset.range (j + 1), a k
    set S := ∑ k ∈ Finset.range n, |a k|
    set c := flCumsum rd a j
    have e2 : |c + a (j + 1)| ≤ S + 2 * j * T := by
      have : c + a (j + 1) = (X + a (j + 1)) + (c - X) := by ring
      rw [this]; exact (abs_add_le _ _).trans (by linarith)
    have e3 : |rd (c + a (j + 1)) - (X + a (j + 1))| ≤ |rd (c + a (j + 1)) - (c + a (j + 1))| + |c - X| := by
      have : rd (c + a (j + 1)) - (X + a (j + 1)) = (rd (c + a (j + 1)) - (c + a (j + 1))) + (c - X) := by ring
      rw [this]; exact abs_add_le _ _
    have e4 : u * |c + a (j + 1)| ≤ u * S + u * (2 * j * T) := by rw [← mul_add]; exact mul_le_mul_of_nonneg_left e2 hu
    have e5 : u * (2 * j * T) ≤ T := by
      have h1 : (j : ℝ) ≤ n := by exact_mod_cast (by omega : j ≤ n)
      have : 2 * (j : ℝ) * u ≤ 1 := by nlinarith
      calc u * (2 * j * T) = 2 * j * u * T := by ring
        _ ≤ 1 * T := mul_le_mul_of_nonneg_right this hT0
        _ = T := one_mul T
    show |rd (c + a (j + 1)) - (X + a (j + 1))| ≤ _
    push_cast
    linarith

/-- The thresholded vector sums to `s` up to rounding errors. -/
theorem simplex_sum_error (hr : Rounding rd u eta) (a : ℕ → ℝ) {n : ℕ} (hn : 16 * n * u ≤ 1) (hanti : ∀ i j, i ≤ j → j < n → a j ≤ a i) {s : ℝ} (hs : 0 < s)
    {rho : ℕ} (hrho : rho < n) (hin : rd (flCumsum rd a rho - s) < rd (a rho * ((rho : ℝ) + 1)))
    (hout : rho + 1 < n → rd (a (rho + 1) * (((rho + 1 : ℕ) : ℝ) + 1)) ≤ rd (flCumsum rd a (rho + 1) - s)) {theta eps : ℝ}
    (htheta : theta = rd (rd (flCumsum rd a rho - s) / ((rho : ℝ) + 1))) (heps : eps = u * ((∑ k ∈ Finset.range n, |a k|) + s) + eta) :
    |(∑ j ∈ Finset.range n, max (a j - theta) 0) - s| ≤ 20 * n * eps := by
  have hu := hr.u_nonneg
  have he := hr.eta_nonneg
  have hS : 0 ≤ ∑ k ∈ Finset.range n, |a k| := Finset.sum_nonneg fun _ _ => abs_nonneg _
  have hT : u * (∑ k ∈ Finset.range n, |a k|) + eta ≤ eps := by
    rw [heps, mul_add]; have := mul_nonneg hu hs.le; linarith
  have hN1 : (rho : ℝ) + 1 ≤ n := by exact_mod_cast hrho
  have hr0 : (0 : ℝ) ≤ rho := Nat.cast_nonneg rho
  have cum := flCumsum_error hr a (n := n) (by nlinarith) hT
  have hc := cum rho hrho
  have hC := abs_partial_le a (n := n) (j := rho + 1) (by omega)
  have heps0 : 0 ≤ eps := le_trans (by positivity) hT
  have hu16 : u ≤ 1 / 16 := by nlinarith
  have huN : u * (2 * n * eps) ≤ eps / 8 := by nlinarith
  set S := ∑ k ∈ Finset.range n, |a k| with hSdef
  set X := ∑ k ∈ Finset.range (rho + 1), a k with hX
  set r1 := (rho : ℝ) + 1 with hr1
  have hr1' : 1 ≤ r1 := by linarith
  set D := flCumsum rd a rho - s with hD
  have hc' : |flCumsum rd a rho - X| ≤ 2 * n * eps := hc.trans (by nlinarith)
  have hDle : |D| ≤ S + s + 2 * n * eps := by
    have : D = (flCumsum rd a rho - X) + (X - s) := by rw [hD]; ring
    rw [this]
    refine (abs_add_le _ _).trans ?_
    have h2 := abs_sub X s
    rw [abs_of_pos hs] at h2
    linarith
  have huB : u * (S + s) + eta = eps := heps.symm
  have t1 := hr.err D
  have uD : u * |D| ≤ u * (S + s) + u * (2 * n * eps) := by rw [← mul_add]; exact mul_le_mul_of_nonneg_left hDle hu
  set t := rd D with ht
  have t2 : |t - D| ≤ 9 / 8 * eps := by linarith
  have t3 : |t| ≤ S + s + 2 * n * eps + 9 / 8 * eps := by
    have : t = (t - D) + D := by ring
    rw [this]; exact (abs_add_le _ _).trans (by linarith)
  have ut : u * |t| ≤ u * (S + s) + u * (2 * n * eps) + u * (9 / 8 * eps) := by
    rw [← mul_add, ← mul_add]; exact mul_le_mul_of_nonneg_left t3 hu
  have ue : u * (9 / 8 * eps) ≤ 9 / 128 * eps := by nlinarith
  have th1 := hr.err (t / r1)
  rw [← htheta, abs_div, abs_of_pos (show 0 < r1 by linarith)] at th1
  have th2 : |r1 * theta - t| ≤ u * |t| + r1 * eta := by
    have e1 : r1 * theta - t = r1 * (theta - t / r1) := by field_simp
    rw [e1, abs_mul, abs_of_pos (show 0 < r1 by linarith)]
    calc r1 * |theta - t / r1| ≤ r1 * (u * (|t| / r1) + eta) := mul_le_mul_of_nonneg_left th1 (by linarith)
      _ = u * |t| + r1 * eta := by field_simp
  have hee : eta ≤ eps := by rw [← huB]; have : 0 ≤ u * (S + s) := mul_nonneg hu (by linarith); linarith
  have k1 : |r1 * theta - D| ≤ 4 * r1 * eps := by
    have e1 : r1 * theta - D = (r1 * theta - t) + (t - D) := by ring
    rw [e1]
    refine (abs_add_le _ _).trans ?_
    have : r1 * eta ≤ r1 * eps := mul_le_mul_of_nonneg_left hee (by linarith)
    have h4 : eps ≤ r1 * eps := le_mul_of_one_le_left heps0 hr1'
    linarith
  have k1' := abs_le.mp k1
  -- the chosen coordinates
  have hlt : D < a rho * r1 := hr.lt hin
  have lowB : ∀ j ≤ rho, theta - 4 * eps ≤ a j := by
    intro j hj
    have h1 := hanti j rho hj hrho
    have h2 : r1 * (theta - 4 * eps) ≤ r1 * a rho := by linarith [k1'.2]
    exact (le_of_mul_le_mul_left h2 (by linarith)).trans h1
  have highB : ∀ j, rho < j → j < n → a j ≤ theta + 10 * eps := by
    intro j hj hjn
    have hlt' : rho + 1 < n := by omega
    have h1 := hanti (rho + 1) j (by omega) hjn
    refine h1.trans ?_
    have h2 := hout hlt'
    have hC2 := abs_partial_le a (n := n) (j := rho + 1 + 1) (by omega)
    rw [Finset.sum_range_succ, ← hX] at hC2
    set b := a (rho + 1) with hb
    have hbS : |b| ≤ S := abs_le_total a hlt'
    rw [Nat.cast_add, Nat.cast_one, ← hr1] at h2
    have e1 : flCumsum rd a (rho + 1) = rd (flCumsum rd a rho + b) := rfl
    set c := flCumsum rd a rho with hcdef
    set c' := flCumsum rd a (rho + 1) with hc'def
    have e2 := hr.err (c + b)
    rw [← e1] at e2
    have e3 : |c + b| ≤ S + 2 * n * eps := by
      have : c + b = (X + b) + (c - X) := by ring
      rw [this]; exact (abs_add_le _ _).trans (by linarith)
    have e4 : u * |c + b| ≤ u * S + u * (2 * n * eps) := by rw [← mul_add]; exact mul_le_mul_of_nonneg_left e3 hu
    have e5 : |c' - (c + b)| ≤ 9 / 8 * eps := by linarith
    have e6 : |c' - s| ≤ S + s + 2 * n * eps + 9 / 8 * eps := by
      have : c' - s = (c' - (c + b)) + ((c + b) - s) := by ring
      rw [this]
      refine (abs_add_le _ _).trans ?_
      have h3 := abs_sub (c + b) s
      rw [abs_of_pos hs] at h3
      linarith
    have e7 : u * |c' - s| ≤ u * (S + s) + u * (2 * n * eps) + u * (9 / 8 * eps) := by
      rw [← mul_add, ← mul_add]; exact mul_le_mul_of_nonneg_left e6 hu
    have e8 := abs_le.mp (hr.err (c' - s))
    have e9 := abs_le.mp (hr.err (b * (r1 + 1)))
    rw [abs_mul, abs_of_pos (show 0 < r1 + 1 by linarith)] at e9
    have e10 : u * (|b| * (r1 + 1)) ≤ (r1 + 1) * (u * S) := by
      have := mul_le_mul_of_nonneg_left hbS (mul_nonneg hu (show 0 ≤ r1 + 1 by linarith))
      linarith
    have huS : u * S ≤ eps := by linarith
    have e11 : (r1 + 1) * (u * S) ≤ (r1 + 1) * eps := mul_le_mul_of_nonneg_left huS (by linarith)
    have e5' := abs_le.mp e5
    have h4 : eps ≤ r1 * eps := le_mul_of_one_le_left heps0 hr1'
    have h5 : r1 * b ≤ r1 * (theta + 10 * eps) := by
      have hDc : D = c - s := rfl
      linarith [k1'.1, e8.2, e9.1, e5'.2]
    exact le_of_mul_le_mul_left h5 (by linarith)
  -- summing up
  have hsplit : ∑ j ∈ Finset.range n, max (a j - theta) 0 =
      ∑ j ∈ Finset.range (rho + 1), max (a j - theta) 0 + ∑ j ∈ Finset.Ico (rho + 1) n, max (a j - theta) 0 := by
    rw [Finset.range_eq_Ico, Finset.range_eq_Ico, Finset.sum_Ico_consecutive _ (by omega) (by omega)]
  have sLow : ∑ j ∈ Finset.range (rho + 1), (a j - theta) ≤ ∑ j ∈ Finset.range (rho + 1), max (a j - theta) 0 :=
    Finset.sum_le_sum fun j _ => le_max_left _ _
  have sLow2 : ∑ j ∈ Finset.range (rho + 1), max (a j - theta) 0 ≤ ∑ j ∈ Finset.range (rho + 1), ((a j - theta) + 4 * eps) := by
    refine Finset.sum_le_sum fun j hj => max_le (by linarith) ?_
    have := lowB j (by have := Finset.mem_range.mp hj; omega)
    linarith
  rw [Finset.sum_add_distrib, Finset.sum_const, Finset.card_range, nsmul_eq_mul] at sLow2
  have sEq : ∑ j ∈ Finset.range (rho + 1), (a j - theta) = X - r1 * theta := by
    rw [Finset.sum_sub_distrib, Finset.sum_const, Finset.card_range, nsmul_eq_mul]; push_cast; rfl
  have sHigh0 : 0 ≤ ∑ j ∈ Finset.Ico (rho + 1) n, max (a j - theta) 0 := Finset.sum_nonneg fun _ _ => le_max_right _ _
  have sHigh : ∑ j ∈ Finset.Ico (rho + 1) n, max (a j - theta) 0 ≤ ∑ j ∈ Finset.Ico (rho + 1) n, 10 * eps := by
    refine Finset.sum_le_sum fun j hj => max_le ?_ (by linarith)
    have hj' := Finset.mem_Ico.mp hj
    have := highB j (by omega) hj'.2
    linarith
  rw [Finset.sum_const, Nat.card_Ico, nsmul_eq_mul] at sHigh
  have hcard : ((n - (rho + 1) : ℕ) : ℝ) * (10 * eps) ≤ n * (10 * eps) :=
    mul_le_mul_of_nonneg_right (by exact_mod_cast Nat.sub_le _ _) (by linarith)
  have hcard2 : ((rho + 1 : ℕ) : ℝ) * (4 * eps) ≤ n * (4 * eps) :=
    mul_le_mul_of_nonneg_right (by push_cast; linarith) (by linarith)
  have hc'' := abs_le.mp hc'
  have hr1e : r1 * eps ≤ n * eps := mul_le_mul_of_nonneg_right hN1 heps0
  rw [hsplit, abs_le]
  constructor <;> linarith [k1'.1, k1'.2, hc''.1, hc''.2]


/-- Two soft thresholds of the same vector differ with one sign. -/
theorem threshold_l1 {n : ℕ} (v : Fin n → ℝ) (t t' : ℝ) :
    ∑ i, |max (v i - t') 0 - max (v i - t) 0| = |∑ i, max (v i - t') 0 - ∑ i, max (v i - t) 0| := by
  rcases le_total t' t with h | h
  · have h1 : ∀ i, max (v i - t) 0 ≤ max (v i - t') 0 := fun i => max_le_max (by linarith) le_rfl
    rw [← Finset.sum_sub_distrib, abs_of_nonneg (Finset.sum_nonneg fun i _ => sub_nonneg.mpr (h1 i))]
    exact Finset.sum_congr rfl fun i _ => abs_of_nonneg (sub_nonneg.mpr (h1 i))
  · have h1 : ∀ i, max (v i - t') 0 ≤ max (v i - t) 0 := fun i => max_le_max (by linarith) le_rfl
    rw [← Finset.sum_sub_distrib, abs_of_nonpos (Finset.sum_nonpos fun i _ => sub_nonpos.mpr (h1 i)), ← Finset.sum_neg_distrib]
    exact Finset.sum_congr rfl fun i _ => abs_of_nonpos (sub_nonpos.mpr (h1 i))

theorem list_sum_getD (g : ℝ → ℝ) (l : List ℝ) : (l.map g).sum = ∑ j ∈ Finset.range l.length, g (l.getD j 0) := by
  induction l with
  | nil => simp
  | cons a l ih =>
    rw [List.map_cons, List.sum_cons, ih, List.length_cons, Finset.sum_range_succ']
    simp only [List.getD_cons_succ, List.getD_cons_zero]
    ring

theorem sortDesc_range_sum {n : ℕ} (v : Fin n → ℝ) (g : ℝ → ℝ) : ∑ j ∈ Finset.range n, g ((sortDesc v).getD j 0) = ∑ i, g (v i) := by
  rw [← sortDesc_map_sum v g, list_sum_getD, sortDesc_length]

theorem sortDesc_getD_anti {n : ℕ} (v : Fin n → ℝ) (i j : ℕ) (hij : i ≤ j) (hj : j < n) : (sortDesc v).getD j 0 ≤ (sortDesc v).getD i 0 := by
  have hl := sortDesc_length v
  rcases eq_or_lt_of_le hij with rfl | hij
  · exact le_rfl
  · rw [List.getD_eq_getElem _ _ (by omega), List.getD_eq_getElem _ _ (by omega)]
    exact (List.pairwise_iff_getElem.mp (sortDesc_pairwise v)) i j (by omega) (by omega) hij

theorem sortDesc_getD_mem {n : ℕ} (v : Fin n → ℝ) {j : ℕ} (hj : j < n) : ∃ i, (sortDesc v).getD j 0 = v i := by
  have hj' : j < (sortDesc v).length := by rw [sortDesc_length]; exact hj
  rw [List.getD_eq_getElem _ _ hj']
  have := (sortDesc_perm v).mem_iff.mp (List.getElem_mem hj')
  obtain ⟨i, hi⟩ := List.mem_ofFn.mp this
  exact ⟨i, hi.symm⟩

theorem sortDesc_head {n : ℕ} (v : Fin n → ℝ) (i : Fin n) (hi : ∀ j, v j ≤ v i) : (sortDesc v).getD 0 0 = v i := by
  have hn : 0 < n := lt_of_le_of_lt (Nat.zero_le _) i.2
  obtain ⟨k, hk⟩ := sortDesc_getD_mem v hn
  refine le_antisymm (hk ▸ hi k) ?_
  have hm : v i ∈ sortDesc v := (sortDesc_perm v).mem_iff.mpr (List.mem_ofFn.mpr ⟨i, rfl⟩)
  obtain ⟨j, hj, he⟩ := List.getElem_of_mem hm
  rw [← he, ← List.getD_eq_getElem _ 0 hj]
  exact sortDesc_getD_anti v 0 j (Nat.zero_le _) (by rwa [sortDesc_length] at hj)

theorem flCandidates_mem (rd : ℝ → ℝ) (l : List ℝ) (s : ℝ) (k : ℕ) :
    k ∈ flCandidates rd l s ↔ k < l.length ∧ rd (flCumsum rd (fun j => l.getD j 0) k - s) < rd (l.getD k 0 * ((k : ℝ) + 1)) := by
  simp [flCandidates]

/-- The rounded projection is a rounded threshold of its argument, close to the exact projection. -/
theorem flProjSimplex_spec (hr : Rounding rd u eta) {n : ℕ} (hn : 16 * n * u ≤ 1) (v : Fin n → ℝ) (hv : ∀ i, rd (v i) = v i) {s sum : ℝ} (hs : 0 < s)
    (hsum : FlSum rd (List.ofFn v) sum) {i0 : Fin n} (hi0 : ∀ j, v j ≤ v i0) (hbig : u * (|v i0| + s) + eta < s) :
    ∃ w, flProjSimplex rd sum v s = .ok w ∧ (∀ i, 0 ≤ w i) ∧ (∀ i, rd (w i) = w i) ∧
      ∀ t, ∑ i, max (v i - t) 0 = s → ∑ i, |w i - max (v i - t) 0| ≤ 24 * n * (u * ((∑ i, |v i|) + s) + eta) := by
  have hu := hr.u_nonneg
  have he := hr.eta_nonneg
  have hn0 : 0 < n := lt_of_le_of_lt (Nat.zero_le _) i0.2
  have hn1 : (1 : ℝ) ≤ n := by exact_mod_cast hn0
  have hS : 0 ≤ ∑ i, |v i| := Finset.sum_nonneg fun _ _ => abs_nonneg _
  obtain ⟨eps, heps⟩ : ∃ eps, eps = u * ((∑ i, |v i|) + s) + eta := ⟨_, rfl⟩
  have heps0 : 0 ≤ eps := by rw [heps]; have := mul_nonneg hu (add_nonneg hS hs.le); linarith
  rw [← heps]
  unfold flProjSimplex
  rw [if_neg (by simpa using hs)]
  split_ifs with hearly
  · refine ⟨v, rfl, hearly.2, hv, fun t ht => ?_⟩
    have h0 : ∀ i, v i = max (v i - 0) 0 := fun i => by rw [sub_zero, max_eq_left (hearly.2 i)]
    have e1 : ∑ i, |v i - max (v i - t) 0| = |∑ i, v i - s| := by
      calc ∑ i, |v i - max (v i - t) 0| = ∑ i, |max (v i - 0) 0 - max (v i - t) 0| := Finset.sum_congr rfl fun i _ => by rw [← h0 i]
        _ = |∑ i, max (v i - 0) 0 - ∑ i, max (v i - t) 0| := threshold_l1 v t 0
        _ = _ := by rw [ht, ← Finset.sum_congr rfl fun i _ => h0 i]
    have e2 := hsum.error hr (by rw [List.length_ofFn]; nlinarith)
    rw [hearly.1, List.sum_ofFn, List.map_ofFn, List.sum_ofFn, List.length_ofFn, abs_sub_comm] at e2
    rw [e1]
    refine e2.trans ?_
    have e3 : u * (∑ i, (abs ∘ v) i) + eta ≤ eps := by
      rw [heps, mul_add]; have := mul_nonneg hu hs.le
      simp only [Function.comp]; linarith
    have e4 : 2 * ((n : ℝ) - 1) * (u * (∑ i, (abs ∘ v) i) + eta) ≤ 2 * ((n : ℝ) - 1) * eps := mul_le_mul_of_nonneg_left e3 (by linarith)
    nlinarith
  · dsimp only
    obtain ⟨l, hl⟩ : ∃ l, l = sortDesc v := ⟨_, rfl⟩
    rw [← hl]
    have hlen : l.length = n := by rw [hl]; exact sortDesc_length v
    obtain ⟨a, ha⟩ : ∃ a : ℕ → ℝ, a = fun j => l.getD j 0 := ⟨_, rfl⟩
    have haj : ∀ j, l.getD j 0 = a j := fun j => by rw [ha]
    have hanti : ∀ i j, i ≤ j → j < n → a j ≤ a i := by rw [ha, hl]; exact sortDesc_getD_anti v
    have hsumg : ∀ g : ℝ → ℝ, ∑ j ∈ Finset.range n, g (a j) = ∑ i, g (v i) := by rw [ha, hl]; exact sortDesc_range_sum v
    have ha0 : a 0 = v i0 := by rw [ha, hl]; exact sortDesc_head v i0 hi0
    rcases hlast : (flCandidates rd l s).getLast? with _ | rho
    · exfalso
      rw [List.getLast?_eq_none_iff] at hlast
      have h0 : (0 : ℕ) ∈ flCandidates rd l s := by
        rw [flCandidates_mem]
        refine ⟨by omega, ?_⟩
        show rd (l.getD 0 0 - s) < _
        rw [haj, ha0, Nat.cast_zero, zero_add, mul_one, hv]
        have e1 := abs_le.mp (hr.err (v i0 - s))
        have e2 := abs_sub (v i0) s
        rw [abs_of_pos hs] at e2
        have e3 := mul_le_mul_of_nonneg_left e2 hu
        linarith [e1.2]
      rw [hlast] at h0
      simp at h0
    · obtain ⟨hmem, hmax⟩ := getLast?_filter_range_max hlast
      rw [show (List.range l.length).filter _ = flCandidates rd l s from rfl, flCandidates_mem, hlen, ← ha, haj] at hmem
      have hout : rho + 1 < n → rd (a (rho + 1) * (((rho + 1 : ℕ) : ℝ) + 1)) ≤ rd (flCumsum rd a (rho + 1) - s) := by
        intro hlt
        by_contra hcon
        push Not at hcon
        have : rho + 1 ∈ flCandidates rd l s := by
          rw [flCandidates_mem, ← ha, haj, hlen]; exact ⟨hlt, hcon⟩
        have := hmax _ this
        omega
      dsimp only
      rw [← ha]
      obtain ⟨theta, htheta⟩ : ∃ theta, theta = rd (rd (flCumsum rd a rho - s) / ((rho : ℝ) + 1)) := ⟨_, rfl⟩
      rw [← htheta]
      have key := simplex_sum_error hr a hn hanti hs hmem.1 hmem.2 hout htheta (eps := eps) (by rw [heps, hsumg fun x => |x|])
      rw [hsumg fun x => max (x - theta) 0] at key
      have hw : ∀ i, rd (max (v i - theta) 0) = max (rd (v i - theta)) 0 := fun i => by rw [hr.mono.map_max, hr.zero]
      refine ⟨_, rfl, fun i => le_max_right _ _, fun i => ?_, fun t ht => ?_⟩
      · show rd (max (rd (v i - theta)) 0) = max (rd (v i - theta)) 0
        rw [hr.mono.map_max, hr.zero, hr.idem]
      · have e1 : ∑ i, |max (rd (v i - theta)) 0 - max (v i - t) 0| ≤
            ∑ i, (u * max (v i - theta) 0 + eta) + ∑ i, |max (v i - theta) 0 - max (v i - t) 0| := by
          rw [← Finset.sum_add_distrib]
          refine Finset.sum_le_sum fun i _ => ?_
          have e2 := hr.err (max (v i - theta) 0)
          rw [hw, abs_of_nonneg (le_max_right (v i - theta) 0)] at e2
          have e3 : max (rd (v i - theta)) 0 - max (v i - t) 0 = (max (rd (v i - theta)) 0 - max (v i - theta) 0) + (max (v i - theta) 0 - max (v i - t) 0) := by ring
          rw [e3]
          exact (abs_add_le _ _).trans (by linarith)
        rw [threshold_l1, ht, Finset.sum_add_distrib, ← Finset.mul_sum, Finset.sum_const, Finset.card_univ, Fintype.card_fin, nsmul_eq_mul] at e1
        have k := abs_le.mp key
        have e4 : u * ∑ i, max (v i - theta) 0 ≤ u * (s + 20 * n * eps) := mul_le_mul_of_nonneg_left (by linarith [k.2]) hu
        have e5 : u * (20 * n * eps) ≤ 2 * eps := by nlinarith
        have e6 : u * s ≤ eps := by rw [heps, mul_add]; have := mul_nonneg hu hS; linarith
        have e7 : eta ≤ eps := by rw [heps]; have := mul_nonneg hu (add_nonneg hS hs.le); linarith
        have e8 : (n : ℝ) * eta ≤ n * eps := mul_le_mul_of_nonneg_left e7 (by linarith)
        have e9 : eps ≤ n * eps := le_mul_of_one_le_left heps0 hn1
        linarith

end Copt
