import Verif.Model.FloatFWPairwise
import Verif.Proof.ActiveSet
import Verif.Proof.FloatFW
import Mathlib.Data.Fintype.Prod

/-! # One iteration of the pairwise Frank-Wolfe method with rounded arithmetic -/

set_option linter.unusedSectionVars false

namespace Copt

open Spec

section Dict
variable {Rep : Type} [DecidableEq Rep] {rd : ℝ → ℝ} {u eta w : ℝ}

theorem keys_flAdd (act : ActiveSet Rep ℝ) (k : Rep) (c : ℝ) : keys (flAdd rd act k c) = keys (dTouch act k) := by
  unfold flAdd keys
  rw [List.map_map]
  refine List.map_congr_left fun p _ => ?_
  simp only [Function.comp_apply]
  split <;> rfl

theorem dGet_map_fl (act : ActiveSet Rep ℝ) (k : Rep) (c : ℝ) (j : Rep) :
    dGet (act.map fun p => if p.1 = k then (p.1, rd (p.2 + c)) else p) j = if j = k ∧ j ∈ keys act then rd (dGet act j + c) else dGet act j := by
  induction act with
  | nil => simp [keys]
  | cons q act ih =>
    rw [List.map_cons, dGet_cons, dGet_cons, ih]
    simp only [keys, List.map_cons, List.mem_cons]
    by_cases h1 : q.1 = j
    · by_cases h2 : q.1 = k
      · rw [if_pos h2, if_pos h1, if_pos h1, if_pos ⟨h1.symm.trans h2, Or.inl h1.symm⟩]
      · rw [if_neg h2, if_pos h1, if_pos h1, if_neg (fun h => h2 (h1.trans h.1))]
    · have e : (if q.1 = k then (q.1, rd (q.2 + c)) else q).1 = q.1 := by split <;> rfl
      rw [e, if_neg h1, if_neg h1]
      have : (j = q.1 ∨ j ∈ List.map Prod.fst act) ↔ j ∈ List.map Prod.fst act :=
        ⟨fun h => h.resolve_left (Ne.symm h1), Or.inr⟩
      simp only [this]
      congr

theorem dGet_flAdd (act : ActiveSet Rep ℝ) (k : Rep) (c : ℝ) (j : Rep) : dGet (flAdd rd act k c) j = if j = k then rd (dGet act j + c) else dGet act j := by
  unfold flAdd
  rw [dGet_map_fl, dGet_dTouch]
  by_cases h : j = k
  · subst h; rw [if_pos ⟨rfl, mem_keys_dTouch act j⟩, if_pos rfl]
  · rw [if_neg (fun hh => h hh.1), if_neg h]

/-- Sums over the dictionary. -/
theorem sum_dict [Fintype Rep] {act : ActiveSet Rep ℝ} (hnd : (keys act).Nodup) (h : Rep → ℝ) : (act.map fun p => p.2 * h p.1).sum = ∑ k, dGet act k * h k := by
  induction act with
  | nil => simp
  | cons q act ih =>
    have hnd' := List.nodup_cons.mp hnd
    rw [List.map_cons, List.sum_cons, ih hnd'.2]
    have e : ∀ k, dGet (q :: act) k * h k = (if k = q.1 then q.2 * h k else 0) + dGet act k * h k := by
      intro k
      rw [dGet_cons]
      by_cases hk : q.1 = k
      · rw [if_pos hk, if_pos hk.symm, ← hk, dGet_not_mem hnd'.1]; ring
      · rw [if_neg hk, if_neg (Ne.symm hk)]; ring
    simp only [e]
    rw [Finset.sum_add_distrib, Finset.sum_ite_eq' Finset.univ q.1 fun k => q.2 * h k, if_pos (Finset.mem_univ _)]

/-- The weights after `update_active_set`. -/
noncomputable def flWeight (rd : ℝ → ℝ) (act : ActiveSet Rep ℝ) (fw away : Rep) (step : ℝ) (k : Rep) : ℝ :=
  let v := if k = fw then rd (dGet act k + step) else dGet act k
  if k = away then rd (v - step) else v

/-- `update_active_set` does not raise, and its effect. -/
theorem flUpdateActiveSet_ok (hr : Rounding rd u eta) {act : ActiveSet Rep ℝ} (hnd : (keys act).Nodup) (hfix : ∀ k, rd (dGet act k) = dGet act k) (hnn : ∀ k, 0 ≤ dGet act k)
    {fw away : Rep} {step : ℝ} (h0 : 0 ≤ step) (h1 : step ≤ dGet act away) :
    ∃ act', flUpdateActiveSet rd act fw away step = .ok act' ∧ (keys act').Nodup ∧ (∀ k, dGet act' k = flWeight rd act fw away step k) ∧ (∀ k, rd (dGet act' k) = dGet act' k) ∧
      (∀ k, 0 ≤ dGet act' k) ∧ act' ≠ [] := by
  obtain ⟨a1, ha1⟩ : ∃ a1, a1 = dTouch act away := ⟨_, rfl⟩
  obtain ⟨a2, ha2⟩ : ∃ a2, a2 = flAdd rd a1 fw step := ⟨_, rfl⟩
  obtain ⟨a3, ha3⟩ : ∃ a3, a3 = flAdd rd a2 away (-step) := ⟨_, rfl⟩
  have n1 : (keys a1).Nodup := by rw [ha1]; exact nodup_dTouch hnd away
  have n2 : (keys a2).Nodup := by rw [ha2, keys_flAdd]; exact nodup_dTouch n1 fw
  have n3 : (keys a3).Nodup := by rw [ha3, keys_flAdd]; exact nodup_dTouch n2 away
  have g2 : ∀ k, dGet a2 k = if k = fw then rd (dGet act k + step) else dGet act k := fun k => by rw [ha2, dGet_flAdd, ha1, dGet_dTouch]
  have g3 : ∀ k, dGet a3 k = flWeight rd act fw away step k := fun k => by
    rw [ha3, dGet_flAdd, g2]; rfl
  have f2 : ∀ k, rd (dGet a2 k) = dGet a2 k := fun k => by
    rw [g2]; split_ifs
    · exact hr.idem _
    · exact hfix k
  have f3 : ∀ k, rd (dGet a3 k) = dGet a3 k := fun k => by
    rw [ha3, dGet_flAdd]; split_ifs
    · exact hr.idem _
    · exact f2 k
  have p2 : ∀ k, dGet act k ≤ dGet a2 k := fun k => by
    rw [g2]; split_ifs
    · calc dGet act k = rd (dGet act k) := (hfix k).symm
        _ ≤ _ := hr.mono (by linarith)
    · exact le_rfl
  have p3 : ∀ k, 0 ≤ dGet a3 k := fun k => by
    rw [ha3, dGet_flAdd]; split_ifs with h
    · exact hr.nonneg (by rw [h]; linarith [p2 away])
    · exact (hnn k).trans (p2 k)
  have ne : ∀ a : ActiveSet Rep ℝ, dTouch a away ≠ [] := fun a h => by
    have := mem_keys_dTouch a away
    rw [h] at this
    simp [keys] at this
  by_cases hz : dGet a3 away = 0
  · have e : flUpdateActiveSet rd act fw away step = .ok (dTouch (dDel a3 away) away) := by
      unfold flUpdateActiveSet
      simp only
      rw [← ha1, ← ha2, ← ha3, if_pos hz, if_neg]
      rw [dGet_dDel, if_pos rfl]; exact lt_irrefl _
    have g : ∀ k, dGet (dTouch (dDel a3 away) away) k = dGet a3 k := fun k => by
      rw [dGet_dTouch, dGet_dDel]
      split_ifs with h
      · rw [h, hz]
      · rfl
    refine ⟨_, e, nodup_dTouch (nodup_dDel n3 away) away, fun k => by rw [g, g3], fun k => by rw [g]; exact f3 k, fun k => by rw [g]; exact p3 k, ne _⟩
  · have e : flUpdateActiveSet rd act fw away step = .ok (dTouch a3 away) := by
      unfold flUpdateActiveSet
      simp only
      rw [← ha1, ← ha2, ← ha3, if_neg hz, if_neg (not_lt.mpr (p3 away))]
    have g : ∀ k, dGet (dTouch a3 away) k = dGet a3 k := fun k => dGet_dTouch _ _ _
    refine ⟨_, e, nodup_dTouch n3 away, fun k => by rw [g, g3], fun k => by rw [g]; exact f3 k, fun k => by rw [g]; exact p3 k, ne _⟩

/-- Rounding errors of the weights. -/
theorem flWeight_error [Fintype Rep] (hr : Rounding rd u eta) (hu : u ≤ w) (he : eta ≤ w) (hw8 : w ≤ 1 / 8) {act : ActiveSet Rep ℝ} (hnn : ∀ k, 0 ≤ dGet act k) (hle : ∀ k, dGet act k ≤ 2)
    {fw away : Rep} {step : ℝ} (h0 : 0 ≤ step) (h1 : step ≤ dGet act away) :
    ∑ k, |flWeight rd act fw away step k - (dGet act k + (if k = fw then step else 0) + (if k = away then -step else 0))| ≤ 11 * w := by
  have hu0 := hr.u_nonneg
  have he0 := hr.eta_nonneg
  have hw0 : 0 ≤ w := hu0.trans hu
  have hs2 : step ≤ 2 := h1.trans (hle away)
  have rnd : ∀ a B, |a| ≤ B → |rd a - a| ≤ B * w + w := fun a B h => by
    have := mul_le_mul hu h (abs_nonneg a) hw0
    linarith [hr.err a]
  have key : ∀ k, |flWeight rd act fw away step k - (dGet act k + (if k = fw then step else 0) + (if k = away then -step else 0))| ≤
      (if k = fw then 5 * w else 0) + (if k = away then 6 * w else 0) := by
    intro k
    have a1 := rnd (dGet act k + step) 4 (by rw [abs_of_nonneg (by linarith [hnn k])]; linarith [hle k])
    unfold flWeight
    simp only
    by_cases hk1 : k = fw
    · by_cases hk2 : k = away
      · simp only [if_pos hk1, if_pos hk2]
        have hb : |rd (dGet act k + step) - step| ≤ 5 := by
          rw [abs_le] at a1 ⊢
          constructor <;> linarith [hnn k, hle k, a1.1, a1.2]
        have a2 := rnd (rd (dGet act k + step) - step) 5 hb
        have e : rd (rd (dGet act k + step) - step) - (dGet act k + step + -step) =
            (rd (rd (dGet act k + step) - step) - (rd (dGet act k + step) - step)) + (rd (dGet act k + step) - (dGet act k + step)) := by ring
        rw [e]
        linarith [abs_add_le (rd (rd (dGet act k + step) - step) - (rd (dGet act k + step) - step)) (rd (dGet act k + step) - (dGet act k + step))]
      · simp only [if_pos hk1, if_neg hk2, add_zero]
        linarith
    · by_cases hk2 : k = away
      · simp only [if_neg hk1, if_pos hk2, add_zero, zero_add]
        have a2 := rnd (dGet act k - step) 2 (by rw [abs_of_nonneg (by rw [hk2]; linarith)]; linarith [hle k])
        rw [← sub_eq_add_neg]
        linarith
      · simp only [if_neg hk1, if_neg hk2, add_zero, sub_self, abs_zero, le_refl]
  refine (Finset.sum_le_sum fun k _ => key k).trans (le_of_eq ?_)
  rw [Finset.sum_add_distrib, Finset.sum_ite_eq', Finset.sum_ite_eq', if_pos (Finset.mem_univ _), if_pos (Finset.mem_univ _)]
  ring

end Dict

section Step
variable {d : ℕ} {rd : ℝ → ℝ} {u eta w alpha : ℝ}

/-- The direction. -/
theorem flPairDir_error (hr : Rounding rd u eta) (hu : u ≤ w) (he : eta ≤ w) (hw8 : w ≤ 1 / 8) (ha : 0 < alpha) (fw away : FlRep d) {x : Fin d → ℝ} (hx : norm1 x ≤ 3 * alpha) :
    ∑ j, |flPairDir rd alpha fw away x j - (repVertex alpha fw j - repVertex alpha away j)| ≤ (9 * alpha + 5) * w := by
  have hu0 := hr.u_nonneg
  have he0 := hr.eta_nonneg
  have hw0 : 0 ≤ w := hu0.trans hu
  have rnd : ∀ a B, |a| ≤ B → |rd a - a| ≤ B * w + w := fun a B h => by
    have := mul_le_mul hu h (abs_nonneg a) hw0
    linarith [hr.err a]
  have hxj : ∀ j, |x j| ≤ 3 * alpha := fun j => (Finset.single_le_sum (f := fun j => |x j|) (fun j _ => abs_nonneg _) (Finset.mem_univ j)).trans hx
  have hsg : ∀ s : SignType, |alpha * (s : ℝ)| ≤ alpha := fun s => by
    rw [abs_mul, abs_of_pos ha]
    refine mul_le_of_le_one_right ha.le ?_
    cases s <;> simp
  have haw : 0 ≤ alpha * w := by positivity
  have hww : alpha * w ≤ alpha * (1 / 8) := mul_le_mul_of_nonneg_left hw8 ha.le
  have hww2 : alpha * w * w ≤ alpha * w * (1 / 8) := mul_le_mul_of_nonneg_left hw8 haw
  have hww3 : w * w ≤ w * (1 / 8) := mul_le_mul_of_nonneg_left hw8 hw0
  obtain ⟨b, hb⟩ : ∃ b : Fin d → ℝ, b = fun j => rd ((if j = fw.2 then rd (-x j + alpha * fw.1) else -x j) + x j) := ⟨_, rfl⟩
  have hbe : ∀ j, |b j - repVertex alpha fw j| ≤ if j = fw.2 then (6 * alpha + 3) * w else 0 := by
    intro j
    rw [hb]
    unfold repVertex
    simp only
    split_ifs with h
    · have a1 := rnd (-x j + alpha * fw.1) (4 * alpha) ((abs_add_le _ _).trans (by rw [abs_neg]; linarith [hxj j, hsg fw.1]))
      have a2 : |rd (-x j + alpha * fw.1) + x j| ≤ alpha + (4 * alpha * w + w) := by
        have e : rd (-x j + alpha * fw.1) + x j = alpha * fw.1 + (rd (-x j + alpha * fw.1) - (-x j + alpha * fw.1)) := by ring
        rw [e]
        exact (abs_add_le _ _).trans (add_le_add (hsg _) a1)
      have a3 := rnd _ _ a2
      have e : rd (rd (-x j + alpha * fw.1) + x j) - alpha * fw.1 = (rd (rd (-x j + alpha * fw.1) + x j) - (rd (-x j + alpha * fw.1) + x j)) + (rd (-x j + alpha * fw.1) - (-x j + alpha * fw.1)) := by ring
      rw [e]
      refine (abs_add_le _ _).trans ?_
      linarith
    · rw [neg_add_cancel, hr.zero, sub_zero, abs_zero]
  have key : ∀ j, |flPairDir rd alpha fw away x j - (repVertex alpha fw j - repVertex alpha away j)| ≤ (if j = fw.2 then (6 * alpha + 3) * w else 0) + (if j = away.2 then (3 * alpha + 2) * w else 0) := by
    intro j
    have e0 : flPairDir rd alpha fw away x j = if j = away.2 then rd (b j - away.1 * alpha) else b j := by rw [hb]; rfl
    rw [e0]
    have hbj := hbe j
    have hfwj : |repVertex alpha fw j| ≤ alpha := by
      unfold repVertex
      split_ifs
      · exact hsg _
      · rw [abs_zero]; exact ha.le
    have hbj3 : |b j - repVertex alpha fw j| ≤ alpha + 1 := by
      refine hbj.trans ?_
      split_ifs <;> linarith
    have hv : repVertex alpha away j = if j = away.2 then away.1 * alpha else 0 := by unfold repVertex; split_ifs <;> ring
    rw [hv]
    split_ifs with h1 h2
    · have hs := hsg away.1
      rw [mul_comm] at hs
      have a1 : |b j - away.1 * alpha| ≤ 3 * alpha + 1 := by
        have e : b j - away.1 * alpha = (b j - repVertex alpha fw j) + repVertex alpha fw j - away.1 * alpha := by ring
        rw [e]
        exact (abs_sub _ _).trans (by linarith [abs_add_le (b j - repVertex alpha fw j) (repVertex alpha fw j)])
      have a2 := rnd _ _ a1
      rw [if_pos h2] at hbj
      have e : rd (b j - away.1 * alpha) - (repVertex alpha fw j - away.1 * alpha) = (rd (b j - away.1 * alpha) - (b j - away.1 * alpha)) + (b j - repVertex alpha fw j) := by ring
      rw [e]
      refine (abs_add_le _ _).trans ?_
      linarith
    · have hs := hsg away.1
      rw [mul_comm] at hs
      have a1 : |b j - away.1 * alpha| ≤ 3 * alpha + 1 := by
        have e : b j - away.1 * alpha = (b j - repVertex alpha fw j) + repVertex alpha fw j - away.1 * alpha := by ring
        rw [e]
        exact (abs_sub _ _).trans (by linarith [abs_add_le (b j - repVertex alpha fw j) (repVertex alpha fw j)])
      have a2 := rnd _ _ a1
      rw [if_neg h2] at hbj
      have e : rd (b j - away.1 * alpha) - (repVertex alpha fw j - away.1 * alpha) = (rd (b j - away.1 * alpha) - (b j - away.1 * alpha)) + (b j - repVertex alpha fw j) := by ring
      rw [e]
      refine (abs_add_le _ _).trans ?_
      linarith
    · rw [sub_zero, add_zero]
      rw [if_pos (by assumption)] at hbj
      exact hbj
    · rw [sub_zero, add_zero]
      rw [if_neg (by assumption)] at hbj
      exact hbj
  refine (Finset.sum_le_sum fun j _ => key j).trans (le_of_eq ?_)
  rw [Finset.sum_add_distrib, Finset.sum_ite_eq', Finset.sum_ite_eq', if_pos (Finset.mem_univ _), if_pos (Finset.mem_univ _)]
  ring

theorem norm1_repVertex (ha : 0 ≤ alpha) (r : FlRep d) : norm1 (repVertex alpha r) ≤ alpha := by
  unfold norm1 repVertex
  have : ∀ j, |(if j = r.2 then alpha * ((r.1 : SignType) : ℝ) else 0)| = if j = r.2 then |alpha * ((r.1 : SignType) : ℝ)| else 0 := by
    intro j; split_ifs <;> simp
  simp only [this, Finset.sum_ite_eq', Finset.mem_univ, if_true]
  rw [abs_mul, abs_of_nonneg ha]
  refine mul_le_of_le_one_right ha ?_
  cases r.1 <;> simp

/-- The update of the iterate. -/
theorem pairUpdate_error (hr : Rounding rd u eta) (hu : u ≤ w) (he : eta ≤ w) (hw8 : w ≤ 1 / 8) (ha : 0 < alpha) {x D t : Fin d → ℝ} (hx : norm1 x ≤ 3 * alpha)
    (hD : ∑ j, |D j - t j| ≤ (9 * alpha + 5) * w) (ht : norm1 t ≤ 2 * alpha) {s : ℝ} (hs0 : 0 ≤ s) (hs2 : s ≤ 2) :
    ∑ j, |rd (x j + rd (s * D j)) - (x j + s * t j)| ≤ (38 * alpha + 15 + 3 * d) * w := by
  have hu0 := hr.u_nonneg
  have he0 := hr.eta_nonneg
  have hw0 : 0 ≤ w := hu0.trans hu
  have rnd : ∀ a B, |a| ≤ B → |rd a - a| ≤ B * w + w := fun a B h => by
    have := mul_le_mul hu h (abs_nonneg a) hw0
    linarith [hr.err a]
  have haw : 0 ≤ alpha * w := by positivity
  have hww : alpha * w ≤ alpha * (1 / 8) := mul_le_mul_of_nonneg_left hw8 ha.le
  have key : ∀ j, |rd (x j + rd (s * D j)) - (x j + s * t j)| ≤ 2 * |D j - t j| + (17 / 4 * |D j| + |x j|) * w + 3 * w := by
    intro j
    have hDj := abs_nonneg (D j)
    have a0 : |s * D j| ≤ 2 * |D j| := by rw [abs_mul, abs_of_nonneg hs0]; exact mul_le_mul_of_nonneg_right hs2 hDj
    have a1 := rnd _ _ a0
    have a2 : |rd (s * D j)| ≤ 2 * |D j| + (2 * |D j| * w + w) := by
      calc |rd (s * D j)| = |s * D j + (rd (s * D j) - s * D j)| := congrArg _ (by ring)
        _ ≤ _ := (abs_add_le _ _).trans (add_le_add a0 a1)
    have a3 := rnd (x j + rd (s * D j)) _ ((abs_add_le _ _).trans (add_le_add le_rfl a2))
    have a4 : |s * D j - s * t j| ≤ 2 * |D j - t j| := by
      rw [← mul_sub, abs_mul, abs_of_nonneg hs0]; exact mul_le_mul_of_nonneg_right hs2 (abs_nonneg _)
    have e : rd (x j + rd (s * D j)) - (x j + s * t j) = (rd (x j + rd (s * D j)) - (x j + rd (s * D j))) + (rd (s * D j) - s * D j) + (s * D j - s * t j) := by ring
    rw [e]
    refine (abs_add_three _ _ _).trans ?_
    have q1 : |D j| * w * w ≤ |D j| * w * (1 / 8) := mul_le_mul_of_nonneg_left hw8 (by positivity)
    have q2 : w * w ≤ w * (1 / 8) := mul_le_mul_of_nonneg_left hw8 hw0
    linarith
  have hDn : norm1 D ≤ 4 * alpha + 1 := by
    have h1 : norm1 D ≤ norm1 t + ∑ j, |D j - t j| := by
      unfold norm1
      rw [← Finset.sum_add_distrib]
      refine Finset.sum_le_sum fun j _ => ?_
      calc |D j| = |t j + (D j - t j)| := congrArg _ (by ring)
        _ ≤ _ := abs_add_le _ _
    linarith
  have hsum : ∑ j, (2 * |D j - t j| + (17 / 4 * |D j| + |x j|) * w + 3 * w) = 2 * (∑ j, |D j - t j|) + (17 / 4 * norm1 D + norm1 x) * w + d * (3 * w) := by
    rw [Finset.sum_add_distrib, Finset.sum_add_distrib, ← Finset.mul_sum, ← Finset.sum_mul, Finset.sum_add_distrib, ← Finset.mul_sum]
    simp [norm1]
  refine (Finset.sum_le_sum fun j _ => key j).trans ?_
  rw [hsum]
  have q1 : (17 / 4 * norm1 D + norm1 x) * w ≤ (17 / 4 * (4 * alpha + 1) + 3 * alpha) * w := mul_le_mul_of_nonneg_right (by linarith) hw0
  linarith

end Step

end Copt
