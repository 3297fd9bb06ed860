import Mathlib.Algebra.BigOperators.Intervals
import Mathlib.Algebra.BigOperators.Fin
import Verif.Proof.TV1DLoop
import Verif.Spec.Penalty

/-! # Tubes, output and optimality certificate of `_prox_tv1d` -/

set_option linter.unusedSectionVars false

namespace Copt.TV1D

open Copt.TV Spec

variable {K : Type} [Field K] [LinearOrder K] [IsStrictOrderedRing K] {w n : ℕ}

/-- Prefix sums. -/
def psum (f : ℕ → K) (t : ℕ) : K := ∑ j ∈ Finset.range t, f j

theorem psum_succ (f : ℕ → K) (t : ℕ) : psum f (t + 1) = psum f t + f t := Finset.sum_range_succ _ _

theorem fillY_spec (input : Fin n → K) (step : K) : ∀ (N i : ℕ) (yl yu : Fin (n + 1) → K), i + N = n + 1 → 2 ≤ i →
    getD0 yl 0 = 0 → getD0 yu 0 = 0 →
    (∀ t, 1 ≤ t → t < i → getD0 yl t = psum (getD0 input) t - step ∧ getD0 yu t = psum (getD0 input) t + step) →
    ∃ yl' yu', fillY input i yl yu = some (yl', yu') ∧ getD0 yl' 0 = 0 ∧ getD0 yu' 0 = 0 ∧
      ∀ t, 1 ≤ t → t ≤ n → getD0 yl' t = psum (getD0 input) t - step ∧ getD0 yu' t = psum (getD0 input) t + step := by
  intro N
  induction N with
  | zero =>
    intro i yl yu hN h2 h0l h0u h
    refine ⟨yl, yu, by rw [fillY, if_neg (by omega)], h0l, h0u, fun t h1 h2 => h t h1 (by omega)⟩
  | succ N ih =>
    intro i yl yu hN h2 h0l h0u h
    have hi : i < n + 1 := by omega
    rw [fillY, if_pos hi]
    rw [rd_eq_getD0 _ (show i - 1 < n + 1 by omega), rd_eq_getD0 _ (show i - 1 < n + 1 by omega),
      rd_eq_getD0 input (show i - 1 < n by omega)]
    simp only [Option.bind_eq_bind, Option.bind_some]
    rw [wr_lt _ hi, wr_lt _ hi]
    simp only [Option.bind_some]
    obtain ⟨h3, h4⟩ := h (i - 1) (by omega) (by omega)
    refine ih (i + 1) _ _ (by omega) (by omega) ?_ ?_ ?_
    · rw [getD0_update, if_neg (by omega)]; exact h0l
    · rw [getD0_update, if_neg (by omega)]; exact h0u
    · intro t h5 h6
      rw [getD0_update, getD0_update]
      by_cases h7 : t = i
      · rw [if_pos h7, if_pos h7, h3, h4, h7]
        obtain ⟨k, rfl⟩ : ∃ k, i = k + 1 := ⟨i - 1, by omega⟩
        rw [Nat.add_sub_cancel, psum_succ]
        constructor <;> ring
      · rw [if_neg h7, if_neg h7]; exact h t h5 (by omega)

theorem tubes_spec (hn : 0 < n) (step : K) (input : Fin n → K) (jl ju : Fin (n + 1) → K) :
    ∃ yl yu, tubes step input jl ju = some (yl, yu) ∧ getD0 yl 0 = 0 ∧ getD0 yu 0 = 0 ∧
      getD0 yl n = psum (getD0 input) n ∧ getD0 yu n = psum (getD0 input) n ∧
      ∀ t, 1 ≤ t → t < n → getD0 yl t = psum (getD0 input) t - step ∧ getD0 yu t = psum (getD0 input) t + step := by
  unfold tubes
  simp only [Option.bind_eq_bind]
  have h0 : 0 < n + 1 := by omega
  have h1 : 1 < n + 1 := by omega
  rw [wr_lt _ h0, wr_lt _ h0, rd_eq_getD0 _ hn]
  simp only [Option.bind_some]
  rw [wr_lt _ h1, wr_lt _ h1]
  simp only [Option.bind_some]
  obtain ⟨yl, yu, e, hl0, hu0, h⟩ := fillY_spec input step (n - 1) 2
    (Function.update (Function.update jl ⟨0, h0⟩ 0) ⟨1, h1⟩ (getD0 input 0 - step))
    (Function.update (Function.update ju ⟨0, h0⟩ 0) ⟨1, h1⟩ (getD0 input 0 + step)) (by omega) le_rfl
    (by rw [getD0_update, if_neg (by omega), getD0_update, if_pos rfl])
    (by rw [getD0_update, if_neg (by omega), getD0_update, if_pos rfl])
    (by
      intro t h2 h3
      have : t = 1 := by omega
      subst this
      rw [getD0_update, if_pos rfl, getD0_update, if_pos rfl]
      simp [psum])
  rw [e]
  simp only [Option.bind_some]
  have hnw : n < n + 1 := by omega
  rw [rd_eq_getD0 _ hnw, rd_eq_getD0 _ hnw]
  simp only [Option.bind_some]
  rw [wr_lt _ hnw, wr_lt _ hnw]
  simp only [Option.bind_some]
  obtain ⟨h3, h4⟩ := h n hn le_rfl
  refine ⟨_, _, rfl, ?_, ?_, ?_, ?_, ?_⟩
  · rw [getD0_update, if_neg (by omega)]; exact hl0
  · rw [getD0_update, if_neg (by omega)]; exact hu0
  · rw [getD0_update, if_pos rfl, h3]; ring
  · rw [getD0_update, if_pos rfl, h4]; ring
  · intro t h5 h6
    rw [getD0_update, if_neg (by omega), getD0_update, if_neg (by omega)]
    exact h t h5 (by omega)

theorem writeSeg_spec (a : K) (l : ℕ) (hl : l ≤ n) : ∀ (N j : ℕ) (out : Fin n → K), l - j = N → j ≤ l →
    ∃ out', writeSeg a l j out = some (l, out') ∧
      ∀ t, getD0 out' t = if j ≤ t ∧ t < l then a else getD0 out t := by
  intro N
  induction N with
  | zero =>
    intro j out hN hj
    have e : j = l := by omega
    subst e
    refine ⟨out, by rw [writeSeg, if_neg (by omega)], fun t => by rw [if_neg (by omega)]⟩
  | succ N ih =>
    intro j out hN hj
    rw [writeSeg, if_pos (by omega), wr_lt _ (show j < n by omega)]
    simp only [Option.bind_eq_bind, Option.bind_some]
    obtain ⟨out', e, h⟩ := ih (j + 1) (Function.update out ⟨j, by omega⟩ a) (by omega) (by omega)
    refine ⟨out', e, fun t => ?_⟩
    rw [h t, getD0_update]
    by_cases h1 : j + 1 ≤ t ∧ t < l
    · rw [if_pos h1, if_pos (by omega)]
    · rw [if_neg h1]
      by_cases h2 : t = j
      · rw [if_pos h2, if_pos (by omega)]
      · rw [if_neg h2, if_neg (by omega)]

theorem writeOut_spec (idx : Fin w → ℕ) (z : Fin w → K) (c : ℕ) (hc : c < w)
    (hmono : ∀ k < c, getD0 idx k < getD0 idx (k + 1)) (hn : getD0 idx c ≤ n) : ∀ (N i : ℕ) (out : Fin n → K),
    i + N = c →
    (∀ k < i, ∀ t, getD0 idx k ≤ t → t < getD0 idx (k + 1) → getD0 out t = seg (getD0 idx) (getD0 z) k) →
    ∃ out', writeOut idx z c (i + 1) (getD0 idx i) out = some out' ∧
      ∀ k < c, ∀ t, getD0 idx k ≤ t → t < getD0 idx (k + 1) → getD0 out' t = seg (getD0 idx) (getD0 z) k := by
  intro N
  induction N with
  | zero =>
    intro i out hN h
    have e : i = c := by omega
    subst e
    exact ⟨out, by rw [writeOut, if_neg (by omega)], h⟩
  | succ N ih =>
    intro i out hN h
    rw [writeOut, if_pos (by omega), rd_eq_getD0 _ (show i + 1 < w by omega), rd_eq_getD0 _ (show i + 1 < w by omega),
      rd_eq_getD0 _ (show i + 1 - 1 < w by omega), rd_eq_getD0 _ (show i + 1 - 1 < w by omega)]
    simp only [Option.bind_eq_bind, Option.bind_some, Nat.add_sub_cancel]
    have hlt := hmono i (by omega)
    have hle := ptr_le_of_mono (getD0 idx) c hmono c le_rfl (i + 1) (by omega)
    rw [divNat_ne _ hlt]
    simp only [Option.bind_some]
    obtain ⟨out', e, h1⟩ := writeSeg_spec (n := n) ((getD0 z (i + 1) - getD0 z i) / (((getD0 idx (i + 1) : ℕ) : K) - ((getD0 idx i : ℕ) : K)))
      (getD0 idx (i + 1)) (by omega) _ (getD0 idx i) out rfl hlt.le
    rw [e]
    simp only [Option.bind_some]
    refine ih (i + 1) out' (by omega) ?_
    intro k hk t h2 h3
    rw [h1 t]
    rcases Nat.lt_or_ge k i with h4 | h4
    · have := ptr_le_of_mono (getD0 idx) c hmono i (by omega) (k + 1) (by omega)
      rw [if_neg (by omega)]; exact h k h4 t h2 h3
    · have : k = i := by omega
      subst this
      rw [if_pos ⟨h2, h3⟩]; rfl

/-- Summation by parts. -/
theorem sum_by_parts (u v : ℕ → K) (h0 : u 0 = 0) : ∀ m : ℕ,
    ∑ j ∈ Finset.range (m + 1), (u (j + 1) - u j) * v j =
      u (m + 1) * v m - ∑ t ∈ Finset.range m, u (t + 1) * (v (t + 1) - v t) := by
  intro m
  induction m with
  | zero => simp [h0]
  | succ m ih => rw [Finset.sum_range_succ, ih, Finset.sum_range_succ]; ring

/-- Dual certificate of optimality for the 1-D total variation. -/
theorem tv_kkt (f x : ℕ → K) (lam : K) (m : ℕ) (u : ℕ → K)
    (hu : ∀ t, u t = psum f t - psum x t) (hend : u (m + 1) = 0)
    (hb : ∀ t < m, |u (t + 1)| ≤ lam)
    (hup : ∀ t < m, x t < x (t + 1) → u (t + 1) = -lam) (hdn : ∀ t < m, x (t + 1) < x t → u (t + 1) = lam) (y : ℕ → K) :
    lam * ∑ t ∈ Finset.range m, |x (t + 1) - x t| + ∑ j ∈ Finset.range (m + 1), (f j - x j) * (y j - x j) ≤
      lam * ∑ t ∈ Finset.range m, |y (t + 1) - y t| := by
  have h0 : u 0 = 0 := by rw [hu]; simp [psum]
  have hd : ∀ j, f j - x j = u (j + 1) - u j := by
    intro j; rw [hu, hu, psum_succ, psum_succ]; ring
  have e : ∀ v : ℕ → K, ∑ j ∈ Finset.range (m + 1), (f j - x j) * v j =
      -∑ t ∈ Finset.range m, u (t + 1) * (v (t + 1) - v t) := by
    intro v
    rw [Finset.sum_congr rfl (fun j _ => by rw [hd j]), sum_by_parts u v h0, hend]; ring
  have e1 : ∑ j ∈ Finset.range (m + 1), (f j - x j) * (y j - x j) =
      ∑ t ∈ Finset.range m, u (t + 1) * (x (t + 1) - x t) - ∑ t ∈ Finset.range m, u (t + 1) * (y (t + 1) - y t) := by
    have : ∀ j, (f j - x j) * (y j - x j) = (f j - x j) * y j - (f j - x j) * x j := fun j => by ring
    rw [Finset.sum_congr rfl (fun j _ => this j), Finset.sum_sub_distrib, e, e]; ring
  have e2 : ∑ t ∈ Finset.range m, u (t + 1) * (x (t + 1) - x t) = -(lam * ∑ t ∈ Finset.range m, |x (t + 1) - x t|) := by
    rw [Finset.mul_sum, ← Finset.sum_neg_distrib]
    refine Finset.sum_congr rfl fun t ht => ?_
    have htm := Finset.mem_range.mp ht
    rcases lt_trichotomy (x t) (x (t + 1)) with h | h | h
    · rw [hup t htm h, abs_of_pos (by linarith)]; ring
    · rw [h]; simp
    · rw [hdn t htm h, abs_of_neg (by linarith)]; ring
  have e3 : -∑ t ∈ Finset.range m, u (t + 1) * (y (t + 1) - y t) ≤ lam * ∑ t ∈ Finset.range m, |y (t + 1) - y t| := by
    rw [Finset.mul_sum, ← Finset.sum_neg_distrib]
    refine Finset.sum_le_sum fun t ht => ?_
    have htm := Finset.mem_range.mp ht
    calc -(u (t + 1) * (y (t + 1) - y t)) ≤ |u (t + 1) * (y (t + 1) - y t)| := neg_le_abs _
      _ = |u (t + 1)| * |y (t + 1) - y t| := abs_mul _ _
      _ ≤ lam * |y (t + 1) - y t| := mul_le_mul_of_nonneg_right (hb t htm) (abs_nonneg _)
  rw [e1, e2]; linarith

/-- The prefix sums of the output are the string. -/
theorem psum_string {ix : ℕ → ℕ} {z x : ℕ → K} {c : ℕ} (h0 : ix 0 = 0) (hz : z 0 = 0)
    (hmono : ∀ k < c, ix k < ix (k + 1))
    (hx : ∀ k < c, ∀ t, ix k ≤ t → t < ix (k + 1) → x t = seg ix z k) :
    ∀ k ≤ c, psum x (ix k) = z k ∧
      (k < c → ∀ t, ix k ≤ t → t ≤ ix (k + 1) → psum x t = z k + seg ix z k * ((t : K) - ix k)) := by
  have inner : ∀ k < c, psum x (ix k) = z k →
      ∀ t, ix k ≤ t → t ≤ ix (k + 1) → psum x t = z k + seg ix z k * ((t : K) - ix k) := by
    intro k hk hs t h1
    induction t, h1 using Nat.le_induction with
    | base => intro _; rw [hs]; ring
    | succ t h1 ih => intro h2; rw [psum_succ, ih (by omega), hx k hk t h1 (by omega)]; push_cast; ring
  intro k
  induction k with
  | zero =>
    intro _
    have : psum x (ix 0) = z 0 := by rw [h0, hz]; simp [psum]
    exact ⟨this, fun hc => inner 0 hc this⟩
  | succ k ih =>
    intro hk
    have hm := hmono k (by omega)
    have hc : (ix k : K) < ix (k + 1) := by exact_mod_cast hm
    have hne : (ix (k + 1) : K) - ix k ≠ 0 := by intro h; linarith
    have : psum x (ix (k + 1)) = z (k + 1) := by
      rw [(ih (by omega)).2 (by omega) (ix (k + 1)) hm.le le_rfl]
      unfold seg; field_simp; ring
    exact ⟨this, fun hc => inner (k + 1) hc this⟩

/-- Every index lies in a segment. -/
theorem exists_seg {ix : ℕ → ℕ} {c : ℕ} (h0 : ix 0 = 0) : ∀ t, t < ix c → ∃ k < c, ix k ≤ t ∧ t < ix (k + 1) := by
  induction c with
  | zero => intro t h; omega
  | succ c ih =>
    intro t h
    rcases Nat.lt_or_ge t (ix c) with h1 | h1
    · obtain ⟨k, a, b⟩ := ih t h1; exact ⟨k, by omega, b⟩
    · exact ⟨c, by omega, h1, h⟩

/-- From knots to the optimality certificate. -/
theorem knots_kkt {YL YU f x : ℕ → K} {lam : K} {m : ℕ} {ix : ℕ → ℕ} {z : ℕ → K} {c : ℕ}
    (hk : Knots YL YU ix z c) (hc : ix c = m + 1)
    (hYe : YL (m + 1) = psum f (m + 1)) (hYe' : YU (m + 1) = psum f (m + 1))
    (hY : ∀ t, 1 ≤ t → t < m + 1 → YL t = psum f t - lam ∧ YU t = psum f t + lam)
    (hx : ∀ k < c, ∀ t, ix k ≤ t → t < ix (k + 1) → x t = seg ix z k) (y : ℕ → K) :
    lam * ∑ t ∈ Finset.range m, |x (t + 1) - x t| + ∑ j ∈ Finset.range (m + 1), (f j - x j) * (y j - x j) ≤
      lam * ∑ t ∈ Finset.range m, |y (t + 1) - y t| := by
  have hps := psum_string hk.i0 hk.z0 hk.mono hx
  -- tube for the prefix sums
  have htube : ∀ t, 1 ≤ t → t ≤ m + 1 → YL t ≤ psum x t ∧ psum x t ≤ YU t := by
    intro t h1 h2
    obtain ⟨k, hkc, a, b⟩ := exists_seg hk.i0 (t - 1) (by rw [hc]; omega)
    have := hk.tube k hkc t (by omega) (by omega)
    rwa [← (hps k hkc.le).2 hkc t (by omega) (by omega)] at this
  -- kinks
  have hkink : ∀ t < m, (x t < x (t + 1) → psum x (t + 1) = YU (t + 1)) ∧ (x (t + 1) < x t → psum x (t + 1) = YL (t + 1)) := by
    intro t ht
    obtain ⟨k, hkc, a, b⟩ := exists_seg hk.i0 t (by rw [hc]; omega)
    rcases Nat.lt_or_ge (t + 1) (ix (k + 1)) with h1 | h1
    · have e : x t = x (t + 1) := by rw [hx k hkc t a b, hx k hkc (t + 1) (by omega) h1]
      exact ⟨fun h => absurd h (by rw [e]; exact lt_irrefl _), fun h => absurd h (by rw [e]; exact lt_irrefl _)⟩
    · have e : ix (k + 1) = t + 1 := by omega
      have hkc' : k + 1 < c := by
        rcases Nat.lt_or_ge (k + 1) c with h2 | h2
        · exact h2
        · have : k + 1 = c := by omega
          rw [this, hc] at e; omega
      have ex1 := hx k hkc t a b
      have ex2 := hx (k + 1) hkc' (t + 1) (by omega) (by have := hk.mono (k + 1) hkc'; omega)
      have ez := (hps (k + 1) hkc'.le).1
      rw [e] at ez
      rw [ex1, ex2]
      rcases hk.kink k hkc' with ⟨h2, h3⟩ | ⟨h2, h3⟩
      · rw [e] at h2
        exact ⟨fun _ => ez.trans h2, fun h => absurd h (not_lt.mpr h3)⟩
      · rw [e] at h2
        exact ⟨fun h => absurd h (not_lt.mpr h3), fun _ => ez.trans h2⟩
  refine tv_kkt f x lam m (fun t => psum f t - psum x t) (fun t => rfl) ?_ ?_ ?_ ?_ y
  · have := htube (m + 1) (by omega) le_rfl
    rw [hYe, hYe'] at this
    show psum f (m + 1) - psum x (m + 1) = 0
    linarith
  · intro t ht
    have h1 := htube (t + 1) (by omega) (by omega)
    obtain ⟨h2, h3⟩ := hY (t + 1) (by omega) (by omega)
    show |psum f (t + 1) - psum x (t + 1)| ≤ lam
    rw [abs_le]; constructor <;> linarith
  · intro t ht h
    have h1 := (hkink t ht).1 h
    obtain ⟨h2, h3⟩ := hY (t + 1) (by omega) (by omega)
    show psum f (t + 1) - psum x (t + 1) = -lam
    linarith
  · intro t ht h
    have h1 := (hkink t ht).2 h
    obtain ⟨h2, h3⟩ := hY (t + 1) (by omega) (by omega)
    show psum f (t + 1) - psum x (t + 1) = lam
    linarith

theorem tv1_getD0 {m : ℕ} (y : Fin (m + 1) → K) :
    tv1 y = ∑ t ∈ Finset.range m, |getD0 y (t + 1) - getD0 y t| := by
  unfold tv1
  rw [Finset.sum_range]
  refine Finset.sum_congr rfl fun k _ => ?_
  have := k.2
  rw [getD0_lt y (show k.val + 1 < m + 1 by omega), getD0_lt y (show k.val < m + 1 by omega)]

/-- Full correctness of the low-level routine. -/
theorem lowLevel_spec (hn : 0 < n) (junk : Junk n K) {step : K} (hs : 0 ≤ step) (input : Fin n → K) :
    ∃ out, lowLevel junk step input = some out ∧
      ∀ y, step * tv1 out + dot (input - out) (y - out) ≤ step * tv1 y := by
  obtain ⟨m, rfl⟩ : ∃ m, n = m + 1 := ⟨n - 1, by omega⟩
  obtain ⟨yl, yu, et, hl0, hu0, hln, hun, hY⟩ := tubes_spec hn step input junk.yl junk.yu
  unfold lowLevel
  simp only [Option.bind_eq_bind]
  rw [et]
  simp only [Option.bind_some]
  have h0 : 0 < m + 1 + 1 := by omega
  rw [wr_lt _ h0, wr_lt _ h0, rd_eq_getD0 _ h0]
  simp only [Option.bind_some]
  rw [wr_lt _ h0]
  simp only [Option.bind_some]
  have hle : ∀ i < m + 1 + 1, getD0 yl i ≤ getD0 yu i := by
    intro i hi
    rcases Nat.eq_zero_or_pos i with h1 | h1
    · rw [h1, hl0, hu0]
    · rcases Nat.lt_or_ge i (m + 1) with h2 | h2
      · obtain ⟨a, b⟩ := hY i h1 h2; rw [a, b]; linarith
      · have : i = m + 1 := by omega
        rw [this, hln, hun]
  obtain ⟨st, em, hR⟩ := mainLoop_spec yl yu hle hl0 hu0 (m + 1) 0
    { idxLow := fun _ => 0, slLow := Function.update (fun _ => 0) ⟨0, h0⟩ junk.posInf, idxUp := fun _ => 0,
      slUp := Function.update (fun _ => 0) ⟨0, h0⟩ junk.negInf, idx := fun _ => 0,
      z := Function.update (fun _ => 0) ⟨0, h0⟩ (getD0 yl 0), sLow := 0, cLow := 0, sUp := 0, cUp := 0, c := 0 }
    (by omega)
    ⟨le_rfl, le_rfl, Or.inl ⟨rfl, rfl, rfl, rfl, by rw [getD0_lt _ h0], by rw [getD0_update, if_pos rfl, hl0]⟩⟩
  rw [em]
  simp only [Option.bind_some]
  have hI : SInv yl yu st (m + 1) := by
    rcases hR.inv with ⟨h, _⟩ | h
    · omega
    · exact h
  have hcl := hR.cl
  have hend := hI.final (by rw [hln, hun])
  have hcw : st.c + 1 < m + 1 + 1 := by
    have := hI.kn.le_ix st.c le_rfl
    have := hI.low.b_lt hI.se
    omega
  have hlast : getD0 st.idxLow (st.sLow + 1) = m + 1 := by
    have := hI.low.last
    rw [hP_of_lt _ _ (by omega), hend] at this
    exact this
  have hsw : st.sLow + 1 < m + 1 + 1 := by omega
  set idx := Function.update st.idx ⟨st.c + 1, hcw⟩ (m + 1) with hidx
  set z := Function.update st.z ⟨st.c + 1, hcw⟩ (getD0 yl (m + 1)) with hz
  have ecopy : copyKnots yl 1 st = some { st with idx := idx, z := z } := by
    rw [copyKnots, if_pos (by omega), rd_eq_getD0 _ hsw, hlast]
    simp only [Option.bind_eq_bind, Option.bind_some]
    rw [wr_lt _ hcw, rd_eq_getD0 _ (show m + 1 < m + 1 + 1 by omega)]
    simp only [Option.bind_some]
    rw [wr_lt _ hcw]
    simp only [Option.bind_some]
    rw [copyKnots, if_neg (by show ¬ (1 + 1 < st.cLow - st.sLow + 1); omega)]
  rw [ecopy]
  simp only [Option.bind_some]
  have hkn : Knots (getD0 yl) (getD0 yu) (getD0 idx) (getD0 z) (st.c + 1) :=
    hI.finish (by rw [hln, hun]) (fun k hk => by rw [hidx, getD0_update, if_neg (by omega)])
      (by rw [hidx, getD0_update, if_pos rfl]) (fun k hk => by rw [hz, getD0_update, if_neg (by omega)])
      (by rw [hz, getD0_update, if_pos rfl])
  have hic : getD0 idx (st.c + 1) = m + 1 := by rw [hidx, getD0_update, if_pos rfl]
  have ec : st.c + st.cLow - st.sLow = st.c + 1 := by omega
  rw [ec]
  obtain ⟨out, eo, hout⟩ := writeOut_spec (n := m + 1) idx z (st.c + 1) hcw hkn.mono hic.le (st.c + 1) 0 junk.out
    (by omega) (fun k hk => by omega)
  rw [hkn.i0] at eo
  refine ⟨out, eo, fun y => ?_⟩
  have := knots_kkt (f := getD0 input) (x := getD0 out) (lam := step) (m := m) hkn hic hln hun hY hout (getD0 y)
  rw [tv1_getD0, tv1_getD0]
  have e : dot (input - out) (y - out) =
      ∑ j ∈ Finset.range (m + 1), (getD0 input j - getD0 out j) * (getD0 y j - getD0 out j) := by
    rw [Finset.sum_range]
    unfold dot
    refine Finset.sum_congr rfl fun j _ => ?_
    rw [getD0_lt input j.2, getD0_lt out j.2, getD0_lt y j.2]; rfl
  rw [e]; exact this

end Copt.TV1D
