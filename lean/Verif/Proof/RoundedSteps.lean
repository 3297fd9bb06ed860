import Verif.Proof.Rounding
import Mathlib.Algebra.Order.BigOperators.Ring.Finset
import Mathlib.Algebra.BigOperators.Fin
import Mathlib.Data.Real.Sqrt

/-! # Rounding errors of dot products, norms and compositions of operations -/

set_option linter.unusedSectionVars false

namespace Copt

namespace Spec

variable {rd : ℝ → ℝ} {u eta : ℝ}

theorem FlDot.pos {l : List (ℝ × ℝ)} {a : ℝ} (h : FlDot rd l a) : 0 < l.length := by
  induction h with
  | single x y => simp
  | add h1 h2 i1 i2 => rw [List.length_append]; omega
  | fma x y h ih => simp
  | perm hp h ih => rwa [← hp.length_eq]

theorem dotAbs_nonneg (l : List (ℝ × ℝ)) : 0 ≤ (l.map fun p => |p.1 * p.2|).sum := by
  induction l with
  | nil => simp
  | cons p l ih => rw [List.map_cons, List.sum_cons]; have := abs_nonneg (p.1 * p.2); linarith

theorem abs_dot_le (l : List (ℝ × ℝ)) : |(l.map fun p => p.1 * p.2).sum| ≤ (l.map fun p => |p.1 * p.2|).sum := by
  have := abs_sum_le_sum_abs (l.map fun p => p.1 * p.2)
  rwa [List.map_map] at this

/-- Error of a rounded sum of two approximations. -/
theorem round_add_error (hr : Rounding rd u eta) {a b a0 b0 A B ca cb : ℝ} (ea : |a - a0| ≤ ca) (eb : |b - b0| ≤ cb) (hA : |a0| ≤ A) (hB : |b0| ≤ B)
    {T : ℝ} (hT : u * (A + B) + eta ≤ T) (hc : u * (ca + cb) ≤ T) : |rd (a + b) - (a0 + b0)| ≤ ca + cb + 2 * T := by
  have e3 := hr.err (a + b)
  have hab : |a + b| ≤ A + B + (ca + cb) := by
    have t1 : a + b = (a0 + b0) + ((a - a0) + (b - b0)) := by ring
    rw [t1]
    refine (abs_add_le _ _).trans ?_
    have t2 := abs_add_le a0 b0
    have t3 := abs_add_le (a - a0) (b - b0)
    linarith
  have h5 : u * |a + b| ≤ u * (A + B) + u * (ca + cb) := by
    rw [← mul_add]; exact mul_le_mul_of_nonneg_left hab hr.u_nonneg
  have t1 : rd (a + b) - (a0 + b0) = (rd (a + b) - (a + b)) + ((a - a0) + (b - b0)) := by ring
  rw [t1]
  have t3 := abs_add_le (a - a0) (b - b0)
  refine (abs_add_le _ _).trans ?_
  linarith

/-- Error of a dot product, whatever the order of the operations. -/
theorem FlDot.error {l : List (ℝ × ℝ)} {a : ℝ} (h : FlDot rd l a) (hr : Rounding rd u eta) (hl : 4 * l.length * u ≤ 1) :
    |a - (l.map fun p => p.1 * p.2).sum| ≤ (4 * l.length - 2) * (u * (l.map fun p => |p.1 * p.2|).sum + eta) := by
  have hu := hr.u_nonneg
  have he := hr.eta_nonneg
  induction h with
  | single x y =>
    have := hr.err (x * y)
    have h0 : 0 ≤ u * |x * y| := mul_nonneg hu (abs_nonneg _)
    simp only [List.map_cons, List.map_nil, List.sum_cons, List.sum_nil, add_zero, List.length_cons, List.length_nil]
    push_cast
    linarith
  | perm hp h ih =>
    rw [← (hp.map _).sum_eq, ← (hp.map _).sum_eq, ← hp.length_eq]
    exact ih (by rw [hp.length_eq]; exact hl)
  | @add l l' a b h1 h2 i1 i2 =>
    have p1 : (1 : ℝ) ≤ l.length := by exact_mod_cast h1.pos
    have p2 : (1 : ℝ) ≤ l'.length := by exact_mod_cast h2.pos
    rw [List.length_append, Nat.cast_add] at hl ⊢
    simp only [List.map_append, List.sum_append]
    have e1 := i1 (by nlinarith)
    have e2 := i2 (by nlinarith)
    have A0 := dotAbs_nonneg l
    have B0 := dotAbs_nonneg l'
    have As := abs_dot_le l
    have Bs := abs_dot_le l'
    set A := (l.map fun p => |p.1 * p.2|).sum
    set B := (l'.map fun p => |p.1 * p.2|).sum
    obtain ⟨T, hT⟩ : ∃ T, T = u * (A + B) + eta := ⟨_, rfl⟩
    have T0 : 0 ≤ T := by rw [hT]; positivity
    have k1 : (4 * (l.length : ℝ) - 2) * (u * A + eta) ≤ (4 * (l.length : ℝ) - 2) * T :=
      mul_le_mul_of_nonneg_left (by rw [hT]; nlinarith) (by linarith)
    have k2 : (4 * (l'.length : ℝ) - 2) * (u * B + eta) ≤ (4 * (l'.length : ℝ) - 2) * T :=
      mul_le_mul_of_nonneg_left (by rw [hT]; nlinarith) (by linarith)
    have key := round_add_error hr (e1.trans k1) (e2.trans k2) As Bs hT.ge (by
      have : u * (4 * ((l.length : ℝ) + l'.length) - 4) ≤ 1 := by nlinarith
      calc u * ((4 * (l.length : ℝ) - 2) * T + (4 * (l'.length : ℝ) - 2) * T) = u * (4 * ((l.length : ℝ) + l'.length) - 4) * T := by ring
        _ ≤ 1 * T := mul_le_mul_of_nonneg_right this T0
        _ = T := one_mul T)
    rw [← hT]
    linarith
  | @fma l a x y h ih =>
    have p1 : (1 : ℝ) ≤ l.length := by exact_mod_cast h.pos
    rw [List.length_cons, Nat.cast_add, Nat.cast_one] at hl ⊢
    simp only [List.map_cons, List.sum_cons]
    have e1 := ih (by nlinarith)
    have A0 := dotAbs_nonneg l
    have As := abs_dot_le l
    have B0 := abs_nonneg (x * y)
    set A := (l.map fun p => |p.1 * p.2|).sum
    obtain ⟨T, hT⟩ : ∃ T, T = u * (|x * y| + A) + eta := ⟨_, rfl⟩
    have T0 : 0 ≤ T := by rw [hT]; positivity
    have k1 : (4 * (l.length : ℝ) - 2) * (u * A + eta) ≤ (4 * (l.length : ℝ) - 2) * T :=
      mul_le_mul_of_nonneg_left (by rw [hT]; nlinarith) (by linarith)
    have key := round_add_error hr (a := x * y) (a0 := x * y) (ca := 0) (by simp) (e1.trans k1) le_rfl As hT.ge (by
      have : u * (4 * (l.length : ℝ) - 2) ≤ 1 := by nlinarith
      calc u * (0 + (4 * (l.length : ℝ) - 2) * T) = u * (4 * (l.length : ℝ) - 2) * T := by ring
        _ ≤ 1 * T := mul_le_mul_of_nonneg_right this T0
        _ = T := one_mul T)
    rw [← hT]
    linarith

/-- A dot product of two vectors. -/
theorem FlDot.error_vec {m : ℕ} {a y : Fin m → ℝ} {s : ℝ} (h : FlDot rd (List.ofFn fun i => (a i, y i)) s) (hr : Rounding rd u eta) (hl : 4 * m * u ≤ 1) :
    |s - ∑ i, a i * y i| ≤ 4 * m * (u * (∑ i, |a i * y i|) + eta) := by
  have := h.error hr (by rw [List.length_ofFn]; exact hl)
  rw [List.map_ofFn, List.map_ofFn, List.sum_ofFn, List.sum_ofFn, List.length_ofFn] at this
  simp only [Function.comp] at this
  have h0 : 0 ≤ u * (∑ i, |a i * y i|) + eta := by
    have := mul_nonneg hr.u_nonneg (Finset.sum_nonneg fun i (_ : i ∈ Finset.univ) => abs_nonneg (a i * y i))
    have := hr.eta_nonneg
    linarith
  linarith

end Spec

open Spec

variable {rd : ℝ → ℝ} {u eta : ℝ}

/-- `y` is computed from data of size `r` and approximates `y0`, which has the size of `r`. -/
structure Close (w r C B y y0 : ℝ) : Prop where
  err : |y - y0| ≤ C * w * r
  size : |y0| ≤ B * r
  C_nonneg : 0 ≤ C
  B_nonneg : 0 ≤ B

/-- The precision of the arithmetic and the size of the data. -/
structure Scale (rd : ℝ → ℝ) (u eta w r : ℝ) : Prop where
  rnd : Rounding rd u eta
  u_le : u ≤ w
  eta_le : eta ≤ w ^ 2
  w_nonneg : 0 ≤ w
  w_le : w ≤ 1
  r_ge : 1 ≤ r

variable {w r C B C' B' y y0 z z0 : ℝ}

theorem Scale.eta_le' (hs : Scale rd u eta w r) : eta ≤ w := by
  have := hs.eta_le; have := hs.w_nonneg; have := hs.w_le; nlinarith

theorem Close.size' (hs : Scale rd u eta w r) (h : Close w r C B y y0) : |y| ≤ (B + C) * r := by
  have h1 : |y| ≤ |y - y0| + |y0| := by
    have := abs_add_le (y - y0) y0
    rwa [sub_add_cancel] at this
  have h2 : C * w * r ≤ C * r := by
    have := mul_le_mul_of_nonneg_left hs.w_le h.C_nonneg
    have := mul_le_mul_of_nonneg_right this (by linarith [hs.r_ge] : 0 ≤ r)
    linarith
  linarith [h.err, h.size]

theorem Close.mono (hs : Scale rd u eta w r) (h : Close w r C B y y0) (hC : C ≤ C') (hB : B ≤ B') : Close w r C' B' y y0 :=
  ⟨h.err.trans (mul_le_mul_of_nonneg_right (mul_le_mul_of_nonneg_right hC hs.w_nonneg) (by linarith [hs.r_ge])),
    h.size.trans (mul_le_mul_of_nonneg_right hB (by linarith [hs.r_ge])), h.C_nonneg.trans hC, h.B_nonneg.trans hB⟩

theorem Close.const (hs : Scale rd u eta w r) (c : ℝ) : Close w r 0 |c| c c :=
  ⟨by simp, by have := hs.r_ge; have := abs_nonneg c; nlinarith, le_rfl, abs_nonneg c⟩

theorem Close.round (hs : Scale rd u eta w r) (h : Close w r C B y y0) : Close w r (2 * C + B + 1) B (rd y) y0 := by
  refine ⟨?_, h.size, by linarith [h.C_nonneg, h.B_nonneg], h.B_nonneg⟩
  have e1 := hs.rnd.err y
  have e2 := h.size' hs
  have e3 : u * |y| ≤ w * ((B + C) * r) := mul_le_mul hs.u_le e2 (abs_nonneg _) hs.w_nonneg
  have e4 := hs.eta_le'
  have e5 : w ≤ w * r := le_mul_of_one_le_right hs.w_nonneg hs.r_ge
  have e6 : |rd y - y0| ≤ |rd y - y| + |y - y0| := abs_sub_le _ _ _
  have e7 := h.err
  nlinarith

theorem Close.add (h : Close w r C B y y0) (h' : Close w r C' B' z z0) : Close w r (C + C') (B + B') (y + z) (y0 + z0) := by
  refine ⟨?_, ?_, add_nonneg h.C_nonneg h'.C_nonneg, add_nonneg h.B_nonneg h'.B_nonneg⟩
  · have : y + z - (y0 + z0) = (y - y0) + (z - z0) := by ring
    rw [this]
    refine (abs_add_le _ _).trans ?_
    linarith [h.err, h'.err]
  · refine (abs_add_le _ _).trans ?_
    linarith [h.size, h'.size]

theorem Close.neg (h : Close w r C B y y0) : Close w r C B (-y) (-y0) := by
  refine ⟨?_, by rw [abs_neg]; exact h.size, h.C_nonneg, h.B_nonneg⟩
  rw [← neg_sub', abs_neg]; exact h.err

theorem Close.sub (h : Close w r C B y y0) (h' : Close w r C' B' z z0) : Close w r (C + C') (B + B') (y - z) (y0 - z0) := by
  rw [sub_eq_add_neg, sub_eq_add_neg]; exact h.add h'.neg

theorem Close.smul (h : Close w r C B y y0) (c : ℝ) : Close w r (|c| * C) (|c| * B) (c * y) (c * y0) := by
  refine ⟨?_, ?_, mul_nonneg (abs_nonneg _) h.C_nonneg, mul_nonneg (abs_nonneg _) h.B_nonneg⟩
  · rw [← mul_sub, abs_mul]
    have := mul_le_mul_of_nonneg_left h.err (abs_nonneg c)
    linarith
  · rw [abs_mul]
    have := mul_le_mul_of_nonneg_left h.size (abs_nonneg c)
    linarith

theorem Close.div (h : Close w r C B y y0) (c : ℝ) : Close w r (|c⁻¹| * C) (|c⁻¹| * B) (y / c) (y0 / c) := by
  rw [div_eq_inv_mul, div_eq_inv_mul]; exact h.smul _

/-- Composition with a Lipschitz function of linear growth. -/
theorem Close.lip (hs : Scale rd u eta w r) (h : Close w r C B y y0) {g : ℝ → ℝ} {L : ℝ} (hL : 0 ≤ L) (hg : ∀ a b, |g a - g b| ≤ L * |a - b|) :
    Close w r (L * C) (|g 0| + L * B) (g y) (g y0) := by
  refine ⟨?_, ?_, mul_nonneg hL h.C_nonneg, add_nonneg (abs_nonneg _) (mul_nonneg hL h.B_nonneg)⟩
  · have := (hg y y0).trans (mul_le_mul_of_nonneg_left h.err hL)
    linarith
  · have h1 := hg y0 0
    have h2 : |g y0| ≤ |g y0 - g 0| + |g 0| := by
      have := abs_add_le (g y0 - g 0) (g 0)
      rwa [sub_add_cancel] at this
    rw [sub_zero] at h1
    have h3 := mul_le_mul_of_nonneg_left h.size hL
    have h4 : |g 0| ≤ |g 0| * r := le_mul_of_one_le_right (abs_nonneg _) hs.r_ge
    linarith

/-- An inexact evaluation on top of an approximation. -/
theorem Close.approx (hs : Scale rd u eta w r) (h : Close w r C B y y0) {v K : ℝ} (hK : 0 ≤ K) (hv : |v - y| ≤ K * w * (1 + |y|)) :
    Close w r (C + K * (1 + B + C)) B v y0 := by
  have := h.C_nonneg
  have := h.B_nonneg
  refine ⟨?_, h.size, by positivity, h.B_nonneg⟩
  have e1 := h.size' hs
  have e2 : 1 + |y| ≤ (1 + B + C) * r := by have := hs.r_ge; linarith
  have e3 : |v - y0| ≤ |v - y| + |y - y0| := abs_sub_le _ _ _
  have e4 : K * w * (1 + |y|) ≤ K * w * ((1 + B + C) * r) := mul_le_mul_of_nonneg_left e2 (mul_nonneg hK hs.w_nonneg)
  linarith [h.err]

theorem Close.max0 (hs : Scale rd u eta w r) (h : Close w r C B y y0) : Close w r C B (max y 0) (max y0 0) := by
  have := h.lip hs (g := fun t => max t 0) (L := 1) zero_le_one fun a b => by
    rw [one_mul]; exact abs_max_sub_max_le_abs a b 0
  simpa using this

/-- A dot product with a fixed vector. -/
theorem Close.dot {m : ℕ} (hs : Scale rd u eta w r) (hm : 4 * m * w ≤ 1) {a : Fin m → ℝ} {S : ℝ} (hS : ∑ i, |a i| ≤ S) {y y0 : Fin m → ℝ}
    (h : ∀ i, Close w r C B (y i) (y0 i)) (hC : 0 ≤ C) (hB : 0 ≤ B) {s : ℝ} (hd : FlDot rd (List.ofFn fun i => (a i, y i)) s) :
    Close w r (S * C + 4 * m * (S * (B + C) + 1)) (S * B) s (∑ i, a i * y0 i) := by
  have hS0 : 0 ≤ S := le_trans (Finset.sum_nonneg fun i _ => abs_nonneg (a i)) hS
  have hr0 : 0 ≤ r := by linarith [hs.r_ge]
  have hw := hs.w_nonneg
  have e1 := hd.error_vec hs.rnd (by have := hs.u_le; have : (0 : ℝ) ≤ m := Nat.cast_nonneg m; nlinarith)
  have bound : ∀ (f : Fin m → ℝ) (c : ℝ), (∀ i, |f i| ≤ c) → 0 ≤ c → ∑ i, |a i * f i| ≤ S * c := by
    intro f c hf hc
    calc ∑ i, |a i * f i| ≤ ∑ i, |a i| * c := Finset.sum_le_sum fun i _ => by
          rw [abs_mul]; exact mul_le_mul_of_nonneg_left (hf i) (abs_nonneg _)
      _ = (∑ i, |a i|) * c := (Finset.sum_mul ..).symm
      _ ≤ S * c := mul_le_mul_of_nonneg_right hS hc
  have e2 : ∑ i, |a i * y i| ≤ S * ((B + C) * r) := bound y _ (fun i => (h i).size' hs) (by positivity)
  have e3 : |∑ i, a i * y i - ∑ i, a i * y0 i| ≤ S * (C * w * r) := by
    rw [← Finset.sum_sub_distrib]
    refine (Finset.abs_sum_le_sum_abs _ _).trans ?_
    refine le_trans (le_of_eq (Finset.sum_congr rfl fun i _ => by rw [← mul_sub])) (bound (fun i => y i - y0 i) _ (fun i => (h i).err) (by positivity))
  have e4 : u * ∑ i, |a i * y i| ≤ w * (S * ((B + C) * r)) :=
    mul_le_mul hs.u_le e2 (Finset.sum_nonneg fun i _ => abs_nonneg _) hw
  have e5 : eta ≤ w * r := hs.eta_le'.trans (le_mul_of_one_le_right hw hs.r_ge)
  have hm0 : (0 : ℝ) ≤ 4 * m := by positivity
  have e6 := mul_le_mul_of_nonneg_left (add_le_add e4 e5) hm0
  refine ⟨?_, ?_, by positivity, by positivity⟩
  · refine (abs_sub_le s (∑ i, a i * y i) _).trans ?_
    have e7 := e1.trans e6
    linarith
  · refine (Finset.abs_sum_le_sum_abs _ _).trans ?_
    have := bound y0 (B * r) (fun i => (h i).size) (by positivity)
    linarith

/-- Error of `np.linalg.norm`: the root of a dot product. -/
theorem norm_error {m : ℕ} (hs : Scale rd u eta w 1) (hm0 : 0 < m) (hm : 4 * m * w ≤ 1) {v : Fin m → ℝ} {s : ℝ} (hd : FlDot rd (List.ofFn fun i => (v i, v i)) s) :
    |rd (Real.sqrt s) - Real.sqrt (∑ i, v i * v i)| ≤ (12 * m + 2) * w * (1 + Real.sqrt (∑ i, v i * v i)) := by
  have hw := hs.w_nonneg
  have hm1 : (1 : ℝ) ≤ m := by exact_mod_cast hm0
  have hsq : 0 ≤ ∑ i, v i * v i := Finset.sum_nonneg fun i _ => mul_self_nonneg _
  have e1 := hd.error_vec hs.rnd (by have := hs.u_le; nlinarith)
  have habs : ∑ i, |v i * v i| = ∑ i, v i * v i := Finset.sum_congr rfl fun i _ => abs_mul_self _
  rw [habs] at e1
  have hN := Real.sq_sqrt hsq
  have hN0 := Real.sqrt_nonneg (∑ i, v i * v i)
  set N := Real.sqrt (∑ i, v i * v i)
  rw [← hN] at e1
  obtain ⟨c, hc⟩ : ∃ c : ℝ, c = 4 * m := ⟨_, rfl⟩
  rw [← hc] at e1 hm
  have hc1 : 1 ≤ c := by rw [hc]; linarith
  have e2 : |s - N ^ 2| ≤ c * (w * N ^ 2 + w ^ 2) := by
    refine e1.trans (mul_le_mul_of_nonneg_left ?_ (by linarith))
    have := mul_le_mul_of_nonneg_right hs.u_le (sq_nonneg N)
    linarith [hs.eta_le]
  have e2' := abs_le.mp e2
  have hcw : 0 ≤ c * w := by positivity
  have e3 : |Real.sqrt s - N| ≤ c * w * (1 + N) := by
    rw [abs_le]
    constructor
    · by_cases hle : N ≤ c * w * (1 + N)
      · linarith [Real.sqrt_nonneg s]
      · push Not at hle
        have : N - c * w * (1 + N) ≤ Real.sqrt s := by
          apply Real.le_sqrt_of_sq_le
          have hw1 : w ≤ N := by nlinarith
          nlinarith [mul_nonneg hcw hN0, mul_nonneg hcw (sub_nonneg.mpr hw1)]
        linarith
    · have : Real.sqrt s ≤ N + c * w * (1 + N) := by
        rw [Real.sqrt_le_left (by positivity)]
        have h1 : c * w ^ 2 ≤ (c * w) ^ 2 := by
          rw [mul_pow]; exact mul_le_mul_of_nonneg_right (by nlinarith) (sq_nonneg w)
        nlinarith [mul_nonneg hcw hN0, mul_nonneg (mul_nonneg hcw hN0) hN0]
      linarith
  have e4 := hs.rnd.err (Real.sqrt s)
  rw [abs_of_nonneg (Real.sqrt_nonneg s)] at e4
  have e5 := abs_le.mp e3
  have e6 : Real.sqrt s ≤ 2 * (1 + N) := by nlinarith
  have e7 : u * Real.sqrt s ≤ w * (2 * (1 + N)) := mul_le_mul hs.u_le e6 (Real.sqrt_nonneg s) hw
  have e8 := hs.eta_le'
  have e9 : |rd (Real.sqrt s) - N| ≤ |rd (Real.sqrt s) - Real.sqrt s| + |Real.sqrt s - N| := abs_sub_le _ _ _
  have e10 : 0 ≤ w * N := mul_nonneg hw hN0
  have : c * w * (1 + N) = 4 * m * w * (1 + N) := by rw [hc]
  have e11 : 0 ≤ (m : ℝ) * (w * (1 + N)) := by positivity
  have e12 : w * (1 + N) ≤ m * (w * (1 + N)) := le_mul_of_one_le_left (by positivity) hm1
  nlinarith

end Copt
