import Verif.Model.FloatValue
import Verif.Proof.FloatOracles
import Mathlib.Analysis.Complex.ExponentialBounds

/-! # Errors of the values of the losses with rounded arithmetic -/

set_option linter.unusedSectionVars false

namespace Copt

open Spec

variable {rd : ℝ → ℝ} {u eta w r r' C B C' B' y y0 z z0 : ℝ} {n d : ℕ}

/-! ### `logsig` -/

theorem exp_neg_nat_le (k : ℕ) {c : ℝ} (hc : 0 < c) (h : c⁻¹ ≤ (2.7182818283 : ℝ) ^ k) : Real.exp (-k) ≤ c := by
  have h1 : Real.exp (k : ℝ) = Real.exp 1 ^ k := by rw [← Real.exp_nat_mul, mul_one]
  have h2 : (2.7182818283 : ℝ) ^ k ≤ Real.exp 1 ^ k := pow_le_pow_left₀ (by norm_num) Real.exp_one_gt_d9.le k
  rw [Real.exp_neg, inv_le_comm₀ (Real.exp_pos _) hc, h1]
  exact h.trans h2

theorem exp_neg_33 : Real.exp (-33) ≤ 66 * 2⁻¹ ^ 53 := by
  have := exp_neg_nat_le 33 (c := 66 * 2⁻¹ ^ 53) (by norm_num) (by norm_num)
  exact_mod_cast this

theorem exp_neg_36 : Real.exp (-36) ≤ 3 * 2⁻¹ ^ 53 := by
  have := exp_neg_nat_le 36 (c := 3 * 2⁻¹ ^ 53) (by norm_num) (by norm_num)
  exact_mod_cast this

theorem exp_neg_37 : Real.exp (-37) ≤ 2⁻¹ ^ 53 := by
  have := exp_neg_nat_le 37 (c := 2⁻¹ ^ 53) (by norm_num) (by norm_num)
  exact_mod_cast this

theorem log_sub_le {a b m : ℝ} (hm : 0 < m) (ha : m ≤ a) (hb : m ≤ b) : |Real.log b - Real.log a| ≤ |b - a| / m := by
  have key : ∀ {a b : ℝ}, m ≤ a → m ≤ b → Real.log b - Real.log a ≤ |b - a| / m := by
    intro a b ha hb
    have ha0 : 0 < a := hm.trans_le ha
    have hb0 : 0 < b := hm.trans_le hb
    rw [← Real.log_div hb0.ne' ha0.ne']
    have h1 := Real.log_le_sub_one_of_pos (div_pos hb0 ha0)
    have h2 : b / a - 1 = (b - a) / a := by field_simp
    rw [h2] at h1
    refine h1.trans ?_
    calc (b - a) / a ≤ |b - a| / a := div_le_div_of_nonneg_right (le_abs_self _) ha0.le
      _ ≤ |b - a| / m := div_le_div_of_nonneg_left (abs_nonneg _) hm ha
  rw [abs_le]
  refine ⟨?_, key ha hb⟩
  have := key hb ha
  rw [abs_sub_comm] at this
  linarith

theorem log1p_lower {y : ℝ} (hy : 0 ≤ y) : y / (1 + y) ≤ Real.log (1 + y) := by
  have h := Real.one_sub_inv_le_log_of_pos (x := 1 + y) (by linarith)
  refine le_trans (le_of_eq ?_) h
  field_simp; ring

theorem log1p_lower' {y : ℝ} (hy : 0 ≤ y) : y - y ^ 2 ≤ Real.log (1 + y) := by
  refine le_trans ?_ (log1p_lower hy)
  rw [le_div_iff₀ (by linarith)]
  nlinarith [pow_nonneg hy 3]

theorem log1p_upper {y : ℝ} (hy : 0 ≤ y) : Real.log (1 + y) ≤ y := by
  have := Real.log_le_sub_one_of_pos (x := 1 + y) (by linarith)
  linarith

theorem log1p_exp_neg (x : ℝ) : Real.log (1 + Real.exp (-x)) = -x + Real.log (1 + Real.exp x) := by
  have h : 1 + Real.exp (-x) = Real.exp (-x) * (1 + Real.exp x) := by
    rw [mul_add, mul_one, ← Real.exp_add, neg_add_cancel, Real.exp_zero, add_comm]
  rw [h, Real.log_mul (Real.exp_pos _).ne' (by positivity), Real.log_exp]

/-- `np.exp` and `np.log1p` to relative precision `w`, up to underflow; the exponential on the arguments that occur in `logsig`. -/
structure FlExpLog (fexp flog1p : ℝ → ℝ) (w eta : ℝ) : Prop where
  exp_err : ∀ t ≤ 18, |fexp t - Real.exp t| ≤ w * Real.exp t + eta
  exp_nonneg : ∀ t ≤ 18, 0 ≤ fexp t
  log_err : ∀ s, 0 ≤ s → |flog1p s - Real.log (1 + s)| ≤ w * Real.log (1 + s) + eta

theorem flLogsig_error (hr : Rounding rd u eta) (hu : u ≤ w) (hw : 2⁻¹ ^ 53 ≤ w) (hw1 : w ≤ 1 / 8) (he : eta ≤ 1 / 8) {fexp flog1p : ℝ → ℝ} (hel : FlExpLog fexp flog1p w eta) (x : ℝ) :
    |flLogsig rd fexp flog1p x + Real.log (1 + Real.exp (-x))| ≤ 4 * w * Real.log (1 + Real.exp (-x)) + 4 * eta := by
  have he0 := hr.eta_nonneg
  have hu0 := hr.u_nonneg
  have hw0 : 0 ≤ w := hu0.trans hu
  unfold flLogsig
  split_ifs with h1 h2 h3
  · rw [log1p_exp_neg]
    have l1 := log1p_upper (Real.exp_pos x).le
    have l0 : 0 ≤ Real.log (1 + Real.exp x) := Real.log_nonneg (by linarith [Real.exp_pos x])
    have e1 : Real.exp x ≤ Real.exp (-33) := Real.exp_le_exp.mpr h1.le
    have e2 := exp_neg_33
    have : x + (-x + Real.log (1 + Real.exp x)) = Real.log (1 + Real.exp x) := by ring
    rw [this, abs_of_nonneg l0]
    have : 2 * w * 33 ≤ 2 * w * (-x + Real.log (1 + Real.exp x)) := mul_le_mul_of_nonneg_left (by linarith) (by linarith)
    have : 0 ≤ 2 * w * (-x + Real.log (1 + Real.exp x)) := mul_nonneg (by linarith) (by linarith)
    linarith
  · push Not at h1
    rw [log1p_exp_neg]
    have y0 := (Real.exp_pos x).le
    have l1 := log1p_upper y0
    have l2 := log1p_lower' y0
    have l0 : 0 ≤ Real.log (1 + Real.exp x) := Real.log_nonneg (by linarith)
    have e1 := hel.exp_err x (by linarith)
    have e2 := hr.err (x - fexp x)
    have e3 : Real.exp x ^ 2 ≤ 3 * w := by
      have : Real.exp x ^ 2 = Real.exp (2 * x) := by rw [← Real.exp_nat_mul]; norm_num
      rw [this]
      have h4 : Real.exp (2 * x) ≤ Real.exp (-36) := Real.exp_le_exp.mpr (by linarith)
      linarith [exp_neg_36]
    have e4 : Real.exp x ≤ 1 := Real.exp_le_one_iff.mpr (by linarith)
    have e5 : w * Real.exp x ≤ w := mul_le_of_le_one_right hw0 e4
    set y := Real.exp x
    obtain ⟨L, hL⟩ : ∃ L, L = -x + Real.log (1 + y) := ⟨_, rfl⟩
    have hL18 : 18 ≤ L := by linarith
    have hwL : w * 18 ≤ w * L := mul_le_mul_of_nonneg_left hL18 hw0
    have a1 : |x - fexp x + L| ≤ 4 * w + eta := by
      have : x - fexp x + L = -(fexp x - y) + (Real.log (1 + y) - y) := by rw [hL]; ring
      rw [this]
      refine (abs_add_le _ _).trans ?_
      rw [abs_neg]
      have : |Real.log (1 + y) - y| ≤ 3 * w := by rw [abs_le]; constructor <;> linarith
      linarith
    have a2 : |x - fexp x| ≤ L + 1 := by
      have : |x - fexp x| ≤ |x - fexp x + L| + |L| := by
        have h5 := abs_sub (x - fexp x + L) L
        rwa [add_sub_cancel_right] at h5
      rw [abs_of_nonneg (by linarith : 0 ≤ L)] at this
      linarith
    have a3 : u * |x - fexp x| ≤ w * (L + 1) := mul_le_mul hu a2 (abs_nonneg _) hw0
    rw [← hL]
    have : rd (x - fexp x) + L = (rd (x - fexp x) - (x - fexp x)) + (x - fexp x + L) := by ring
    rw [this]
    refine (abs_add_le _ _).trans ?_
    linarith
  · push Not at h2
    have y0 := (Real.exp_pos (-x)).le
    have e1 := hel.exp_err (-x) (by linarith)
    have e0 := hel.exp_nonneg (-x) (by linarith)
    have e2 := hel.log_err _ e0
    have l2 := log1p_lower y0
    set y := Real.exp (-x)
    set y' := fexp (-x)
    have l0 : 0 ≤ Real.log (1 + y) := Real.log_nonneg (by linarith)
    obtain ⟨L, hL⟩ : ∃ L, L = Real.log (1 + y) := ⟨_, rfl⟩
    rw [← hL] at l2 l0 ⊢
    have hm : 0 < 3 / 4 * (1 + y) := by linarith
    have hwy : w * y ≤ 1 / 8 * y := mul_le_mul_of_nonneg_right hw1 y0
    have m1 : 3 / 4 * (1 + y) ≤ 1 + y' := by have := (abs_le.mp e1).1; linarith
    have m2 := log_sub_le hm (by linarith : 3 / 4 * (1 + y) ≤ 1 + y) m1
    have m3 : |1 + y' - (1 + y)| / (3 / 4 * (1 + y)) ≤ 4 / 3 * (w * L + eta) := by
      rw [add_sub_add_left_eq_sub, div_le_iff₀ hm]
      refine e1.trans ?_
      rw [div_le_iff₀ (by linarith)] at l2
      have h5 := mul_le_mul_of_nonneg_left l2 hw0
      have h6 : eta * 1 ≤ eta * (1 + y) := mul_le_mul_of_nonneg_left (by linarith) he0
      linarith
    have m4 := m2.trans m3
    rw [← hL] at m4
    have hwL : 0 ≤ w * L := mul_nonneg hw0 l0
    have m5 : w * Real.log (1 + y') ≤ w * (L + 4 / 3 * (w * L + eta)) := mul_le_mul_of_nonneg_left (by linarith [(abs_le.mp m4).2]) hw0
    have m6 : w * (w * L) ≤ 1 / 8 * (w * L) := mul_le_mul_of_nonneg_right hw1 hwL
    have m7 : w * eta ≤ 1 / 8 * eta := mul_le_mul_of_nonneg_right hw1 he0
    have : -flog1p y' + L = -(flog1p y' - Real.log (1 + y')) + -(Real.log (1 + y') - L) := by ring
    rw [this]
    refine (abs_add_le _ _).trans ?_
    rw [abs_neg, abs_neg]
    linarith
  · push Not at h3
    have y0 := (Real.exp_pos (-x)).le
    have e1 := hel.exp_err (-x) (by linarith)
    have l1 := log1p_upper y0
    have l2 := log1p_lower' y0
    have e3 : Real.exp (-x) ≤ w := (Real.exp_le_exp.mpr (by linarith)).trans (exp_neg_37.trans hw)
    set y := Real.exp (-x)
    have e4 : y ^ 2 ≤ w * y := by rw [pow_two]; exact mul_le_mul_of_nonneg_right e3 y0
    have e5 : w * y ≤ 1 / 8 * y := mul_le_mul_of_nonneg_right hw1 y0
    have e6 : w * y ≤ w * (2 * Real.log (1 + y)) := mul_le_mul_of_nonneg_left (by linarith) hw0
    have : -fexp (-x) + Real.log (1 + y) = -(fexp (-x) - y) + (Real.log (1 + y) - y) := by ring
    rw [this]
    refine (abs_add_le _ _).trans ?_
    have : |Real.log (1 + y) - y| ≤ w * y := by rw [abs_le]; constructor <;> linarith
    rw [abs_neg]
    linarith

/-! ### Sums -/

theorem Close.up (hs : Scale rd u eta w r) (h : Close w r C B y y0) (hr : r ≤ r') : Close w r' C B y y0 :=
  ⟨h.err.trans (mul_le_mul_of_nonneg_left hr (mul_nonneg h.C_nonneg hs.w_nonneg)), h.size.trans (mul_le_mul_of_nonneg_left hr h.B_nonneg), h.C_nonneg, h.B_nonneg⟩

theorem Close.mulR (hs : Scale rd u eta w r) (hs' : Scale rd u eta w r') (h : Close w r C B y y0) (h' : Close w r' C' B' z z0) :
    Close w (r * r') (C * (B' + C') + B * C') (B * B') (y * z) (y0 * z0) := by
  have hC := h.C_nonneg
  have hB := h.B_nonneg
  have hC' := h'.C_nonneg
  have hB' := h'.B_nonneg
  have hw := hs.w_nonneg
  have hr0 : 0 ≤ r := by linarith [hs.r_ge]
  have hr0' : 0 ≤ r' := by linarith [hs'.r_ge]
  refine ⟨?_, ?_, by positivity, by positivity⟩
  · have e : y * z - y0 * z0 = (y - y0) * z + y0 * (z - z0) := by ring
    rw [e]
    refine (abs_add_le _ _).trans ?_
    rw [abs_mul, abs_mul]
    have h1 := mul_le_mul h.err (h'.size' hs') (abs_nonneg _) (by positivity)
    have h2 := mul_le_mul h.size h'.err (abs_nonneg _) (by positivity)
    linarith
  · rw [abs_mul]
    have := mul_le_mul h.size h'.size (abs_nonneg _) (by positivity)
    linarith

theorem list_map_le_const {ι : Type} (l : List ι) (f : ι → ℝ) {c : ℝ} (h : ∀ i ∈ l, f i ≤ c) : (l.map f).sum ≤ l.length * c := by
  induction l with
  | nil => simp
  | cons i l ih =>
    rw [List.map_cons, List.sum_cons, List.length_cons]
    push_cast
    have h1 := h i (by simp)
    have h2 := ih fun j hj => h j (by simp [hj])
    linarith

/-- A sum in any order of approximations. -/
theorem Close.sumList {ι : Type} (hs : Scale rd u eta w r) {l : List ι} {m : ℕ} (hl : l.length ≤ m) (hm : 4 * m * w ≤ 1) {y y0 : ι → ℝ} (h : ∀ i ∈ l, Close w r C B (y i) (y0 i))
    (hC : 0 ≤ C) (hB : 0 ≤ B) {s : ℝ} (hd : FlSum0 rd (l.map y) s) : Close w r (m * C + 2 * m * (m * (B + C) + 1)) (m * B) s (l.map y0).sum := by
  have hw := hs.w_nonneg
  have hr0 : 0 ≤ r := by linarith [hs.r_ge]
  have hlm : (l.length : ℝ) ≤ m := by exact_mod_cast hl
  have hl0 : (0 : ℝ) ≤ l.length := Nat.cast_nonneg _
  have hm0 : (0 : ℝ) ≤ m := Nat.cast_nonneg _
  have e1 : |(l.map y).sum - (l.map y0).sum| ≤ m * (C * w * r) := by
    have : (l.map y).sum - (l.map y0).sum = (l.map fun i => y i - y0 i).sum := by
      clear h hd hlm hl0 hl
      induction l with
      | nil => simp
      | cons i l ih => rw [List.map_cons, List.map_cons, List.map_cons, List.sum_cons, List.sum_cons, List.sum_cons, ← ih]; ring
    rw [this]
    refine (list_abs_sum_le l _).trans ((list_map_le_const l _ (c := C * w * r) fun i hi => (h i hi).err).trans ?_)
    exact mul_le_mul_of_nonneg_right hlm (by positivity)
  have e2 : |(l.map y0).sum| ≤ m * (B * r) :=
    (list_abs_sum_le l _).trans ((list_map_le_const l _ (c := B * r) fun i hi => (h i hi).size).trans (mul_le_mul_of_nonneg_right hlm (by positivity)))
  have e3 : (l.map fun i => |y i|).sum ≤ m * ((B + C) * r) :=
    (list_map_le_const l _ (c := (B + C) * r) fun i hi => (h i hi).size' hs).trans (mul_le_mul_of_nonneg_right hlm (by positivity))
  have e30 : 0 ≤ (l.map fun i => |y i|).sum := List.sum_nonneg fun x hx => by
    obtain ⟨i, _, rfl⟩ := List.mem_map.mp hx
    exact abs_nonneg _
  refine ⟨?_, by linarith, by positivity, by positivity⟩
  rcases hd with ⟨h0, rfl⟩ | hd
  · have h0' : l = [] := by simpa using h0
    rw [h0']
    simp only [List.map_nil, List.sum_nil, sub_self, abs_zero]
    positivity
  · have e4 := hd.error hs.rnd (by
      rw [List.length_map]
      have h1 := mul_le_mul hlm hs.u_le hs.rnd.u_nonneg hm0
      have h2 := mul_nonneg hm0 hw
      linarith)
    rw [List.length_map, List.map_map] at e4
    have e5 : u * (l.map (abs ∘ y)).sum ≤ w * (m * ((B + C) * r)) := mul_le_mul hs.u_le e3 e30 hw
    have e6 : eta ≤ w * r := hs.eta_le'.trans (le_mul_of_one_le_right hw hs.r_ge)
    have e7 : 2 * ((l.length : ℝ) - 1) * (u * (l.map (abs ∘ y)).sum + eta) ≤ 2 * m * (w * (m * ((B + C) * r)) + w * r) := by
      have h1 : 0 ≤ u * (l.map (abs ∘ y)).sum + eta := add_nonneg (mul_nonneg hs.rnd.u_nonneg e30) hs.rnd.eta_nonneg
      have h2 : 2 * ((l.length : ℝ) - 1) * (u * (l.map (abs ∘ y)).sum + eta) ≤ 2 * m * (u * (l.map (abs ∘ y)).sum + eta) :=
        mul_le_mul_of_nonneg_right (by linarith) h1
      exact h2.trans (mul_le_mul_of_nonneg_left (by linarith) (by linarith))
    have e8 := abs_sub_le s (l.map y).sum (l.map y0).sum
    linarith

theorem Close.sumFn (hs : Scale rd u eta w r) (hm : 4 * n * w ≤ 1) {y y0 : Fin n → ℝ} (h : ∀ i, Close w r C B (y i) (y0 i)) (hC : 0 ≤ C) (hB : 0 ≤ B) {s : ℝ}
    (hd : FlSum rd (List.ofFn y) s) : Close w r (n * C + 2 * n * (n * (B + C) + 1)) (n * B) s (∑ i, y0 i) := by
  have h1 := Close.sumList hs (l := List.finRange n) (m := n) (by simp) hm (fun i _ => h i) hC hB (s := s) (Or.inr (by rwa [← List.ofFn_eq_map]))
  rwa [← Fin.sum_univ_def] at h1

theorem sq_close (hs : Scale rd u eta w r) (hd : 4 * d * w ≤ 1) {x : Fin d → ℝ} (hx : ∀ j, |x j| ≤ r) {q : ℝ} (hq : FlDot rd (List.ofFn fun j => (x j, x j)) q) :
    Close w (r * r) (4 * d * (d + 1)) d q (dot x x) := by
  have hw := hs.w_nonneg
  have hr1 := hs.r_ge
  have hr2 : 1 ≤ r * r := by nlinarith
  have hd0 : (0 : ℝ) ≤ d := Nat.cast_nonneg d
  have h1 := hq.error_vec hs.rnd (by have h1 := mul_le_mul_of_nonneg_left hs.u_le (by positivity : (0 : ℝ) ≤ 4 * d); linarith)
  have h2 : ∑ j, |x j * x j| ≤ d * (r * r) := by
    calc ∑ j, |x j * x j| ≤ ∑ _j : Fin d, r * r := Finset.sum_le_sum fun j _ => by
          rw [abs_mul]; exact mul_le_mul (hx j) (hx j) (abs_nonneg _) (by linarith)
      _ = d * (r * r) := by simp
  have h3 : 0 ≤ ∑ j, |x j * x j| := Finset.sum_nonneg fun j _ => abs_nonneg _
  have h4 : u * ∑ j, |x j * x j| ≤ w * (d * (r * r)) := mul_le_mul hs.u_le h2 h3 hw
  have h5 : eta ≤ w * (r * r) := hs.eta_le'.trans (le_mul_of_one_le_right hw hr2)
  refine ⟨?_, ?_, by positivity, hd0⟩
  · refine h1.trans ((mul_le_mul_of_nonneg_left (add_le_add h4 h5) (by positivity : (0 : ℝ) ≤ 4 * d)).trans (le_of_eq ?_))
    ring
  · exact (Finset.abs_sum_le_sum_abs _ _).trans h2

theorem Scale.sq (hs : Scale rd u eta w r) : Scale rd u eta w (r * r) :=
  ⟨hs.rnd, hs.u_le, hs.eta_le, hs.w_nonneg, hs.w_le, by have := hs.r_ge; nlinarith⟩

theorem Scale.one (hs : Scale rd u eta w r) : Scale rd u eta w 1 := ⟨hs.rnd, hs.u_le, hs.eta_le, hs.w_nonneg, hs.w_le, le_rfl⟩

theorem le_sq_of_one_le (hr : 1 ≤ r) : r ≤ r * r := by nlinarith

end Copt
