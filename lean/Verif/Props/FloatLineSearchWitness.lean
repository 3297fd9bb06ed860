import Verif.Model.FloatLineSearch
import Verif.Proof.Nearest
import Verif.Props.FloatValue

/-! # The line search of `minimize_proximal_gradient` in double precision (C132): success far from the minimum -/

set_option linter.unusedSectionVars false

namespace Copt

open Spec

variable {d n : ℕ} {rd : ℝ → ℝ}

theorem flSum_pair {l : List ℝ} {s : ℝ} (h : FlSum rd l s) : ∀ a b, l = [a, b] → s = rd (a + b) := by
  induction h with
  | single x => intro a b hp; simp at hp
  | @add l l' x y h1 h2 i1 i2 =>
    intro a b hp
    have p1 := h1.pos
    have p2 := h2.pos
    match l, l' with
    | [], _ => simp at p1
    | [u], [] => simp at p2
    | [u], [v] =>
      rw [flSum_single h1 u rfl, flSum_single h2 v rfl]
      simp at hp
      rw [hp.1, hp.2]
    | [u], v :: v' :: t => simp at hp
    | u :: u' :: t, [] => simp at p2
    | u :: u' :: t, v :: t' => simp at hp
  | @perm l1 l2 a' hp h ih =>
    rintro a b rfl
    have hl := hp.length_eq
    match l1, hl with
    | [u, v], _ =>
      rw [ih u v rfl]
      congr 1
      have := hp.sum_eq
      simpa using this

/-- Oracles of a run on a loss without a penalty: `fun = f.f_grad` with `jac=True`, `prox=None`. -/
structure FlBtLoss (rd fexp flog1p : ℝ → ℝ) (f : LossObj n d) (P : FlBtArgs d) : Prop where
  init : ∀ i x, f.FlValue rd fexp flog1p x (P.init i x).1 ∧ f.FlGrad rd fexp x (P.init i x).2
  start : ∀ x, f.FlValue rd fexp flog1p x (P.start x).1 ∧ f.FlGrad rd fexp x (P.start x).2
  fg : ∀ k i x, f.FlValue rd fexp flog1p x (P.fg k i x).1 ∧ f.FlGrad rd fexp x (P.fg k i x).2
  prox : ∀ k i v s, P.prox k i v s = .ok v
  dotG : ∀ k i a b, FlDot rd (List.ofFn fun j => (a j, b j)) (P.dotG k i a b)
  dotD : ∀ k i a b, FlDot rd (List.ofFn fun j => (a j, b j)) (P.dotD k i a b)
  norm : ∀ k v, FlNorm rd v (P.norm k v)

namespace LsWitness

/-- Feature of the first sample: `7 * 2^-26 - 2^-76`. -/
noncomputable def feat : ℝ := (7 * 2 ^ 50 - 1) / 2 ^ 76

/-- Two samples with one feature: `((feat, -2^27), (16, 17))`. -/
noncomputable def loss : SquareLoss 2 1 := ⟨fun i _ => if i = 0 then feat else 16, fun i => if i = 0 then -2 ^ 27 else 17, 0⟩

section

variable (hr : Nearest 52 rd)

include hr

theorem rd_int {m : ℤ} (hm : |m| ≤ 2 ^ 53) : rd m = m := hr.fix ⟨m, 0, hm, by simp⟩

theorem rd_zero : rd 0 = 0 := by
  have := rd_int hr (m := 0) (by simp)
  simpa using this

theorem rd_feat : rd feat = feat := hr.fix ⟨7 * 2 ^ 50 - 1, -76, by norm_num [abs_of_nonneg], by unfold feat; rw [zpow_neg]; norm_num⟩

/-- Products with the first feature to the right of 1. -/
theorem feat_next {x : ℝ} (hx : 1 + 1 / 2 ^ 52 ≤ x) : (7 * 2 ^ 50 + 1) / 2 ^ 76 ≤ rd (feat * x) := by
  have h : rd (feat * (1 + 1 / 2 ^ 52)) = ((7 * 2 ^ 50 + 1 : ℤ) : ℝ) * (2 : ℝ) ^ (-76 : ℤ) := by
    refine hr.eq (by norm_num) (by norm_num) ?_ ?_
    · unfold feat; rw [zpow_neg]; norm_num
    · unfold feat; rw [zpow_neg, abs_lt]; constructor <;> norm_num
  have h2 := hr.monotone (mul_le_mul_of_nonneg_left hx (show 0 ≤ feat by unfold feat; norm_num))
  rw [h, zpow_neg] at h2
  refine le_trans (le_of_eq ?_) h2
  norm_num

theorem res_one : rd (feat - -2 ^ 27) = 2 ^ 27 + 3 / 2 ^ 25 := by
  have h : rd (feat - -2 ^ 27) = ((2 ^ 52 + 3 : ℤ) : ℝ) * (2 : ℝ) ^ (-25 : ℤ) := by
    refine hr.eq (by norm_num) (by norm_num) ?_ ?_
    · unfold feat; rw [zpow_neg]; norm_num
    · unfold feat; rw [zpow_neg, abs_lt]; constructor <;> norm_num
  rw [h, zpow_neg]; norm_num

theorem res_next {q : ℝ} (hq : (7 * 2 ^ 50 + 1) / 2 ^ 76 ≤ q) : 2 ^ 27 + 4 / 2 ^ 25 ≤ rd (q - -2 ^ 27) := by
  have h : rd ((7 * 2 ^ 50 + 1) / 2 ^ 76 - -2 ^ 27) = ((2 ^ 52 + 4 : ℤ) : ℝ) * (2 : ℝ) ^ (-25 : ℤ) := by
    refine hr.eq (by norm_num) (by norm_num) ?_ ?_
    · rw [zpow_neg]; norm_num
    · rw [zpow_neg, abs_lt]; constructor <;> norm_num
  have h2 := hr.monotone (show (7 * 2 ^ 50 + 1) / 2 ^ 76 - -2 ^ 27 ≤ q - -2 ^ 27 by linarith)
  rw [h, zpow_neg] at h2
  refine le_trans (le_of_eq ?_) h2
  norm_num

theorem sq_one : rd ((2 ^ 27 + 3 / 2 ^ 25) * (2 ^ 27 + 3 / 2 ^ 25)) = 2 ^ 54 + 24 := by
  have h : rd ((2 ^ 27 + 3 / 2 ^ 25) * (2 ^ 27 + 3 / 2 ^ 25)) = ((2 ^ 52 + 6 : ℤ) : ℝ) * (2 : ℝ) ^ (2 : ℤ) := by
    refine hr.eq (by norm_num) (by norm_num) ?_ ?_
    · norm_num
    · rw [abs_lt]; constructor <;> norm_num
  rw [h]; norm_num

theorem sum_one : rd (2 ^ 54 + 24 + 1) = 2 ^ 54 + 24 := by
  have h : rd (2 ^ 54 + 24 + 1) = ((2 ^ 52 + 6 : ℤ) : ℝ) * (2 : ℝ) ^ (2 : ℤ) := by
    refine hr.eq (by norm_num) (by norm_num) ?_ ?_
    · norm_num
    · rw [abs_lt]; constructor <;> norm_num
  rw [h]; norm_num

theorem fix_pow (c : ℤ) (e : ℕ) (hc : |c| ≤ 2 ^ 53) : rd (c * 2 ^ e) = c * 2 ^ e := hr.fix ⟨c, e, hc, by rw [zpow_natCast]⟩

theorem nonneg' {x : ℝ} (hx : 0 ≤ x) : 0 ≤ rd x := by
  have := hr.monotone hx
  rwa [rd_zero hr] at this

/-- The computed value at 1. -/
theorem value_one {v : ℝ} {fexp flog1p : ℝ → ℝ} {x : Fin 1 → ℝ} (hx : x = fun _ => 1) (h : LossObj.FlValue rd fexp flog1p (.square loss) x v) : v = 2 ^ 52 + 6 := by
  obtain ⟨p, s, q, hp, hs, -, rfl⟩ := h
  have p0 : p 0 = feat := by
    have := flDot_single (hp 0) (feat, 1) (by simp [loss, hx])
    rw [this, mul_one, rd_feat hr]
  have p1 : p 1 = 16 := by
    have := flDot_single (hp 1) (16, 1) (by simp [loss, hx])
    rw [this, mul_one]
    exact_mod_cast rd_int hr (m := 16) (by norm_num)
  have hneg : rd (-1 : ℝ) = -1 := by exact_mod_cast rd_int hr (m := -1) (by norm_num)
  have hone : rd (1 : ℝ) = 1 := by exact_mod_cast rd_int hr (m := 1) (by norm_num)
  have hs' : s = 2 ^ 54 + 24 := by
    have := flSum_pair hs (rd (rd (p 0 - loss.b 0) * rd (p 0 - loss.b 0))) (rd (rd (p 1 - loss.b 1) * rd (p 1 - loss.b 1))) (by simp)
    rw [this, p0, p1, show loss.b 0 = -2 ^ 27 by simp [loss], show loss.b 1 = 17 by simp [loss], res_one hr, sq_one hr, show (16 : ℝ) - 17 = -1 by norm_num, hneg,
      show (-1 : ℝ) * -1 = 1 by norm_num, hone, sum_one hr]
  have e1 : rd ((2 ^ 54 + 24) / ((2 : ℕ) : ℝ)) = 2 ^ 53 + 12 := by
    have := fix_pow hr (2 ^ 52 + 6) 1 (by norm_num)
    convert this using 2 <;> norm_num
  have e2 : rd (0.5 * (2 ^ 53 + 12)) = 2 ^ 52 + 6 := by
    have := fix_pow hr (2 ^ 52 + 6) 0 (by norm_num)
    convert this using 2 <;> norm_num
  have e3 : rd (2 ^ 52 + 6) = 2 ^ 52 + 6 := by
    have := fix_pow hr (2 ^ 52 + 6) 0 (by norm_num)
    convert this using 2 <;> norm_num
  rw [hs', e1, e2, show loss.alpha = 0 from rfl, zero_mul, rd_zero hr, mul_zero, rd_zero hr, add_zero, e3]

/-- The computed values to the right of 1. -/
theorem value_next {v : ℝ} {fexp flog1p : ℝ → ℝ} {x : Fin 1 → ℝ} (hx : 1 + 1 / 2 ^ 52 ≤ x 0) (h : LossObj.FlValue rd fexp flog1p (.square loss) x v) : 2 ^ 52 + 8 ≤ v := by
  obtain ⟨p, s, q, hp, hs, -, rfl⟩ := h
  have p0 : (7 * 2 ^ 50 + 1) / 2 ^ 76 ≤ p 0 := by
    have := flDot_single (hp 0) (feat, x 0) (by simp [loss])
    rw [this]; exact feat_next hr hx
  have z0 := res_next hr p0
  have hs' : 2 ^ 54 + 32 ≤ s := by
    have := flSum_pair hs (rd (rd (p 0 - loss.b 0) * rd (p 0 - loss.b 0))) (rd (rd (p 1 - loss.b 1) * rd (p 1 - loss.b 1))) (by simp)
    rw [this, show loss.b 0 = -2 ^ 27 by simp [loss]]
    have a0 : rd (2 ^ 54 + 32) = 2 ^ 54 + 32 := by
      have := fix_pow hr (2 ^ 49 + 1) 5 (by norm_num)
      convert this using 2 <;> norm_num
    have a1 : 2 ^ 54 + 32 ≤ rd (rd (p 0 - -2 ^ 27) * rd (p 0 - -2 ^ 27)) := by
      rw [← a0]
      refine hr.monotone ?_
      have := mul_self_le_mul_self (by norm_num : (0 : ℝ) ≤ 2 ^ 27 + 4 / 2 ^ 25) z0
      refine le_trans ?_ this
      norm_num
    have a2 := nonneg' hr (mul_self_nonneg (rd (p 1 - loss.b 1)))
    calc (2 : ℝ) ^ 54 + 32 = rd (2 ^ 54 + 32) := a0.symm
      _ ≤ _ := hr.monotone (by linarith)
  have e1 : 2 ^ 53 + 16 ≤ rd (s / ((2 : ℕ) : ℝ)) := by
    have := fix_pow hr (2 ^ 49 + 1) 4 (by norm_num)
    have h2 := hr.monotone (show ((2 ^ 49 + 1 : ℤ) : ℝ) * 2 ^ 4 ≤ s / ((2 : ℕ) : ℝ) by rw [le_div_iff₀ (by norm_num)]; norm_num at hs' ⊢; linarith)
    rw [this] at h2
    norm_num at h2 ⊢; linarith
  have e2 : 2 ^ 52 + 8 ≤ rd (0.5 * rd (s / ((2 : ℕ) : ℝ))) := by
    have := fix_pow hr (2 ^ 49 + 1) 3 (by norm_num)
    have h2 := hr.monotone (show ((2 ^ 49 + 1 : ℤ) : ℝ) * 2 ^ 3 ≤ 0.5 * rd (s / ((2 : ℕ) : ℝ)) by norm_num at e1 ⊢; linarith)
    rw [this] at h2
    norm_num at h2 ⊢; linarith
  rw [show loss.alpha = 0 from rfl, zero_mul, rd_zero hr, mul_zero, rd_zero hr, add_zero, hr.fix (hr.mem _)]
  exact e2

/-- The computed gradient at 1. -/
theorem grad_one {fexp : ℝ → ℝ} {x g : Fin 1 → ℝ} (hx : x = fun _ => 1) (h : LossObj.FlGrad rd fexp (.square loss) x g) : -1 - 1 / 100 ≤ g 0 ∧ g 0 ≤ -1 + 1 / 100 := by
  obtain ⟨p, q, hp, hq, hg⟩ := h
  have p0 : p 0 = feat := by
    have := flDot_single (hp 0) (feat, 1) (by simp [loss, hx])
    rw [this, mul_one, rd_feat hr]
  have p1 : p 1 = 16 := by
    have := flDot_single (hp 1) (16, 1) (by simp [loss, hx])
    rw [this, mul_one]
    exact_mod_cast rd_int hr (m := 16) (by norm_num)
  have hneg : rd (-1 : ℝ) = -1 := by exact_mod_cast rd_int hr (m := -1) (by norm_num)
  have h1 := (hq 0).error_vec hr.rounding (by norm_num)
  rw [Fin.sum_univ_two, Fin.sum_univ_two, p0, p1] at h1
  beta_reduce at h1
  rw [show loss.b 0 = -2 ^ 27 by simp [loss], show loss.b 1 = 17 by simp [loss], show loss.A 0 0 = feat by simp [loss],
    show loss.A 1 0 = 16 by simp [loss], res_one hr, show (16 : ℝ) - 17 = -1 by norm_num, hneg] at h1
  have hq2 : |q 0 + 2| ≤ 1 / 200 := by
    have hf0 : 0 ≤ feat := by unfold feat; norm_num
    rw [abs_of_nonneg (mul_nonneg hf0 (by norm_num)), show |(16 : ℝ) * -1| = 16 by norm_num] at h1
    unfold feat at h1
    rw [abs_le] at h1 ⊢
    norm_num at h1 ⊢
    constructor <;> linarith [h1.1, h1.2]
  have h2 := hr.err (q 0 / ((2 : ℕ) : ℝ))
  have h3 := hg 0
  rw [show loss.alpha = 0 from rfl, zero_mul, rd_zero hr, add_zero, hr.fix (hr.mem _)] at h3
  rw [h3]
  rw [abs_le] at hq2
  have h4 : |q 0 / ((2 : ℕ) : ℝ)| ≤ 2 := by
    rw [abs_le]; push_cast; constructor <;> linarith [hq2.1, hq2.2]
  have h5 : (2⁻¹ : ℝ) ^ (52 + 1) * |q 0 / ((2 : ℕ) : ℝ)| ≤ 1 / 1000 := by
    calc (2⁻¹ : ℝ) ^ (52 + 1) * |q 0 / ((2 : ℕ) : ℝ)| ≤ 2⁻¹ ^ (52 + 1) * 2 := mul_le_mul_of_nonneg_left h4 (by positivity)
      _ ≤ 1 / 1000 := by norm_num
  have h6 := abs_le.mp (h2.trans h5)
  push_cast at h6 ⊢
  constructor <;> linarith [h6.1, h6.2, hq2.1, hq2.2]

/-- A number of 53 bits above 1 is at least `1 + 2^-52`. -/
theorem above_one {y : ℝ} (hy : IsFloat 52 y) (h1 : 1 < y) : 1 + 1 / 2 ^ 52 ≤ y := by
  by_contra hlt
  push Not at hlt
  -- rounding the midpoint of 1 and y
  have h := hr.eq (x := y) (m := 2 ^ 52) (e := -52) (by norm_num) (by norm_num) (by rw [zpow_neg]; norm_num; linarith)
  by_cases hc : y - 1 < 1 / 2 ^ 53
  · have := h (by rw [zpow_neg, abs_lt]; norm_num at hc ⊢; constructor <;> linarith)
    rw [hr.fix hy, zpow_neg] at this
    norm_num at this
    linarith
  · have h' := hr.eq (x := y) (m := 2 ^ 52 + 1) (e := -52) (by norm_num) (by norm_num) (by rw [zpow_neg]; norm_num; linarith)
    by_cases hc2 : y = 1 + 1 / 2 ^ 53
    · -- the midpoint is not a number of 53 bits
      have hm := hr.eq (x := y + 1 / 2 ^ 54) (m := 2 ^ 52 + 1) (e := -52) (by norm_num) (by norm_num) (by rw [zpow_neg]; norm_num; linarith)
        (by rw [zpow_neg, hc2, abs_lt]; constructor <;> norm_num)
      have hn := hr.near (y + 1 / 2 ^ 54) y hy
      rw [hm, hc2, zpow_neg] at hn
      have hm2 := hr.eq (x := y - 1 / 2 ^ 54) (m := 2 ^ 52) (e := -52) (by norm_num) (by norm_num) (by rw [zpow_neg, hc2]; norm_num)
        (by rw [zpow_neg, hc2, abs_lt]; constructor <;> norm_num)
      have hm3 := hr.eq (x := y + 1 / 2 ^ 55) (m := 2 ^ 52 + 1) (e := -52) (by norm_num) (by norm_num) (by rw [zpow_neg]; norm_num; linarith)
        (by rw [zpow_neg, hc2, abs_lt]; constructor <;> norm_num)
      have hn3 := hr.near (y + 1 / 2 ^ 55) y hy
      rw [hm3, hc2, zpow_neg] at hn3
      norm_num [abs_of_nonneg, abs_of_nonpos] at hn3
    · have hc3 : 1 / 2 ^ 53 < y - 1 := lt_of_le_of_ne (not_lt.mp hc) fun e => hc2 (by linarith)
      have := h' (by rw [zpow_neg, abs_lt]; norm_num at hc3 hlt ⊢; constructor <;> linarith)
      rw [hr.fix hy, zpow_neg] at this
      norm_num at this hlt
      linarith

theorem rd_pos {x : ℝ} (hx : 0 < x) : 0 < rd x := by
  have h := (abs_le.mp (hr.err x)).1
  rw [abs_of_pos hx] at h
  have : (2⁻¹ : ℝ) ^ (52 + 1) * x ≤ x / 2 := by
    have : (2⁻¹ : ℝ) ^ (52 + 1) ≤ 1 / 2 := by norm_num
    nlinarith
  linarith

theorem rd_le {x : ℝ} (hx : 0 ≤ x) : rd x ≤ (1 + 1 / 10 ^ 6) * x ∧ (1 - 1 / 10 ^ 6) * x ≤ rd x := by
  have h := abs_le.mp (hr.err x)
  rw [abs_of_nonneg hx] at h
  have : (2⁻¹ : ℝ) ^ (52 + 1) * x ≤ 1 / 10 ^ 6 * x := mul_le_mul_of_nonneg_right (by norm_num) hx
  constructor <;> linarith [h.1, h.2]

/-- Large numbers: the error is at most `0.51`. -/
theorem rd_big {x : ℝ} (h0 : 0 ≤ x) (hx : x ≤ 2 ^ 52 + 10) : rd x ≤ x + 51 / 100 := by
  have h := (abs_le.mp (hr.err x)).2
  rw [abs_of_nonneg h0] at h
  have : (2⁻¹ : ℝ) ^ (52 + 1) * x ≤ 2⁻¹ ^ (52 + 1) * (2 ^ 52 + 10) := mul_le_mul_of_nonneg_left hx (by positivity)
  norm_num at this h ⊢
  linarith

theorem fix_value : rd (2 ^ 52 + 6) = 2 ^ 52 + 6 := by
  have := fix_pow hr (2 ^ 52 + 6) 0 (by norm_num)
  convert this using 2 <;> norm_num

/-- The right-hand side of the test is below every value to the right of 1. -/
theorem rhs_lt {X g0 s s' gd dd : ℝ} (hX : 1 + 1 / 2 ^ 52 ≤ X) (hg1 : -1 - 1 / 100 ≤ g0) (hg2 : g0 ≤ -1 + 1 / 100) (hs : 0 < s) (hs2 : s ≤ 2000) (hss : s ≤ s')
    (hXe : X = rd (1 - rd (s * g0))) (hgd : gd = rd (g0 * rd (X - 1))) (hdd : dd = rd (rd (X - 1) * rd (X - 1))) :
    rd (rd ((2 ^ 52 + 6) + gd) + rd (dd / rd (2 * s'))) < 2 ^ 52 + 8 := by
  obtain ⟨y, hy⟩ : ∃ y, y = rd (s * -g0) := ⟨_, rfl⟩
  have hyn : rd (s * g0) = -y := by rw [hy, ← hr.neg]; congr 1; ring
  have hy0 : 0 ≤ y := by rw [hy]; exact nonneg' hr (mul_nonneg hs.le (by linarith))
  have hy1 : y ≤ 102 / 100 * s := by
    have := (rd_le hr (x := s * -g0) (mul_nonneg hs.le (by linarith))).1
    rw [← hy] at this
    nlinarith
  rw [hyn, sub_neg_eq_add] at hXe
  have hX1 : X ≤ 1 + y + 2⁻¹ ^ 53 * (1 + y) := by
    have := (abs_le.mp (hr.err (1 + y))).2
    rw [abs_of_nonneg (by linarith), ← hXe] at this
    linarith
  have hX2 : X - 1 ≤ y + 1 / 10 ^ 6 * y + (X - 1) / 2 := by
    have : (2⁻¹ : ℝ) ^ 53 * y ≤ 1 / 10 ^ 6 * y := mul_le_mul_of_nonneg_right (by norm_num) hy0
    have : (2⁻¹ : ℝ) ^ 53 ≤ (X - 1) / 2 := by
      rw [inv_pow]; norm_num at hX ⊢; linarith
    linarith
  have hX3 : X - 1 ≤ y + 1 / 10 ^ 6 * y + 1 / 1000 := by
    have : (2⁻¹ : ℝ) ^ 53 * y ≤ 1 / 10 ^ 6 * y := mul_le_mul_of_nonneg_right (by norm_num) hy0
    have : (2⁻¹ : ℝ) ^ 53 ≤ 1 / 1000 := by norm_num
    linarith
  have hXp : 0 < X - 1 := by have : (0 : ℝ) < 1 / 2 ^ 52 := by norm_num
                             linarith
  obtain ⟨D, hD⟩ : ∃ D, D = rd (X - 1) := ⟨_, rfl⟩
  rw [← hD] at hgd hdd
  have hD0 : 0 < D := by rw [hD]; exact rd_pos hr hXp
  have hD1 := (rd_le hr hXp.le).1
  rw [← hD] at hD1
  have hDs : D ≤ 206 / 100 * s := by linarith
  have hDs' : 1 < D → D ≤ 103 / 100 * s := by intro h; linarith
  have hdd1 : dd ≤ (1 + 1 / 10 ^ 6) * (D * D) := by rw [hdd]; exact (rd_le hr (mul_self_nonneg D)).1
  have hdd0 : 0 ≤ dd := by rw [hdd]; exact nonneg' hr (mul_self_nonneg D)
  have h2s : (1 - 1 / 10 ^ 6) * (2 * s) ≤ rd (2 * s') := by
    have := (rd_le hr (x := 2 * s') (by linarith)).2
    refine le_trans ?_ this
    norm_num; linarith
  have h2p : 0 < rd (2 * s') := lt_of_lt_of_le (by norm_num; exact hs) h2s
  obtain ⟨E, hE⟩ : ∃ E, E = rd (dd / rd (2 * s')) := ⟨_, rfl⟩
  have hE0 : 0 ≤ E := by rw [hE]; exact nonneg' hr (div_nonneg hdd0 h2p.le)
  have hE1 : E ≤ (1 + 1 / 10 ^ 6) * (dd / rd (2 * s')) := by rw [hE]; exact (rd_le hr (div_nonneg hdd0 h2p.le)).1
  -- `E <= c D` when `D <= 2 c s`
  have hEc : ∀ c, 0 ≤ c → D ≤ 2 * c * s → E ≤ 1001 / 1000 * c * D := by
    intro c hc hDc
    have h3 : dd / rd (2 * s') ≤ 10005 / 10000 * c * D := by
      rw [div_le_iff₀ h2p]
      have h4 : 10005 / 10000 * c * D * ((1 - 1 / 10 ^ 6) * (2 * s)) ≤ 10005 / 10000 * c * D * rd (2 * s') := mul_le_mul_of_nonneg_left h2s (by positivity)
      have h5 : D * D ≤ D * (2 * c * s) := mul_le_mul_of_nonneg_left hDc hD0.le
      have h6 : 0 ≤ D * (2 * c * s) := by positivity
      norm_num at hdd1 h4 ⊢
      linarith
    have : 0 ≤ c * D := by positivity
    norm_num at hE1 ⊢
    linarith
  rw [← hE]
  have hgD : 0 ≤ -g0 * D := mul_nonneg (by linarith) hD0.le
  have hgd1 : gd ≤ -(98 / 100 * D) := by
    have h3 := (rd_le hr hgD).2
    have h4 : rd (g0 * D) = -rd (-g0 * D) := by rw [← hr.neg]; congr 1; ring
    rw [hgd, h4]
    nlinarith
  rcases le_or_gt D 1 with hc | hc
  · have h3 := hEc (103 / 100) (by norm_num) (by linarith)
    have h4 : rd ((2 ^ 52 + 6) + gd) ≤ 2 ^ 52 + 6 := by
      have := hr.monotone (show (2 ^ 52 + 6) + gd ≤ 2 ^ 52 + 6 by linarith)
      rwa [fix_value hr] at this
    have h5 := hr.monotone (show rd ((2 ^ 52 + 6) + gd) + E ≤ (2 ^ 52 + 6) + 104 / 100 from add_le_add h4 (by linarith only [h3, hc]))
    have h6 := rd_big hr (x := (2 ^ 52 + 6) + 104 / 100) (by norm_num) (by norm_num)
    refine lt_of_le_of_lt (h5.trans h6) ?_
    norm_num
  · have h3 := hEc (52 / 100) (by norm_num) (by linarith [hDs' hc])
    have hD5 : D ≤ 5000 := by linarith
    have h4 := hr.monotone (show (2 ^ 52 + 6) + gd ≤ (2 ^ 52 + 6) - 98 / 100 * D by linarith)
    have h5 := rd_big hr (x := (2 ^ 52 + 6) - 98 / 100 * D) (by norm_num; linarith) (by norm_num; linarith)
    have h6 := hr.monotone (show rd ((2 ^ 52 + 6) + gd) + E ≤ (2 ^ 52 + 6) + 51 / 100 by norm_num at h4 h5 ⊢; linarith)
    have h7 := rd_big hr (x := (2 ^ 52 + 6) + 51 / 100) (by norm_num) (by norm_num)
    refine lt_of_le_of_lt (h6.trans h7) ?_
    norm_num

end

section

variable {fexp flog1p : ℝ → ℝ} {P : FlBtArgs 1}

/-- The line search ends at the starting point. -/
theorem search (hr : Nearest 52 rd) (hP : FlBtLoss rd fexp flog1p (.square loss) P) (hfac : P.factor = rd (6 / 10)) {x g : Fin 1 → ℝ} (hx : x = fun _ => 1) (hg1 : -1 - 1 / 100 ≤ g 0)
    (hg2 : g 0 ≤ -1 + 1 / 100) (k : ℕ) : ∀ (m i : ℕ) (s s' : ℝ), 0 < s → s ≤ s' → s' ≤ 2000 → s' * (61 / 100) ^ m < 1 / 2 ^ 54 →
      ∃ st fn gn, 0 < st ∧ flLsLoop rd P k x g (2 ^ 52 + 6) m i (flStep rd x g s) s' = .ok ⟨x, st, fn, gn⟩ := by
  have hstep : ∀ s, 0 < s → 1 ≤ flStep rd x g s 0 := by
    intro s hs
    have h1 : rd (s * g 0) ≤ 0 := by
      have := hr.monotone (show s * g 0 ≤ 0 from mul_nonpos_of_nonneg_of_nonpos hs.le (by linarith))
      rwa [rd_zero hr] at this
    have h2 := hr.monotone (show (1 : ℝ) ≤ 1 - rd (s * g 0) by linarith)
    have hone : rd (1 : ℝ) = 1 := by exact_mod_cast rd_int hr (m := 1) (by norm_num)
    rw [hone] at h2
    rw [flStep, hx]; exact h2
  have hdir : ∀ y : Fin 1 → ℝ, (fun j => rd (y j - x j)) 0 = rd (y 0 - 1) := fun y => by rw [hx]
  -- the test passes at the starting point
  have hpass : ∀ i s', 0 < s' → flLsTest rd (P.fg k i x).1 (2 ^ 52 + 6) (P.dotG k i g fun j => rd (x j - x j)) (P.dotD k i (fun j => rd (x j - x j)) fun j => rd (x j - x j)) s' := by
    intro i s' hs'
    have h0 : (fun j => rd (x j - x j)) = fun _ => (0 : ℝ) := by funext j; rw [sub_self, rd_zero hr]
    have hG : P.dotG k i g (fun j => rd (x j - x j)) = 0 := by
      have := flDot_single (hP.dotG k i g fun j => rd (x j - x j)) (g 0, 0) (by simp [rd_zero hr])
      rw [this, mul_zero, rd_zero hr]
    have hD : P.dotD k i (fun j => rd (x j - x j)) (fun j => rd (x j - x j)) = 0 := by
      have := flDot_single (hP.dotD k i (fun j => rd (x j - x j)) fun j => rd (x j - x j)) (0, 0) (by simp [rd_zero hr])
      rw [this, mul_zero, rd_zero hr]
    unfold flLsTest
    rw [if_neg (rd_pos hr (by linarith)).ne', hG, hD, add_zero, zero_div, rd_zero hr, add_zero, fix_value hr, fix_value hr, value_one hr hx (hP.fg k i x).1]
  -- it fails elsewhere
  have hfail : ∀ i s s', 0 < s → s ≤ s' → s' ≤ 2000 → flStep rd x g s 0 ≠ 1 → ¬ flLsTest rd (P.fg k i (flStep rd x g s)).1 (2 ^ 52 + 6) (P.dotG k i g fun j => rd (flStep rd x g s j - x j))
      (P.dotD k i (fun j => rd (flStep rd x g s j - x j)) fun j => rd (flStep rd x g s j - x j)) s' := by
    intro i s s' hs hss hs2 hne
    have hX : 1 + 1 / 2 ^ 52 ≤ flStep rd x g s 0 := above_one hr (hr.mem _) (lt_of_le_of_ne (hstep s hs) (Ne.symm hne))
    have hG := flDot_single (hP.dotG k i g fun j => rd (flStep rd x g s j - x j)) (g 0, rd (flStep rd x g s 0 - 1)) (by simp [hx])
    have hD := flDot_single (hP.dotD k i (fun j => rd (flStep rd x g s j - x j)) fun j => rd (flStep rd x g s j - x j)) (rd (flStep rd x g s 0 - 1), rd (flStep rd x g s 0 - 1)) (by simp [hx])
    have hlt := rhs_lt hr hX hg1 hg2 hs (hss.trans hs2) hss (by rw [flStep, hx]) hG hD
    unfold flLsTest
    rw [if_neg (rd_pos hr (by linarith)).ne', not_le]
    exact lt_of_lt_of_le hlt (value_next hr hX (hP.fg k i _).1)
  have heq : ∀ s, flStep rd x g s 0 = 1 → flStep rd x g s = x := by
    intro s h
    funext j
    rw [show j = 0 from Subsingleton.elim _ _, h, hx]
  intro m
  induction m with
  | zero =>
    intro i s s' hs hss hs2 hsm
    rw [pow_zero, mul_one] at hsm
    have h1 : flStep rd x g s 0 = 1 := by
      have hy : -rd (s * g 0) = rd (s * -g 0) := by rw [← hr.neg]; congr 1; ring
      have h2 := (rd_le hr (x := s * -g 0) (mul_nonneg hs.le (by linarith))).1
      have h3 := nonneg' hr (x := s * -g 0) (mul_nonneg hs.le (by linarith))
      have h4 : rd (s * -g 0) < 1 / 2 ^ 53 := by
        have : s * -g 0 ≤ s * (101 / 100) := mul_le_mul_of_nonneg_left (by linarith) hs.le
        norm_num at h2 hsm ⊢
        linarith
      rw [flStep, hx]
      rw [sub_eq_add_neg, hy]
      obtain ⟨y, hyd⟩ : ∃ y, y = rd (s * -g 0) := ⟨_, rfl⟩
      rw [← hyd] at h3 h4 ⊢
      have h5 := hr.eq (x := 1 + y) (m := 2 ^ 52) (e := -52) (by norm_num) (by norm_num) (by rw [zpow_neg]; norm_num; linarith)
        (by rw [zpow_neg, abs_lt]; norm_num at h4 ⊢; constructor <;> linarith)
      rw [h5, zpow_neg]; norm_num
    unfold flLsLoop
    rw [heq s h1, if_pos (hpass i s' (by linarith))]
    exact ⟨s', _, _, by linarith, rfl⟩
  | succ m ih =>
    intro i s s' hs hss hs2 hsm
    unfold flLsLoop
    by_cases hne : flStep rd x g s 0 = 1
    · rw [heq s hne, if_pos (hpass i s' (by linarith))]
      exact ⟨s', _, _, by linarith, rfl⟩
    · rw [if_neg (hfail i s s' hs hss hs2 hne)]
      have hs'0 : 0 < s' := by linarith
      have hf := rd_le hr (x := 6 / 10) (by norm_num)
      have hf0 := rd_pos hr (x := 6 / 10) (by norm_num)
      have hmul : 0 < s' * rd (6 / 10) := mul_pos hs'0 hf0
      have h1 : rd (s' * rd (6 / 10)) ≤ 61 / 100 * s' := by
        have := (rd_le hr hmul.le).1
        have h2 : s' * rd (6 / 10) ≤ s' * ((1 + 1 / 10 ^ 6) * (6 / 10)) := mul_le_mul_of_nonneg_left hf.1 hs'0.le
        norm_num at this h2 ⊢
        linarith
      rw [hfac]
      have hlt : rd (s' * rd (6 / 10)) * (61 / 100) ^ m < 1 / 2 ^ 54 := by
        refine lt_of_le_of_lt ?_ hsm
        rw [pow_succ]
        have : 0 ≤ (61 / 100 : ℝ) ^ m := by positivity
        nlinarith
      obtain ⟨st, fn, gn, h3, h4⟩ := ih (i + 1) _ _ (rd_pos hr hmul) le_rfl (by linarith) hlt
      exact ⟨st, fn, gn, h3, by simp only [bind, Except.bind, hP.prox]; exact h4⟩

theorem initLoop_ge (hr : Nearest 52 rd) (f0 : ℝ) (g0 : Fin 1 → ℝ) : ∀ (k i : ℕ) (L fT : ℝ), 0 ≤ L → L ≤ flInitLoop rd P f0 g0 k i L fT := by
  intro k
  induction k with
  | zero => intro i L fT _; exact le_rfl
  | succ k ih =>
    intro i L fT hL
    unfold flInitLoop
    split
    · exact le_rfl
    · have h := (rd_le hr (x := L * 10) (by linarith)).2
      have h1 : L ≤ rd (L * 10) := by norm_num at h ⊢; linarith
      exact h1.trans (ih _ _ _ (hL.trans h1))

end

end LsWitness

/-- The point 1 is not close to a minimum. -/
theorem LsWitness.far : (∃ g, HasDerivAt (fun t => squareLoss LsWitness.loss.A LsWitness.loss.b 0 fun _ => t) g 1 ∧ g ≤ -(99 / 100)) ∧
    squareLoss LsWitness.loss.A LsWitness.loss.b 0 (fun _ => 1 + 1 / 128) ≤ squareLoss LsWitness.loss.A LsWitness.loss.b 0 (fun _ => 1) - 1 / 300 := by
  refine ⟨?_, ?_⟩
  · have hderiv : HasDerivAt (fun t : ℝ => 1 / (2 * (2 : ℝ)) * ((LsWitness.feat * t - -2 ^ 27) ^ 2 + (16 * t - 17) ^ 2))
        (1 / (2 * (2 : ℝ)) * (2 * (LsWitness.feat * 1 - -2 ^ 27) ^ 1 * LsWitness.feat + 2 * (16 * 1 - 17) ^ 1 * 16)) 1 := by
      have h1 : HasDerivAt (fun t : ℝ => LsWitness.feat * t - -2 ^ 27) LsWitness.feat 1 := by
        simpa using ((hasDerivAt_id (1 : ℝ)).const_mul LsWitness.feat).sub_const (-2 ^ 27)
      have h2 : HasDerivAt (fun t : ℝ => 16 * t - 17) 16 1 := by
        simpa using ((hasDerivAt_id (1 : ℝ)).const_mul 16).sub_const 17
      have h3 := ((h1.pow 2).add (h2.pow 2)).const_mul (1 / (2 * (2 : ℝ)))
      simpa using h3
    have e : (fun t => squareLoss LsWitness.loss.A LsWitness.loss.b 0 fun _ => t) = fun t : ℝ => 1 / (2 * (2 : ℝ)) * ((LsWitness.feat * t - -2 ^ 27) ^ 2 + (16 * t - 17) ^ 2) := by
      funext t
      simp [squareLoss, Spec.dot, LsWitness.loss, Fin.sum_univ_two]
    rw [e]
    refine ⟨_, hderiv, ?_⟩
    unfold LsWitness.feat
    norm_num
  · have e : ∀ t : ℝ, squareLoss LsWitness.loss.A LsWitness.loss.b 0 (fun _ => t) = 1 / (2 * (2 : ℝ)) * ((LsWitness.feat * t - -2 ^ 27) ^ 2 + (16 * t - 17) ^ 2) := by
      intro t
      simp [squareLoss, Spec.dot, LsWitness.loss, Fin.sum_univ_two]
    rw [e, e]
    unfold LsWitness.feat
    norm_num

/-- **C132 (refuted).** In double precision (rounding to nearest, whatever the rule for ties) the default run of `minimize_proximal_gradient` on the least-squares problem with the samples
`(7 * 2^-26 - 2^-76, -2^27)` and `(16, 17)`, started at `1`, stops in its first iteration with `success=True`, a certificate of exactly `0` and the starting point, for every positive tolerance,
although the derivative of the loss at `1` is about `-1` and the loss at `1 + 1/128` is smaller.  Every point to the right of `1` has a larger computed value, so that the line search reduces the step
size until `x - step_size * grad_fk` rounds to `x`, and then the certificate is zero. -/
theorem C132_refuted (hr : Nearest 52 rd) {fexp flog1p : ℝ → ℝ} {P : FlBtArgs 1} (hP : FlBtLoss rd fexp flog1p (.square LsWitness.loss) P) (hx : P.x0 = fun _ => 1) (htol : 0 < P.tol)
    (hfac : P.factor = rd (6 / 10)) (hbt : 100 < P.btIter) :
    (∃ r, flMinimizeBt rd P = .ok r ∧ r.success = true ∧ r.certificate = some 0 ∧ r.x = P.x0 ∧ r.nit = 0) ∧
      (∃ g, HasDerivAt (fun t => squareLoss LsWitness.loss.A LsWitness.loss.b 0 fun _ => t) g 1 ∧ g ≤ -(99 / 100)) ∧
      squareLoss LsWitness.loss.A LsWitness.loss.b 0 (fun _ => 1 + 1 / 128) ≤ squareLoss LsWitness.loss.A LsWitness.loss.b 0 (fun _ => 1) - 1 / 300 := by
  refine ⟨?_, LsWitness.far⟩
  · have hst := hP.start P.x0
    obtain ⟨hg1, hg2⟩ := LsWitness.grad_one hr hx hst.2
    have hf := LsWitness.value_one hr hx hst.1
    -- the initial step size
    have hL : 999 / 10 ^ 6 ≤ flInitLipschitz rd P := by
      unfold flInitLipschitz
      have h1 := (LsWitness.rd_le hr (x := 1 / 1000) (by norm_num)).2
      refine le_trans ?_ (LsWitness.initLoop_ge hr _ _ _ _ _ _ (LsWitness.nonneg' hr (by norm_num)))
      norm_num at h1 ⊢; linarith
    have h18 := (LsWitness.rd_le hr (x := 18 / 10) (by norm_num)).1
    have h18' : (0 : ℝ) < rd (18 / 10) := LsWitness.rd_pos hr (by norm_num)
    have hL0 : 0 < flInitLipschitz rd P := by linarith
    have hs0 : 0 < flInitStep rd P := LsWitness.rd_pos hr (div_pos h18' hL0)
    have hs1 : flInitStep rd P ≤ 1803 := by
      have h1 : rd (18 / 10) / flInitLipschitz rd P ≤ 1802 := by
        rw [div_le_iff₀ hL0]
        norm_num at h18 hL ⊢
        linarith
      have h2 := (LsWitness.rd_le hr (div_pos h18' hL0).le).1
      unfold flInitStep
      norm_num at h2 ⊢
      linarith
    have h11 := LsWitness.rd_le hr (x := 11 / 10) (by norm_num)
    obtain ⟨s0, hs0d⟩ : ∃ s0, s0 = flInitStep rd P := ⟨_, rfl⟩
    rw [← hs0d] at hs0 hs1
    have h110 : 0 ≤ s0 * rd (11 / 10) := mul_nonneg hs0.le (LsWitness.nonneg' hr (by norm_num))
    have hm := LsWitness.rd_le hr h110
    have hup : rd (s0 * rd (11 / 10)) ≤ 2000 := by
      have : s0 * rd (11 / 10) ≤ 1803 * (111 / 100) := mul_le_mul hs1 (by norm_num at h11 ⊢; linarith [h11.1]) (LsWitness.nonneg' hr (by norm_num)) (by norm_num)
      refine hm.1.trans ?_
      have h2 : s0 * rd (11 / 10) ≤ 1803 * ((1 + 1 / 10 ^ 6) * (11 / 10)) := mul_le_mul hs1 h11.1 (LsWitness.nonneg' hr (by norm_num)) (by norm_num)
      norm_num at h2 ⊢
      linarith
    have hlo : s0 ≤ rd (s0 * rd (11 / 10)) := by
      refine le_trans ?_ hm.2
      have h2 : s0 * ((1 - 1 / 10 ^ 6) * (11 / 10)) ≤ s0 * rd (11 / 10) := mul_le_mul_of_nonneg_left h11.2 hs0.le
      norm_num at h2 ⊢
      linarith
    obtain ⟨st, fn, gn, hst0, hls⟩ := LsWitness.search hr hP hfac hx hg1 hg2 0 (P.btIter - 1) 0 s0 _ hs0 hlo hup (by
      have h1 : ((61 / 100 : ℝ)) ^ (P.btIter - 1) ≤ (61 / 100) ^ 100 := pow_le_pow_of_le_one (by norm_num) (by norm_num) (by omega)
      calc rd (s0 * rd (11 / 10)) * (61 / 100) ^ (P.btIter - 1) ≤ 2000 * (61 / 100) ^ 100 := mul_le_mul hup h1 (by positivity) (by norm_num)
        _ < 1 / 2 ^ 54 := by norm_num)
    have hcert : flBtCert rd P 0 P.x0 P.x0 st = some 0 := by
      unfold flBtCert
      rw [if_neg hst0.ne']
      congr 1
      have h0 : (fun j => rd (rd (P.x0 j - P.x0 j) / st)) = fun _ => (0 : ℝ) := by
        funext j; rw [sub_self, LsWitness.rd_zero hr, zero_div, LsWitness.rd_zero hr]
      rw [h0]
      obtain ⟨q, hq, e⟩ := hP.norm 0 fun _ => (0 : ℝ)
      have := flDot_single hq (0, 0) (by simp)
      rw [e, this, mul_zero, LsWitness.rd_zero hr, Real.sqrt_zero, LsWitness.rd_zero hr]
    have hrun : flBtLoop rd P P.maxIter 0 P.x0 (P.start P.x0).1 (P.start P.x0).2 s0 = .ok ⟨P.x0, true, some 0, 0, st⟩ := by
      rw [hf]
      unfold flBtLoop
      simp only [bind, Except.bind, hP.prox]
      erw [hls]
      simp only [hcert]
      rw [if_pos ⟨0, rfl, htol⟩]
      rfl
    refine ⟨⟨P.x0, true, some 0, 0, st⟩, ?_, rfl, rfl, rfl, rfl⟩
    unfold flMinimizeBt
    rw [if_neg (by omega), ← hs0d]
    exact hrun
end Copt
