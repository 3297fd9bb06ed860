import Verif.Props.AcceleratedSearch

/-! C85 is false without the growth factor: a convex smooth function on the line for which the accelerated method, with the default parameters,
accepts a short step first and the initial one afterwards, and misses the FISTA bound. -/

namespace Copt

open Copt.Spec
open scoped InnerProductSpace

/-- The convex function with slope 0 left of `a`, slope `b - a` right of `b` and curvature 1 between. -/
noncomputable def hump (a b x : ℝ) : ℝ := (max (x - a) 0) ^ 2 / 2 - (max (x - b) 0) ^ 2 / 2

/-- Its derivative. -/
noncomputable def humpG (a b x : ℝ) : ℝ := max (x - a) 0 - max (x - b) 0

theorem hump_bounds {a b : ℝ} (hab : a ≤ b) (x y : ℝ) : hump a b x + humpG a b x * (y - x) ≤ hump a b y ∧
    hump a b y ≤ hump a b x + humpG a b x * (y - x) + (y - x) ^ 2 / 2 := by
  unfold hump humpG
  rcases le_total x a with h1 | h1 <;> rcases le_total x b with h2 | h2 <;> rcases le_total y a with h3 | h3 <;> rcases le_total y b with h4 | h4 <;>
  · simp only [max_eq_left (sub_nonneg.mpr h1), max_eq_left (sub_nonneg.mpr h2), max_eq_left (sub_nonneg.mpr h3), max_eq_left (sub_nonneg.mpr h4),
      max_eq_right (sub_nonpos.mpr h1), max_eq_right (sub_nonpos.mpr h2), max_eq_right (sub_nonpos.mpr h3), max_eq_right (sub_nonpos.mpr h4)]
    constructor <;> nlinarith [sq_nonneg (x - y), sq_nonneg (x - a), sq_nonneg (x - b), sq_nonneg (y - a), sq_nonneg (y - b)]

/-- Width of the curved piece at the start. -/
noncomputable def growW : ℝ := 7200 * (6 / 10) ^ 8

theorem growW_pos : 0 < growW := by unfold growW; norm_num
theorem growW_eq : growW = 120.932352 := by unfold growW; norm_num

/-- The objective: slope -4 up to 0, bent to slope -1 on `[0, w]`, straight up to 3600, then flat. -/
noncomputable def growF (x : ℝ) : ℝ := -4 * x + 3 / growW * (hump 0 growW x + hump 3600 (3600 + growW / 3) x)

/-- Its derivative. -/
noncomputable def growG (x : ℝ) : ℝ := -4 + 3 / growW * (humpG 0 growW x + humpG 3600 (3600 + growW / 3) x)

/-- The run: default parameters, no penalty, two iterations. -/
noncomputable def growArgs : APGArgs ℝ :=
  { fg := fun x => (growF x, growG x), x0 := 0, prox := none, tol := 1 / 10 ^ 6, maxIter := 1, callback := none, step := .str "backtracking",
    btIter := 1000, factor := 6 / 10, traceCert := false }

theorem grow_bounds (x y : ℝ) : growF x + growG x * (y - x) ≤ growF y ∧ growF y ≤ growF x + growG x * (y - x) + 6 / growW / 2 * (y - x) ^ 2 := by
  have hw := growW_pos
  have hc : 0 < 3 / growW := div_pos three_pos hw
  obtain ⟨a1, a2⟩ := hump_bounds (show (0 : ℝ) ≤ growW from hw.le) x y
  obtain ⟨b1, b2⟩ := hump_bounds (show (3600 : ℝ) ≤ 3600 + growW / 3 by linarith) x y
  have h1 := mul_le_mul_of_nonneg_left (add_le_add a1 b1) hc.le
  have h2 := mul_le_mul_of_nonneg_left (add_le_add a2 b2) hc.le
  unfold growF growG
  constructor
  · nlinarith
  · have : 6 / growW / 2 * (y - x) ^ 2 = 3 / growW * ((y - x) ^ 2 / 2 + (y - x) ^ 2 / 2) := by ring
    nlinarith

theorem growF_mid {z : ℝ} (h : growW ≤ z) : -z - 3 / 2 * growW ≤ growF z ∧ (z ≤ 3600 → growF z = -z - 3 / 2 * growW) := by
  have hw := growW_pos
  have h0 : 3 / growW * (hump 0 growW z) = 3 * z - 3 / 2 * growW := by
    unfold hump
    rw [max_eq_left (by linarith), max_eq_left (by linarith)]
    field_simp
    ring
  have h1 : 0 ≤ hump 3600 (3600 + growW / 3) z := by
    have := (hump_bounds (show (3600 : ℝ) ≤ 3600 + growW / 3 by linarith) 3600 z).1
    have e1 : hump 3600 (3600 + growW / 3) 3600 = 0 := by
      unfold hump
      rw [max_eq_right (by norm_num), max_eq_right (by linarith)]; ring
    have e2 : humpG 3600 (3600 + growW / 3) 3600 = 0 := by
      unfold humpG
      rw [max_eq_right (by norm_num), max_eq_right (by linarith)]; ring
    rw [e1, e2] at this
    linarith
  have h2 := mul_nonneg (div_pos three_pos hw).le h1
  refine ⟨by unfold growF; rw [mul_add, h0]; linarith, fun hz => ?_⟩
  have h3 : hump 3600 (3600 + growW / 3) z = 0 := by
    unfold hump
    rw [max_eq_right (by linarith), max_eq_right (by linarith)]; ring
  unfold growF
  rw [mul_add, h0, h3]; ring

theorem growF_zero : growF 0 = 0 := by
  have hw := growW_pos
  unfold growF hump
  rw [max_eq_right (by norm_num), max_eq_right (by linarith), max_eq_right (by norm_num), max_eq_right (by linarith)]
  ring

theorem growG_zero : growG 0 = -4 := by
  have hw := growW_pos
  unfold growG humpG
  rw [max_eq_right (by norm_num), max_eq_right (by linarith), max_eq_right (by norm_num), max_eq_right (by linarith)]
  ring

theorem growG_mid {z : ℝ} (h : growW ≤ z) (h2 : z ≤ 3600) : growG z = -1 := by
  have hw := growW_pos
  unfold growG humpG
  rw [max_eq_left (by linarith), max_eq_left (by linarith), max_eq_right (by linarith), max_eq_right (by linarith)]
  field_simp
  ring

theorem growG_bottom : growG (3600 + growW / 3) = 0 := by
  have hw := growW_pos
  have hw' := growW_eq
  unfold growG humpG
  rw [max_eq_left (by linarith), max_eq_left (by linarith), max_eq_left (by linarith), max_eq_right (by linarith)]
  field_simp
  ring

theorem growF_bottom : growF (3600 + growW / 3) = -3600 - 5 / 3 * growW := by
  have hw := growW_pos
  have hw' := growW_eq
  unfold growF hump
  rw [max_eq_left (by linarith), max_eq_left (by linarith), max_eq_left (by linarith), max_eq_right (by linarith)]
  field_simp
  ring

/-- Steps longer than `3 w / 8` are rejected at the start. -/
theorem grow_reject : ∀ (j k : ℕ) (step : ℝ), 0 < step → (∀ i < j, 3 / 2 * growW < 4 * (step * (6 / 10) ^ i)) →
    apgSearch growArgs.fg growArgs.proxFn 0 (-4) (6 / 10) (k + j) (4 * step) step =
      apgSearch growArgs.fg growArgs.proxFn 0 (-4) (6 / 10) k (4 * (step * (6 / 10) ^ j)) (step * (6 / 10) ^ j) := by
  intro j
  induction j with
  | zero => intro k step _ _; simp
  | succ j ih =>
    intro k step hs h
    have h0 := h 0 (by omega)
    rw [pow_zero, mul_one] at h0
    have hrej : ¬lsTest (growArgs.fg (4 * step)).1 (growArgs.fg 0).1 (-4) (4 * step - 0) step := by
      have e : ∀ a b : ℝ, ⟪a, b⟫_ℝ = b * a := fun _ _ => rfl
      unfold lsTest
      rw [if_neg hs.ne', e, e]
      show ¬ growF (4 * step) ≤ growF 0 + _ + _
      rw [growF_zero]
      have h1 := (growF_mid (z := 4 * step) (by linarith [growW_pos])).1
      have h2 : (4 * step - 0) * (4 * step - 0) / (2 * step) = 8 * step := by field_simp; ring
      rw [h2]
      linarith
    rw [← Nat.add_assoc]
    rw [apgSearch, if_neg hrej]
    have hx : growArgs.proxFn (0 - (step * (6 / 10)) • (-4 : ℝ)) (step * (6 / 10)) = 4 * (step * (6 / 10)) := by
      show (0 : ℝ) - (step * (6 / 10)) • (-4 : ℝ) = _
      rw [smul_eq_mul]; ring
    simp only [hx]
    rw [ih k (step * (6 / 10)) (by positivity) (fun i hi => by
      have := h (i + 1) (by omega)
      rwa [pow_succ', ← mul_assoc step] at this), pow_succ', ← mul_assoc step]

theorem grow_search1 : apgSearch growArgs.fg growArgs.proxFn 0 (-4) (6 / 10) 999 (4 * 1800) 1800 = (growW, growW / 4, true) := by
  have hw := growW_pos
  have h := grow_reject 8 991 1800 (by norm_num) (fun i hi => by
    rw [growW_eq]
    interval_cases i <;> norm_num)
  rw [show (999 : ℕ) = 991 + 8 from rfl, h, show (1800 : ℝ) * (6 / 10) ^ 8 = growW / 4 by unfold growW; ring, mul_div_cancel₀ _ four_ne_zero]
  have hacc : lsTest (growArgs.fg growW).1 (growArgs.fg 0).1 (-4) (growW - 0) (growW / 4) := by
    have e : ∀ a b : ℝ, ⟪a, b⟫_ℝ = b * a := fun _ _ => rfl
    unfold lsTest
    rw [if_neg (by linarith), e, e]
    show growF growW ≤ growF 0 + _ + _
    rw [growF_zero, (growF_mid le_rfl).2 (by rw [growW_eq]; norm_num)]
    have h2 : (growW - 0) * (growW - 0) / (2 * (growW / 4)) = 2 * growW := by field_simp; ring
    rw [h2]
    linarith
  rw [apgSearch, if_pos hacc]

theorem grow_search2 (k : ℕ) : apgSearch growArgs.fg growArgs.proxFn growW (-1) (6 / 10) k (growW + 1800) 1800 = (growW + 1800, 1800, true) := by
  have hw := growW_pos
  have hacc : lsTest (growArgs.fg (growW + 1800)).1 (growArgs.fg growW).1 (-1) (growW + 1800 - growW) 1800 := by
    have e : ∀ a b : ℝ, ⟪a, b⟫_ℝ = b * a := fun _ _ => rfl
    unfold lsTest
    rw [if_neg (by norm_num), e, e]
    show growF (growW + 1800) ≤ growF growW + _ + _
    rw [(growF_mid (by linarith)).2 (by rw [growW_eq]; norm_num), (growF_mid le_rfl).2 (by rw [growW_eq]; norm_num), growW_eq]
    norm_num
  rw [apgSearch, if_pos hacc]

theorem grow_lip : (initLipschitz growArgs.fg growArgs.x0).1 = 1 / 1000 := by
  have h : growF (4000) ≤ growF 0 := by
    rw [growF_zero]
    have h1 := (grow_bounds 4000 3600).1
    have h2 := (growF_mid (z := 3600) (by rw [growW_eq]; norm_num)).2 le_rfl
    have h3 : growG 4000 = 0 := by
      have hw := growW_pos
      unfold growG humpG
      rw [growW_eq, max_eq_left (by norm_num), max_eq_left (by norm_num), max_eq_left (by norm_num), max_eq_left (by norm_num)]
      norm_num
    rw [h3] at h1
    have := growW_pos
    linarith
  unfold initLipschitz
  show (initLipLoop _ _ _ _ 100 _ _ _).1 = _
  rw [initLipLoop, if_pos]
  · norm_num
  · show growF (0 - (1 / 1e-3 : ℝ) • growG 0) ≤ growF 0
    rw [growG_zero, show (0 : ℝ) - (1 / 1e-3 : ℝ) • (-4 : ℝ) = 4000 by rw [smul_eq_mul]; norm_num]
    exact h

/-- **C85 (refuted).** A convex function on the line with Lipschitz derivative and a minimiser `y` for which the accelerated method with the default
parameters makes two iterations, both ending with an accepted step `s_k`, and `F(x_2) - F(y) > 2 ‖x0 - y‖² / (s_2 (2 + 1)²)`: the first accepted step is
short, the second search starts again from the initial step. -/
theorem C85_refuted : ∃ (P : APGArgs ℝ) (f g : ℝ → ℝ) (L y : ℝ), P.fg = (fun x => (f x, g x)) ∧ ConvexGrad f g ∧ 0 < L ∧ UpperQuad f g L ∧
    ExactProxA P ExtFun.zero ∧ P.step = .str "backtracking" ∧ P.factor = 6 / 10 ∧ P.btIter = 1000 ∧ (∀ z, f y ≤ f z) ∧
    ∃ res, minimizeAccelerated P = .ok res ∧ ∃ pre e, res.log = pre ++ [e] ∧ res.x = e.2.1 ∧ pre.length = 1 ∧
      2 * ‖P.x0 - y‖ ^ 2 / (e.2.2 * ((pre.length + 1 : ℕ) + 1) ^ 2) < f res.x - f y := by
  have hw := growW_pos
  have e : ∀ a b : ℝ, ⟪a, b⟫_ℝ = b * a := fun _ _ => rfl
  refine ⟨growArgs, growF, growG, 6 / growW, 3600 + growW / 3, rfl, fun x y => ?_, by positivity, fun x y => ?_, ⟨?_, ?_⟩, rfl, rfl, rfl, fun z => ?_, ?_⟩
  · rw [e, mul_comm]; exact (grow_bounds x y).1
  · rw [e, mul_comm (y - x), Real.norm_eq_abs, sq_abs]; exact (grow_bounds x y).2
  · exact convexOn_const 0 convex_univ
  · intro x s hs
    refine ⟨Set.mem_univ _, fun z _ => ?_⟩
    show s * 0 + ‖x - x‖ ^ 2 / 2 ≤ s * 0 + ‖z - x‖ ^ 2 / 2
    rw [sub_self, norm_zero]
    have := sq_nonneg ‖z - x‖
    linarith
  · have := (grow_bounds (3600 + growW / 3) z).1
    rw [growG_bottom] at this
    linarith
  · have hs0 : (apgStep0 growArgs).getD 0 = 1800 := by
      unfold apgStep0
      show (if ("backtracking" : String) = "backtracking" then some ((18 / 10) / (initLipschitz growArgs.fg growArgs.x0).1) else none).getD 0 = 1800
      rw [if_pos rfl, grow_lip]
      norm_num
    set st1 := (apgBody growArgs 1800 (apgInit growArgs)).1 with hst1
    have hb1 : st1 = apgNext growArgs { apgInit growArgs with grad := -4 } growW (growW / 4) true false ∧
        (apgBody growArgs 1800 (apgInit growArgs)).2 = none := by
      rcases apgBody_cases (P := growArgs) (s0 := 1800) (apgInit growArgs) with ⟨-, -, -, h⟩ | ⟨h1, h2, h3, h4⟩
      · exact absurd rfl h
      have h5 : apgStepBranch growArgs 1800 { apgInit growArgs with grad := (growArgs.fg (apgInit growArgs).yk).2 } =
          apgNext growArgs { apgInit growArgs with grad := -4 } growW (growW / 4) true false := by
        have hg : (growArgs.fg (apgInit growArgs).yk).2 = -4 := growG_zero
        rw [hg]
        show apgNext growArgs _ _ _ _ _ = _
        have hx : growArgs.proxFn ((0 : ℝ) - (1800 : ℝ) • (-4 : ℝ)) 1800 = 4 * 1800 := by
          show (0 : ℝ) - (1800 : ℝ) • (-4 : ℝ) = _
          rw [smul_eq_mul]; norm_num
        have hsr : apgSearch growArgs.fg growArgs.proxFn 0 (-4) (6 / 10) 999 (growArgs.proxFn ((0 : ℝ) - (1800 : ℝ) • (-4 : ℝ)) 1800) 1800 =
          (growW, growW / 4, true) := by rw [hx]; exact grow_search1
        show apgNext growArgs { apgInit growArgs with grad := -4 }
          (apgSearch growArgs.fg growArgs.proxFn 0 (-4) (6 / 10) 999 (growArgs.proxFn ((0 : ℝ) - (1800 : ℝ) • (-4 : ℝ)) 1800) 1800).1
          (apgSearch growArgs.fg growArgs.proxFn 0 (-4) (6 / 10) 999 (growArgs.proxFn ((0 : ℝ) - (1800 : ℝ) • (-4 : ℝ)) 1800) 1800).2.1
          (apgSearch growArgs.fg growArgs.proxFn 0 (-4) (6 / 10) 999 (growArgs.proxFn ((0 : ℝ) - (1800 : ℝ) • (-4 : ℝ)) 1800) 1800).2.2 false = _
        rw [hsr]
      rw [h5] at h3
      refine ⟨h3, ?_⟩
      cases hh : (apgBody growArgs 1800 (apgInit growArgs)).2 with
      | none => rfl
      | some v =>
        rw [hh] at h1 h2 h4
        cases v with
        | callback => exact absurd rfl h1
        | exhausted => exact absurd rfl h2
        | success =>
          obtain ⟨r, hr, hlt⟩ := h4.mp rfl
          rw [h3] at hr
          change pgCert (0 : ℝ) (growW - (growW / 4) • growG growW) (growW / 4) = some r at hr
          rw [growG_mid le_rfl (by rw [growW_eq]; norm_num)] at hr
          unfold pgCert at hr
          rw [if_neg (by linarith)] at hr
          have hr' := Option.some.inj hr
          rw [smul_eq_mul, smul_eq_mul, show (growW / 4)⁻¹ * (0 - (growW - growW / 4 * -1)) = -5 by field_simp; ring] at hr'
          change r < 1 / 10 ^ 6 at hlt
          rw [← hr'] at hlt
          norm_num at hlt
    set st2 := (apgBody growArgs 1800 { st1 with nit := st1.nit + 1 }).1 with hst2
    have hb2 : st2.x = growW + 1800 ∧ st2.log = [((0 : ℝ), growW, growW / 4), (growW, growW + 1800, 1800)] := by
      rcases apgBody_cases (P := growArgs) (s0 := 1800) { st1 with nit := st1.nit + 1 } with ⟨-, -, -, h⟩ | ⟨h1, h2, h3, h4⟩
      · exact absurd rfl h
      have hyk : st1.yk = growW := by
        rw [hb1.1]
        show growW + ((1 - 1) / tNext 1) • (growW - 0) = growW
        simp
      have hg : (growArgs.fg st1.yk).2 = -1 := by
        rw [hyk]; exact growG_mid le_rfl (by rw [growW_eq]; norm_num)
      have hx : growArgs.proxFn (growW - (1800 : ℝ) • (-1 : ℝ)) 1800 = growW + 1800 := by
        show growW - (1800 : ℝ) • (-1 : ℝ) = _
        rw [smul_eq_mul]; norm_num
      have hsr := grow_search2 999
      rw [← hx] at hsr
      have h5 : st2 = apgNext growArgs { st1 with nit := st1.nit + 1, grad := -1 } (growW + 1800) 1800 true false := by
        rw [hst2, h3]
        show apgStepBranch growArgs 1800 { st1 with nit := st1.nit + 1, grad := (growArgs.fg st1.yk).2 } = _
        rw [hg]
        show apgNext growArgs { st1 with nit := st1.nit + 1, grad := -1 }
          (apgSearch growArgs.fg growArgs.proxFn st1.yk (-1) (6 / 10) 999 (growArgs.proxFn (st1.yk - (1800 : ℝ) • (-1 : ℝ)) 1800) 1800).1
          (apgSearch growArgs.fg growArgs.proxFn st1.yk (-1) (6 / 10) 999 (growArgs.proxFn (st1.yk - (1800 : ℝ) • (-1 : ℝ)) 1800) 1800).2.1
          (apgSearch growArgs.fg growArgs.proxFn st1.yk (-1) (6 / 10) 999 (growArgs.proxFn (st1.yk - (1800 : ℝ) • (-1 : ℝ)) 1800) 1800).2.2 false = _
        rw [hyk, hsr, hx]
      refine ⟨by rw [h5]; rfl, ?_⟩
      rw [h5]
      show st1.log ++ [(st1.yk, growW + 1800, 1800)] = _
      rw [hyk, hb1.1]
      rfl
    have hloop : (apgLoop growArgs 1800 1 (apgInit growArgs)).1 = st2 := by
      rw [apgLoop]
      simp only [hb1.2]
      rw [← hst1, apgLoop]
      cases (apgBody growArgs 1800 { st1 with nit := st1.nit + 1 }).2 <;> rfl
    refine ⟨_, by unfold minimizeAccelerated; rw [if_neg (by norm_num [growArgs])], [((0 : ℝ), growW, growW / 4)], (growW, growW + 1800, 1800), ?_, ?_, rfl, ?_⟩
    · rw [hs0]
      show (apgLoop growArgs 1800 1 (apgInit growArgs)).1.log = _
      rw [hloop, hb2.2]; rfl
    · rw [hs0]
      show (apgLoop growArgs 1800 1 (apgInit growArgs)).1.x = _
      rw [hloop, hb2.1]
    · rw [hs0]
      show 2 * ‖(0 : ℝ) - (3600 + growW / 3)‖ ^ 2 / (1800 * ((([((0 : ℝ), growW, growW / 4)] : List (ℝ × ℝ × ℝ)).length + 1 : ℕ) + 1) ^ 2) <
        growF (apgLoop growArgs 1800 1 (apgInit growArgs)).1.x - growF (3600 + growW / 3)
      rw [hloop, hb2.1, growF_bottom, (growF_mid (by linarith)).2 (by rw [growW_eq]; norm_num), Real.norm_eq_abs, sq_abs, growW_eq]
      norm_num

end Copt
