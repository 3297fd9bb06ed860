import Verif.Props.Minimisers
import Verif.Props.PrimalDualObjects
import Verif.Props.Regression

/-!
# C108: the primal-dual method with its line search

Algorithm 4 of Malitsky and Pock accepts a step when `sigma tau ‖L dx‖² + 2 sigma D_f ≤ delta ‖dx‖²`.  splitting.py:308-310 has `‖L dx‖²` on the
right-hand side as well, so that the test does not see the norm of `L`.
-/

set_option linter.unusedSectionVars false

namespace Copt

open Spec

open scoped InnerProductSpace

/-! ### Divergence -/

/-- Minimise `0` subject to `10 x = 0`, from `x0 = 1`, with the default step sizes: `h` is the indicator of `{0}`, whose proximal operator is `0`. -/
noncomputable def pdTen (tol : ℝ) (m : ℕ) : PDArgs ℝ ℝ :=
  { fg := fun _ => (0, 0), x0 := 1, prox1 := none, prox2 := some fun _ _ => 0, matvec := fun x => 10 * x, rmatvec := fun y => 10 * y, tol := tol, maxIter := m,
    callback := none, stepSize := 1, stepSize2 := none, lineSearch := true, lsIter := 20 }

theorem pdTen_ok (tol : ℝ) (m : ℕ) : PDOk (pdTen tol m) (10 • LinearMap.id) (10 • LinearMap.id) := by
  refine ⟨?_, ?_, fun x y => ?_, by norm_num [pdTen], fun t h => by cases h⟩
  · funext x; simp [pdTen]
  · funext x; simp [pdTen]
  · simp [mul_comm, mul_left_comm]

/-- The states of the run after any number of iterations. -/
structure TenInv (st : PDState ℝ ℝ) : Prop where
  tau : 1 / 2 ≤ st.tau
  tau' : st.tau ≤ 1
  theta : 0 ≤ st.theta
  fk : st.fk = 0
  grad : st.grad = 0
  pos : 1 ≤ |st.x|
  sign : |st.y| ≤ |st.x| ∨ 0 ≤ st.x * st.y

/-- The move of the trial point. -/
theorem ten_move {x y τ t : ℝ} (h1 : 1 / 2 ≤ τ) (h2 : τ ≤ 1) (ht : 1 / 2 ≤ t) (hs : |y| ≤ |x| ∨ 0 ≤ x * y) :
    45 / 2 * |x| ≤ |50 * t * (τ + t) * x + 5 * t * y| ∧ |y + 10 * τ * x| + |x| ≤ |50 * t * (τ + t) * x + 5 * t * y| := by
  have hx := abs_nonneg x
  have hy := abs_nonneg y
  have a1 : |y + 10 * τ * x| ≤ |y| + 10 * |x| := by
    refine (abs_add_le _ _).trans ?_
    rw [abs_mul, abs_of_nonneg (by linarith : (0 : ℝ) ≤ 10 * τ)]
    have : 10 * τ * |x| ≤ 10 * |x| := mul_le_mul_of_nonneg_right (by linarith) hx
    linarith
  have hc : 25 ≤ 50 * t * (τ + t) := by nlinarith
  rcases hs with hs | hs
  · have a2 : 50 * t * (τ + t) * |x| - 5 * t * |y| ≤ |50 * t * (τ + t) * x + 5 * t * y| := by
      have := abs_sub_abs_le_abs_sub (50 * t * (τ + t) * x) (-(5 * t * y))
      rw [abs_neg, abs_mul, abs_mul (5 * t), abs_of_nonneg (by linarith : 0 ≤ 50 * t * (τ + t)), abs_of_nonneg (by linarith : 0 ≤ 5 * t), sub_neg_eq_add] at this
      exact this
    have a3 : 5 * t * |y| ≤ 5 * t * |x| := mul_le_mul_of_nonneg_left hs (by linarith)
    have a4 : 45 / 2 * |x| ≤ (50 * t * (τ + t) - 5 * t) * |x| := mul_le_mul_of_nonneg_right (by nlinarith) hx
    constructor <;> linarith
  · have a2 : |50 * t * (τ + t) * x + 5 * t * y| = 50 * t * (τ + t) * |x| + 5 * t * |y| := by
      have e1 : |50 * t * (τ + t) * x| = 50 * t * (τ + t) * |x| := by rw [abs_mul, abs_of_nonneg (by linarith : 0 ≤ 50 * t * (τ + t))]
      have e2 : |5 * t * y| = 5 * t * |y| := by rw [abs_mul, abs_of_nonneg (by linarith : 0 ≤ 5 * t)]
      rw [← e1, ← e2]
      rw [abs_add_eq_add_abs_iff]
      rcases le_total 0 x with hx0 | hx0
      · rcases eq_or_lt_of_le hx0 with rfl | hpos
        · rcases le_total 0 y with hy0 | hy0
          · left; constructor <;> [simp; positivity]
          · right; constructor
            · simp
            · exact mul_nonpos_of_nonneg_of_nonpos (by linarith) hy0
        · left
          have : 0 ≤ y := nonneg_of_mul_nonneg_right hs hpos
          constructor <;> positivity
      · rcases eq_or_lt_of_le hx0 with rfl | hneg
        · rcases le_total 0 y with hy0 | hy0
          · left; constructor <;> [simp; positivity]
          · right; constructor
            · simp
            · exact mul_nonpos_of_nonneg_of_nonpos (by linarith) hy0
        · right
          have : y ≤ 0 := by
            by_contra hc
            push Not at hc
            have := mul_neg_of_neg_of_pos hneg hc
            linarith
          exact ⟨mul_nonpos_of_nonneg_of_nonpos (by linarith) hx0, mul_nonpos_of_nonneg_of_nonpos (by linarith) this⟩
    have a3 : 25 * |x| ≤ 50 * t * (τ + t) * |x| := mul_le_mul_of_nonneg_right hc hx
    have a4 : 5 / 2 * |y| ≤ 5 * t * |y| := mul_le_mul_of_nonneg_right (by linarith) hy
    rw [a2]
    constructor <;> linarith

theorem ten_next (tol : ℝ) (m it : ℕ) {st : PDState ℝ ℝ} (h : TenInv st) :
    ∃ st', pdNext (pdTen tol m) it st = some st' ∧ TenInv st' ∧ 21 * |st.x| ≤ |st'.x| ∧
      st'.normIncr = if it % 100 = 0 then some (|st'.x - st.x| + |st'.y - st.y|) else st.normIncr := by
  set P := pdTen tol m with hP
  set yN := prox2Conj P.p2 (st.y + st.tau • P.matvec st.x) st.tau with hyN
  have hyN' : yN = st.y + 10 * st.tau * st.x := by
    rw [hyN]
    show (st.y + st.tau * (10 * st.x)) - st.tau * 0 = _
    ring
  have h1 := h.tau
  have hτ : 0 < st.tau := by linarith
  have htr : ∀ t, pdTrial P st yN t = st.x - (50 * t * (st.tau + t) * st.x + 5 * t * st.y) := by
    intro t
    show st.x - (1 / 2 * t) * (10 * (yN + t / st.tau * (yN - st.y)) + st.grad) = _
    rw [hyN', h.grad]
    field_simp
    ring
  have hinc : ∀ t, pdIncr P st (pdTrial P st yN t) = 10 * |50 * t * (st.tau + t) * st.x + 5 * t * st.y| := by
    intro t
    rw [htr]
    show |10 * (st.x - _) - 10 * st.x| = _
    rw [← mul_sub, abs_mul, show st.x - (50 * t * (st.tau + t) * st.x + 5 * t * st.y) - st.x = -(50 * t * (st.tau + t) * st.x + 5 * t * st.y) by ring, abs_neg]
    norm_num
  have hmove : ∀ t, 1 / 2 ≤ t → 45 / 2 * |st.x| ≤ |50 * t * (st.tau + t) * st.x + 5 * t * st.y| ∧
      |yN| + |st.x| ≤ |50 * t * (st.tau + t) * st.x + 5 * t * st.y| := by
    intro t ht
    rw [hyN']
    exact ten_move h.tau h.tau' ht h.sign
  have htiny : ∀ t, 1 / 2 ≤ t → ¬pdTiny P st yN t := by
    intro t ht hc
    unfold pdTiny at hc
    rw [hinc] at hc
    have := (hmove t ht).1
    have h3 := h.pos
    have h4 : (1 / 10 ^ 10 : ℝ) < 1 := by norm_num
    linarith
  have hacc : ∀ t, 1 / 2 ≤ t → (pdAccept P st yN t ↔ t ≤ 1) := by
    intro t ht
    unfold pdAccept
    simp only
    rw [hinc, h.fk, h.grad]
    show (1 / 2 * t * t * _ + 2 * (1 / 2 * t) * (0 - 0 - _ * 0)) / (1 / 2) ≤ _ ↔ _
    have h3 : 0 < (10 * |50 * t * (st.tau + t) * st.x + 5 * t * st.y|) ^ 2 := by
      have := (hmove t ht).1
      have := h.pos
      have : 0 < |50 * t * (st.tau + t) * st.x + 5 * t * st.y| := by linarith
      positivity
    generalize (10 * |50 * t * (st.tau + t) * st.x + 5 * t * st.y|) ^ 2 = q at h3
    constructor
    · intro h4
      by_contra hc
      push Not at hc
      have : 1 < t * t := by nlinarith
      have := mul_lt_mul_of_pos_right this h3
      nlinarith
    · intro h4
      have : t * t ≤ 1 := by nlinarith
      have := mul_le_mul_of_nonneg_right this h3.le
      nlinarith
  set T := st.tau * (1 + Real.sqrt (1 + st.theta)) / 2 with hT
  have hT0 : 1 / 2 ≤ T := by
    have : 1 ≤ Real.sqrt (1 + st.theta) := by
      exact Real.one_le_sqrt.mpr (by have := h.theta; linarith)
    rw [hT]; nlinarith
  -- the search
  have hsearch : ∃ t, 1 / 2 ≤ t ∧ t ≤ 1 ∧ pdSearch P st yN T =
      some { xNext := pdTrial P st yN t, yNext := yN, theta := t / st.tau, tau := t, sigma := P.ratio * t } := by
    have hex : ∃ n : ℕ, T * (9 / 10) ^ n ≤ 1 := by
      obtain ⟨n, hn⟩ := exists_pow_lt_of_lt_one (show (0 : ℝ) < 1 / T by positivity) (by norm_num : (9 / 10 : ℝ) < 1)
      refine ⟨n, ?_⟩
      rw [lt_div_iff₀ (by linarith)] at hn
      linarith
    classical
    have hlow : ∀ n, (∀ k < n, 1 < T * (9 / 10) ^ k) → 1 / 2 ≤ T * (9 / 10) ^ n := by
      intro n hn
      cases n with
      | zero => rw [pow_zero, mul_one]; exact hT0
      | succ n =>
        have := hn n (by omega)
        rw [pow_succ]; linarith
    have hfind : ∀ n, (∀ k < n, 1 < T * (9 / 10) ^ k) → (pdTiny P st yN (T * (9 / 10) ^ n) ∨ pdAccept P st yN (T * (9 / 10) ^ n) ↔ T * (9 / 10) ^ n ≤ 1) := by
      intro n hn
      rw [hacc _ (hlow n hn)]
      simp [htiny _ (hlow n hn)]
    have hN := Nat.find_spec hex
    have hmin : ∀ k < Nat.find hex, 1 < T * (9 / 10) ^ k := fun k hk => not_le.mp (Nat.find_min hex hk)
    have hex2 : ∃ n : ℕ, pdTiny P st yN (T * (9 / 10) ^ n) ∨ pdAccept P st yN (T * (9 / 10) ^ n) := ⟨_, (hfind _ hmin).mpr hN⟩
    have heq : Nat.find hex2 = Nat.find hex := by
      rw [Nat.find_eq_iff]
      refine ⟨(hfind _ hmin).mpr hN, fun k hk => ?_⟩
      rw [hfind k fun j hj => hmin j (hj.trans hk)]
      exact not_le.mpr (hmin k hk)
    refine ⟨T * (9 / 10) ^ Nat.find hex, hlow _ hmin, hN, ?_⟩
    unfold pdSearch
    rw [dif_pos hex2]
    have key : ∀ k : ℕ, k = Nat.find hex → (some { xNext := pdTrial P st yN (T * (9 / 10) ^ k), yNext := yN, theta := T * (9 / 10) ^ k / st.tau,
                                                    tau := if pdTiny P st yN (T * (9 / 10) ^ k) then st.tau else T * (9 / 10) ^ k,
                                                    sigma := P.ratio * (T * (9 / 10) ^ k) } : Option (PDStep ℝ ℝ)) =
        some { xNext := pdTrial P st yN (T * (9 / 10) ^ Nat.find hex), yNext := yN, theta := T * (9 / 10) ^ Nat.find hex / st.tau,
               tau := T * (9 / 10) ^ Nat.find hex, sigma := P.ratio * (T * (9 / 10) ^ Nat.find hex) } := by
      rintro k rfl
      rw [if_neg (htiny _ (hlow _ hmin))]
    refine key _ ?_
    rw [← heq]
  obtain ⟨t, ht0, ht1, hs⟩ := hsearch
  obtain ⟨hm1, hm2⟩ := hmove t ht0
  have hstep : pdStep P st = some { xNext := pdTrial P st yN t, yNext := yN, theta := t / st.tau, tau := t, sigma := P.ratio * t } := by
    unfold pdStep
    simp only
    rw [if_pos (show P.lineSearch = true from rfl)]
    exact hs
  refine ⟨_, by unfold pdNext; rw [hstep]; rfl, ?_, ?_, rfl⟩
  · have hx : |yN| ≤ |pdTrial P st yN t| := by
      rw [htr]
      have := abs_sub_abs_le_abs_sub (50 * t * (st.tau + t) * st.x + 5 * t * st.y) st.x
      rw [abs_sub_comm] at this
      linarith
    refine ⟨ht0, ht1, by positivity, rfl, rfl, ?_, Or.inl hx⟩
    show 1 ≤ |pdTrial P st yN t|
    rw [htr]
    have h3 := abs_sub_abs_le_abs_sub (50 * t * (st.tau + t) * st.x + 5 * t * st.y) st.x
    rw [abs_sub_comm] at h3
    have := h.pos
    linarith
  · show 21 * |st.x| ≤ |pdTrial P st yN t|
    rw [htr]
    have h3 := abs_sub_abs_le_abs_sub (50 * t * (st.tau + t) * st.x + 5 * t * st.y) st.x
    rw [abs_sub_comm] at h3
    have := h.pos
    linarith

theorem ten_run (tol : ℝ) (m : ℕ) : ∃ s : ℕ → PDState ℝ ℝ, ∀ k, pdIter (pdTen tol m) k = some (s k) ∧ TenInv (s k) ∧ 21 ^ k ≤ |(s k).x| ∧
    21 * |(s k).x| ≤ |(s (k + 1)).x| ∧ (s (k + 1)).normIncr = if k % 100 = 0 then some (|(s (k + 1)).x - (s k).x| + |(s (k + 1)).y - (s k).y|) else (s k).normIncr := by
  have key : ∀ k, ∃ st, pdIter (pdTen tol m) k = some st ∧ TenInv st ∧ 21 ^ k ≤ |st.x| := by
    intro k
    induction k with
    | zero =>
      refine ⟨pdInit (pdTen tol m), rfl, ⟨?_, ?_, ?_, rfl, rfl, ?_, Or.inr ?_⟩, ?_⟩
      · show (1 / 2 : ℝ) ≤ 1 / 2 * 1; norm_num
      · show (1 / 2 * 1 : ℝ) ≤ 1; norm_num
      · show (0 : ℝ) ≤ 1; norm_num
      · show 1 ≤ |(1 : ℝ)|; norm_num
      · show (0 : ℝ) ≤ 1 * (10 * 1); norm_num
      · show (21 : ℝ) ^ 0 ≤ |(1 : ℝ)|; norm_num
    | succ k ih =>
      obtain ⟨st, h1, h2, h3⟩ := ih
      obtain ⟨st', a1, a2, a3, -⟩ := ten_next tol m k h2
      refine ⟨st', by rw [pdIter, h1]; exact a1, a2, ?_⟩
      rw [pow_succ]; linarith
  choose s hs using key
  refine ⟨s, fun k => ⟨(hs k).1, (hs k).2.1, (hs k).2.2, ?_⟩⟩
  obtain ⟨st', a1, a2, a3, a4⟩ := ten_next tol m k (hs k).2.1
  have : s (k + 1) = st' := by
    have h1 := (hs (k + 1)).1
    rw [pdIter, (hs k).1] at h1
    exact Option.some.inj (h1.symm.trans a1)
  rw [this]
  exact ⟨a3, a4⟩

/-- **C108 (refuted).** `minimize_primal_dual` with its line search and default step sizes, on `min 0` subject to `10 x = 0` from `x0 = 1` (the solution is `0`, with
dual solution `0`), any tolerance up to 1 and any number of iterations: all line searches accept, the run never reports success and the returned point
is at least `21^max_iter`. -/
theorem C108_refuted {tol : ℝ} (htol : tol ≤ 1) (m : ℕ) : ∃ res, minimizePrimalDual (pdTen tol (m + 1)) = some (.ok res) ∧ res.success = false ∧ res.nit = m ∧
    21 ^ (m + 1) ≤ |res.x| := by
  obtain ⟨s, hs⟩ := ten_run tol (m + 1)
  have hs0 : s 0 = pdInit (pdTen tol (m + 1)) := (Option.some.inj (hs 0).1).symm
  have hnd : ∀ k, ¬pdDone (pdTen tol (m + 1)) (s k) := by
    have hn : ∀ k, ∀ c, (s k).normIncr = some c → 1 ≤ c := by
      intro k
      induction k with
      | zero => rw [hs0]; intro c hc; cases hc
      | succ k ih =>
        intro c hc
        rw [(hs k).2.2.2.2] at hc
        split at hc
        · have h1 := Option.some.inj hc
          rw [← h1]
          have h2 := (hs k).2.2.2.1
          have h3 := (hs k).2.1.pos
          have h4 := abs_sub_abs_le_abs_sub (s (k + 1)).x (s k).x
          have h5 := abs_nonneg ((s (k + 1)).y - (s k).y)
          linarith
        · exact ih c hc
    rintro k ⟨c, hc, hlt⟩
    have := hn k c hc
    change c < tol at hlt
    linarith
  obtain ⟨r, hr, -, hr2, hr3, -, hr5⟩ := pdLoop_iter (fun k => (hs k).1) m 0
  rw [hs0] at hr
  obtain ⟨res, hrun, e1, e2, e3, e4, e5⟩ : ∃ res, minimizePrimalDual (pdTen tol (m + 1)) = some (.ok res) ∧ res.x = r.1.x ∧ res.why = r.2.2 ∧ res.nit = r.2.1 ∧
      res.final = r.1 ∧ (res.success = true ↔ r.2.2 = .success) := by
    unfold minimizePrimalDual
    rw [if_neg (by norm_num [pdTen]), show (pdTen tol (m + 1)).maxIter = m + 1 from rfl]
    simp only
    rw [hr]
    exact ⟨_, rfl, rfl, rfl, rfl, rfl, by simp⟩
  have hns : r.2.2 ≠ .success := by
    intro hc
    obtain ⟨-, -, h3, -, h5, -⟩ := pd_run hrun
    obtain ⟨-, h6, h7⟩ := h5 (e2.trans hc)
    refine hnd (r.2.1 + 1) ?_
    rw [← hr3, ← e4]
    exact ⟨_, h3.symm.trans h6, h7⟩
  obtain ⟨h1, -⟩ := hr5 rfl hns
  refine ⟨res, hrun, ?_, by omega, ?_⟩
  · rw [Bool.eq_false_iff]
    exact fun h => hns (e5.mp h)
  · rw [e1, hr3, h1, Nat.zero_add]
    exact (hs (m + 1)).2.2.1

/-- The problem of `C108_refuted` is well posed: exact proximal operators, a saddle point. -/
example (tol : ℝ) (m : ℕ) : PDOk (pdTen tol m) (10 • LinearMap.id) (10 • LinearMap.id) ∧ IsProxOf (ExtFun.zero : ExtFun ℝ) (pdTen tol m).p1 ∧
    IsProxOf (.indicator {(0 : ℝ)}) (pdTen tol m).p2 ∧ IsSubgrad (.indicator {(0 : ℝ)}) 0 0 ∧ IsSubgrad (ExtFun.zero : ExtFun ℝ) 0 0 := by
  refine ⟨pdTen_ok tol m, isProxOf_zero, fun x s hs => ⟨rfl, fun y hy => ?_⟩, ⟨rfl, fun y _ => ?_⟩, ⟨trivial, fun y _ => ?_⟩⟩
  · have : y = 0 := hy
    rw [this]; exact le_rfl
  · show (0 : ℝ) + ⟪(0 : ℝ), y - 0⟫_ℝ ≤ 0; simp
  · show (0 : ℝ) + ⟪(0 : ℝ), y - 0⟫_ℝ ≤ 0; simp

/-! ### With an operator that neither expands nor collapses -/

section General
variable {E F : Type} [NormedAddCommGroup E] [InnerProductSpace ℝ E] [NormedAddCommGroup F] [InnerProductSpace ℝ F]

/-- How far `h` lies above its linearisation at `z` with slope `y`, at the point `p`. -/
noncomputable def subSlack (H : ExtFun F) (p z y : F) : ℝ := H.val p - H.val z - ⟪y, p - z⟫_ℝ

theorem subSlack_nonneg {H : ExtFun F} {p z y : F} (h : IsSubgrad H z y) (hp : p ∈ H.dom) : 0 ≤ subSlack H p z y := by
  have := h.2 p hp
  unfold subSlack; linarith

/-- One iteration of the primal-dual method with line search (Malitsky and Pock): the steps `τ'` and `τ = θ τ'`, the dual points `y0`, `y1`, `y2` and
the primal points `x1`, `x2`. -/
theorem pd_search_step {M : E →ₗ[ℝ] F} {Mt : F →ₗ[ℝ] E} (hadj : ∀ x y, ⟪M x, y⟫_ℝ = ⟪x, Mt y⟫_ℝ) {G : ExtFun E} {H : ExtFun F}
    {f : E → ℝ} {g : E → E} (hf : ConvexGrad f g) {τ τ' θ β : ℝ} (hτ : 0 < τ) (hτ' : 0 < τ') (hβ : 0 < β) (hθ : θ = τ / τ')
    {x1 x2 xs : E} {y0 y1 y2 ys z0 z1 z2 : F} (hz1 : z1 = τ'⁻¹ • (y0 - y1) + M x1) (hz2 : z2 = τ⁻¹ • (y1 - y2) + M x2)
    (h0 : IsSubgrad H z0 y0) (h1 : IsSubgrad H z1 y1) (h2 : IsSubgrad H z2 y2) (hys : IsSubgrad H (M xs) ys)
    (hp : IsSubgrad G x2 ((β * τ)⁻¹ • (x1 - x2) - Mt (y1 + θ • (y1 - y0)) - g x1)) (hxs : IsSubgrad G xs (-Mt ys - g xs))
    (htest : 1 / 2 * τ ^ 2 * ‖M (x2 - x1)‖ ^ 2 + τ * (f x2 - f x1 - ⟪g x1, x2 - x1⟫_ℝ) ≤ ‖x2 - x1‖ ^ 2 / (4 * β)) :
    1 / 2 * ‖y2 - ys‖ ^ 2 + ‖x2 - xs‖ ^ 2 / (2 * β) + τ * (1 + θ) * subSlack H (M xs) z1 y1 + 1 / 2 * θ ^ 2 * ‖y1 - y0‖ ^ 2 + ‖x2 - x1‖ ^ 2 / (4 * β) ≤
      1 / 2 * ‖y1 - ys‖ ^ 2 + ‖x1 - xs‖ ^ 2 / (2 * β) + τ * θ * subSlack H (M xs) z0 y0 := by
  have hθ0 : 0 < θ := by rw [hθ]; positivity
  -- the four inequalities
  have iA := hys.2 z2 h2.1
  have iB := h2.2 z1 h1.1
  have iC := h0.2 z1 h1.1
  have iD1 := hp.2 xs hxs.1
  have iD2 := hxs.2 x2 hp.1
  have iD3 := hf x1 xs
  have iD4 := hf xs x2
  -- the primal side
  have hD : τ * ⟪M (x2 - xs), y1 + θ • (y1 - y0) - ys⟫_ℝ ≤ β⁻¹ * ⟪x1 - x2, x2 - xs⟫_ℝ + τ * (f x2 - f x1 - ⟪g x1, x2 - x1⟫_ℝ) := by
    have e1 : ⟪(β * τ)⁻¹ • (x1 - x2) - Mt (y1 + θ • (y1 - y0)) - g x1, xs - x2⟫_ℝ =
        -((β * τ)⁻¹ * ⟪x1 - x2, x2 - xs⟫_ℝ) + ⟪M (x2 - xs), y1 + θ • (y1 - y0)⟫_ℝ + ⟪g x1, x2 - x1⟫_ℝ - ⟪g x1, xs - x1⟫_ℝ := by
      rw [hadj, show xs - x2 = -(x2 - xs) by abel, inner_neg_right, inner_sub_left, inner_sub_left, inner_smul_left, real_inner_comm (Mt _) (x2 - xs)]
      simp only [conj_trivial]
      have : ⟪g x1, x2 - xs⟫_ℝ = ⟪g x1, x2 - x1⟫_ℝ - ⟪g x1, xs - x1⟫_ℝ := by rw [← inner_sub_right]; congr 1; abel
      rw [this]; ring
    have e2 : ⟪-Mt ys - g xs, x2 - xs⟫_ℝ = -⟪M (x2 - xs), ys⟫_ℝ - ⟪g xs, x2 - xs⟫_ℝ := by
      rw [hadj, inner_sub_left, inner_neg_left, real_inner_comm (Mt _)]
    rw [e1] at iD1
    rw [e2] at iD2
    have h3 : ⟪M (x2 - xs), y1 + θ • (y1 - y0) - ys⟫_ℝ ≤ (β * τ)⁻¹ * ⟪x1 - x2, x2 - xs⟫_ℝ + (f x2 - f x1 - ⟪g x1, x2 - x1⟫_ℝ) := by
      rw [inner_sub_right]; linarith
    have h4 := mul_le_mul_of_nonneg_left h3 hτ.le
    have e3 : τ * ((β * τ)⁻¹ * ⟪x1 - x2, x2 - xs⟫_ℝ) = β⁻¹ * ⟪x1 - x2, x2 - xs⟫_ℝ := by field_simp
    rw [mul_add, e3] at h4
    exact h4
  -- the dual side
  have hz2' : τ • z2 = (y1 - y2) + τ • M x2 := by rw [hz2, smul_add, smul_smul, mul_inv_cancel₀ hτ.ne', one_smul]
  have hz1' : τ • z1 = θ • (y0 - y1) + τ • M x1 := by
    rw [hz1, smul_add, smul_smul, hθ, div_eq_mul_inv]
  have hθτ : τ = θ * τ' := by rw [hθ]; field_simp
  have hdual : τ * ((1 + θ) * subSlack H (M xs) z1 y1 - θ * subSlack H (M xs) z0 y0) + τ * ⟪M xs, y1 + θ • (y1 - y0) - ys⟫_ℝ ≤
      ⟪τ • z2, y2 - ys⟫_ℝ - ⟪τ • z1, y2 - (y1 + θ • (y1 - y0))⟫_ℝ := by
    rw [inner_smul_left, inner_smul_left]
    simp only [conj_trivial]
    rw [← mul_add, ← mul_sub]
    refine mul_le_mul_of_nonneg_left ?_ hτ.le
    have iC' := mul_le_mul_of_nonneg_left iC hθ0.le
    unfold subSlack
    simp only [inner_sub_right, inner_add_right, inner_smul_right, real_inner_comm z2 _, real_inner_comm z1 _, real_inner_comm z0 _] at iA iB iC' ⊢
    simp only [real_inner_comm _ z2, real_inner_comm _ z1, real_inner_comm _ z0, real_inner_comm _ (M xs)] at iA iB iC' ⊢
    linarith
  rw [hz2', hz1'] at hdual
  set yb := y1 + θ • (y1 - y0) with hyb
  have e1 : θ • (y0 - y1) = y1 - yb := by rw [hyb]; module
  rw [e1, inner_add_left, inner_add_left, inner_smul_left, inner_smul_left] at hdual
  simp only [conj_trivial] at hdual
  have hyo : τ * ⟪M (x2 - x1), y2 - yb⟫_ℝ ≤ 1 / 2 * τ ^ 2 * ‖M (x2 - x1)‖ ^ 2 + 1 / 2 * ‖y2 - yb‖ ^ 2 := by
    have h3 : 0 ≤ ‖τ • M (x2 - x1) - (y2 - yb)‖ ^ 2 := sq_nonneg _
    rw [norm_sub_sq_real, inner_smul_left, norm_smul, mul_pow, Real.norm_eq_abs, sq_abs] at h3
    simp only [conj_trivial] at h3
    linarith
  have eM : τ * ⟪M x2, y2 - ys⟫_ℝ - τ * ⟪M x1, y2 - yb⟫_ℝ - τ * ⟪M xs, yb - ys⟫_ℝ - τ * ⟪M (x2 - xs), yb - ys⟫_ℝ = τ * ⟪M (x2 - x1), y2 - yb⟫_ℝ := by
    rw [map_sub, map_sub]
    simp only [inner_sub_left, inner_sub_right]
    ring
  have e2 : ⟪y1 - yb, y2 - yb⟫_ℝ = 1 / 2 * (‖y1 - yb‖ ^ 2 + ‖y2 - yb‖ ^ 2 - ‖y1 - y2‖ ^ 2) := by
    rw [show y1 - y2 = (y1 - yb) - (y2 - yb) by abel, norm_sub_sq_real (y1 - yb) (y2 - yb)]; ring
  have e3 : ⟪y1 - y2, y2 - ys⟫_ℝ = 1 / 2 * (‖y1 - ys‖ ^ 2 - ‖y1 - y2‖ ^ 2 - ‖y2 - ys‖ ^ 2) := by
    rw [show y1 - ys = (y1 - y2) + (y2 - ys) by abel, norm_add_sq_real]; ring
  have e4 : ⟪x1 - x2, x2 - xs⟫_ℝ = 1 / 2 * (‖x1 - xs‖ ^ 2 - ‖x2 - x1‖ ^ 2 - ‖x2 - xs‖ ^ 2) := by
    rw [show x1 - xs = (x1 - x2) + (x2 - xs) by abel, norm_add_sq_real, norm_sub_rev x2 x1]; ring
  have e5 : ‖y1 - yb‖ ^ 2 = θ ^ 2 * ‖y1 - y0‖ ^ 2 := by
    rw [← e1, norm_smul, mul_pow, Real.norm_eq_abs, sq_abs, norm_sub_rev]
  rw [e2, e3, e5] at hdual
  rw [e4] at hD
  have e6 : β⁻¹ * (1 / 2 * (‖x1 - xs‖ ^ 2 - ‖x2 - x1‖ ^ 2 - ‖x2 - xs‖ ^ 2)) =
      ‖x1 - xs‖ ^ 2 / (2 * β) - 2 * (‖x2 - x1‖ ^ 2 / (4 * β)) - ‖x2 - xs‖ ^ 2 / (2 * β) := by field_simp; ring
  rw [e6] at hD
  have e7 : τ * ((1 + θ) * subSlack H (M xs) z1 y1 - θ * subSlack H (M xs) z0 y0) =
      τ * (1 + θ) * subSlack H (M xs) z1 y1 - τ * θ * subSlack H (M xs) z0 y0 := by ring
  rw [e7] at hdual
  linarith

/-- The line search of one iteration: the accepted candidate `t`, when the point moved by more than `1e-10`. -/
theorem pd_search_spec {P : PDArgs E F} {M : E →ₗ[ℝ] F} {Mt : F →ₗ[ℝ] E} (h : PDOk P M Mt) (hls : P.lineSearch = true) {st st' : PDState E F} {it : ℕ}
    (hg : PDGood P st) (hn : pdNext P it st = some st') :
    ∃ t, 0 < t ∧ t ≤ st.tau * (1 + Real.sqrt (1 + st.theta)) / 2 ∧ st'.theta = t / st.tau ∧ st'.sigma = P.ratio * t ∧ st'.x = pdTrial P st st'.y t ∧
      st'.y = prox2Conj P.p2 (st.y + st.tau • P.matvec st.x) st.tau ∧
      st'.normIncr = (if it % 100 = 0 then some (‖st'.x - st.x‖ + ‖st'.y - st.y‖) else st.normIncr) ∧
      (1 / 10 ^ 10 < ‖M st'.x - M st.x‖ → st'.tau = t ∧ pdAccept P st st'.y t ∧
        (t = st.tau * (1 + Real.sqrt (1 + st.theta)) / 2 ∨ ¬pdAccept P st st'.y (t * (10 / 9)))) := by
  unfold pdNext at hn
  rw [Option.map_eq_some_iff] at hn
  obtain ⟨r, hr, rfl⟩ := hn
  unfold pdStep at hr
  simp only at hr
  rw [if_pos hls] at hr
  set yN := prox2Conj P.p2 (st.y + st.tau • P.matvec st.x) st.tau with hyN
  set T := st.tau * (1 + Real.sqrt (1 + st.theta)) / 2 with hT
  have hT0 : 0 < T := by
    have := hg.tau
    have := Real.sqrt_nonneg (1 + st.theta)
    rw [hT]; positivity
  unfold pdSearch at hr
  split at hr
  · rename_i hex
    classical
    obtain ⟨n, hn, hspec, hmin⟩ : ∃ n : ℕ, n = Nat.find hex ∧ (pdTiny P st yN (T * (9 / 10) ^ n) ∨ pdAccept P st yN (T * (9 / 10) ^ n)) ∧
        ∀ k < n, ¬(pdTiny P st yN (T * (9 / 10) ^ k) ∨ pdAccept P st yN (T * (9 / 10) ^ k)) := ⟨_, rfl, Nat.find_spec hex, fun k hk => Nat.find_min hex hk⟩
    have hr' := Option.some.inj hr
    have e : r = { xNext := pdTrial P st yN (T * (9 / 10) ^ n), yNext := yN, theta := T * (9 / 10) ^ n / st.tau,
                   tau := if pdTiny P st yN (T * (9 / 10) ^ n) then st.tau else T * (9 / 10) ^ n, sigma := P.ratio * (T * (9 / 10) ^ n) } := by
      rw [← hr', hn]
    clear_value T yN
    subst e
    refine ⟨T * (9 / 10) ^ n, by positivity, ?_, rfl, rfl, rfl, rfl, rfl, fun hmove => ?_⟩
    · have := pow_le_one₀ (n := n) (show (0 : ℝ) ≤ 9 / 10 by norm_num) (by norm_num)
      nlinarith
    · simp only at hmove ⊢
      have hnt : ¬pdTiny P st yN (T * (9 / 10) ^ n) := by
        intro hc
        unfold pdTiny pdIncr at hc
        rw [h.matvec] at hc
        linarith
      refine ⟨if_neg hnt, hspec.resolve_left hnt, ?_⟩
      cases n with
      | zero => left; rw [pow_zero, mul_one]
      | succ n =>
        right
        have := hmin n (by omega)
        rw [show T * (9 / 10) ^ (n + 1) * (10 / 9) = T * (9 / 10) ^ n by rw [pow_succ]; ring]
        exact fun hc => this (Or.inr hc)
  · cases hr

/-- Candidates below `that` are accepted. -/
theorem pd_accepts {P : PDArgs E F} {M : E →ₗ[ℝ] F} {Mt : F →ₗ[ℝ] E} (h : PDOk P M Mt) {f : E → ℝ} {g : E → E} (hfg : P.fg = fun x => (f x, g x))
    {Lf m : ℝ} (hL : 0 ≤ Lf) (hq : UpperQuad f g Lf) (hm : 0 < m) (hlow : ∀ x, m * ‖x‖ ≤ ‖M x‖) {st : PDState E F} (hg : PDGood P st) (y : F) {that t : ℝ}
    (hthat : P.ratio * that ^ 2 + P.ratio * that * (Lf / m ^ 2) ≤ 1 / 2) (ht0 : 0 < t) (ht : t ≤ that) : pdAccept P st y t := by
  have hr := h.ratio_pos
  unfold pdAccept
  simp only
  set x' := pdTrial P st y t with hx'
  have hinc : pdIncr P st x' = ‖M (x' - st.x)‖ := by unfold pdIncr; rw [h.matvec, map_sub]
  rw [hinc, hg.fk, hg.grad, hfg]
  simp only
  have h1 := hq st.x x'
  have h2 := hlow (x' - st.x)
  set d := ‖x' - st.x‖ with hd
  set q := ‖M (x' - st.x)‖ with hqd
  have h3 : d ^ 2 ≤ q ^ 2 / m ^ 2 := by
    rw [le_div_iff₀ (by positivity), ← mul_pow, mul_comm d m]
    exact pow_le_pow_left₀ (by positivity) h2 2
  have h4 : f x' - f st.x - ⟪g st.x, x' - st.x⟫_ℝ ≤ Lf / 2 * (q ^ 2 / m ^ 2) := by
    have := mul_le_mul_of_nonneg_left h3 (show 0 ≤ Lf / 2 by linarith)
    linarith
  have h5 := mul_le_mul_of_nonneg_left h4 (show 0 ≤ 2 * (P.ratio * t) by positivity)
  have h6 : P.ratio * t ^ 2 + P.ratio * t * (Lf / m ^ 2) ≤ 1 / 2 := by
    have a1 : P.ratio * t ^ 2 ≤ P.ratio * that ^ 2 := mul_le_mul_of_nonneg_left (pow_le_pow_left₀ ht0.le ht 2) hr.le
    have a2 : P.ratio * t * (Lf / m ^ 2) ≤ P.ratio * that * (Lf / m ^ 2) :=
      mul_le_mul_of_nonneg_right (mul_le_mul_of_nonneg_left ht hr.le) (by positivity)
    linarith
  have h7 := mul_le_mul_of_nonneg_right h6 (sq_nonneg q)
  rw [div_le_iff₀ (by norm_num)]
  have e : 2 * (P.ratio * t) * (Lf / 2 * (q ^ 2 / m ^ 2)) = P.ratio * t * (Lf / m ^ 2) * q ^ 2 := by ring
  rw [e] at h5
  have e2 : (P.ratio * t ^ 2 + P.ratio * t * (Lf / m ^ 2)) * q ^ 2 = P.ratio * t * t * q ^ 2 + P.ratio * t * (Lf / m ^ 2) * q ^ 2 := by ring
  linarith

/-- The problems treated here. -/
structure PDSearchOk (P : PDArgs E F) (M : E →ₗ[ℝ] F) (Mt : F →ₗ[ℝ] E) (G : ExtFun E) (H : ExtFun F) (f : E → ℝ) (g : E → E) (Lf m : ℝ) : Prop where
  ok : PDOk P M Mt
  search : P.lineSearch = true
  convG : G.IsConvex
  prox1 : IsProxOf G P.p1
  convH : H.IsConvex
  prox2 : IsProxOf H P.p2
  oracle : P.fg = fun x => (f x, g x)
  convex : ConvexGrad f g
  lip : 0 ≤ Lf
  upper : UpperQuad f g Lf
  low : 0 < m
  lower : ∀ x, m * ‖x‖ ≤ ‖M x‖
  norm : ∀ x, ‖M x‖ ≤ ‖x‖

/-- The run never blocks. -/
theorem pd_search_next {P : PDArgs E F} {M : E →ₗ[ℝ] F} {Mt : F →ₗ[ℝ] E} {G : ExtFun E} {H : ExtFun F} {f : E → ℝ} {g : E → E} {Lf m : ℝ}
    (h : PDSearchOk P M Mt G H f g Lf m) (it : ℕ) {st : PDState E F} (hg : PDGood P st) : ∃ st', pdNext P it st = some st' ∧ PDGood P st' := by
  have : ∃ r, pdStep P st = some r := by
    unfold pdStep
    simp only
    rw [if_pos h.search]
    unfold pdSearch
    have hT : 0 < st.tau * (1 + Real.sqrt (1 + st.theta)) / 2 := by
      have := hg.tau
      have := Real.sqrt_nonneg (1 + st.theta)
      positivity
    rw [dif_pos (C55_search h.ok h.convG h.prox1 h.oracle h.lip h.upper hg _ hT)]
    exact ⟨_, rfl⟩
  obtain ⟨r, hr⟩ := this
  refine ⟨_, by unfold pdNext; rw [hr]; rfl, ?_⟩
  exact pdNext_good (it := it) h.ok hg (by unfold pdNext; rw [hr]; rfl)

/-- What one iteration gives. -/
theorem pd_search_iter {P : PDArgs E F} {M : E →ₗ[ℝ] F} {Mt : F →ₗ[ℝ] E} {G : ExtFun E} {H : ExtFun F} {f : E → ℝ} {g : E → E} {Lf m : ℝ}
    (h : PDSearchOk P M Mt G H f g Lf m) {it : ℕ} {st st' : PDState E F} (hg : PDGood P st) (hθ : st.theta ≤ 5 / 4) (hn : pdNext P it st = some st')
    {that : ℝ} (hthat : P.ratio * that ^ 2 + P.ratio * that * (Lf / m ^ 2) ≤ 1 / 2) :
    st'.theta ≤ 5 / 4 ∧ IsSubgrad H (st.tau⁻¹ • (st.y - st'.y) + M st.x) st'.y ∧
    IsSubgrad G st'.x (st'.sigma⁻¹ • (st.x - st'.x) - Mt (st'.y + st'.theta • (st'.y - st.y)) - g st.x) ∧
    st'.normIncr = (if it % 100 = 0 then some (‖st'.x - st.x‖ + ‖st'.y - st.y‖) else st.normIncr) ∧
    (1 / 10 ^ 10 < ‖M st'.x - M st.x‖ → st'.sigma = P.ratio * st'.tau ∧ st'.theta = st'.tau / st.tau ∧ min st.tau (9 / 10 * that) ≤ st'.tau ∧
      P.ratio * st'.tau ^ 2 ≤ 1 / 2 ∧ st'.tau * st'.theta ≤ st.tau * (1 + st.theta) ∧
      1 / 2 * st'.tau ^ 2 * ‖M (st'.x - st.x)‖ ^ 2 + st'.tau * (f st'.x - f st.x - ⟪g st.x, st'.x - st.x⟫_ℝ) ≤ ‖st'.x - st.x‖ ^ 2 / (4 * P.ratio)) := by
  obtain ⟨t, ht0, htT, eθ, eσ, ex, ey, en, hmv⟩ := pd_search_spec h.ok h.search hg hn
  have hr := h.ok.ratio_pos
  have hτ := hg.tau
  have hθ0 := hg.theta
  set S := Real.sqrt (1 + st.theta) with hS
  have hS2 : S ^ 2 = 1 + st.theta := Real.sq_sqrt (by linarith)
  have hS1 : 1 ≤ S := Real.one_le_sqrt.mpr (by linarith)
  have hS3 : S ≤ 3 / 2 := by nlinarith
  have hθ1 : t / st.tau ≤ (1 + S) / 2 := by rw [div_le_iff₀ hτ]; linarith
  refine ⟨by rw [eθ]; linarith, ?_, ?_, en, fun hmove => ?_⟩
  · have hm := (C53_moreau h.convH h.prox2 (st.y + st.tau • P.matvec st.x) hg.tau).1
    rw [← ey, h.ok.matvec] at hm
    convert hm using 1
    rw [show st.y + st.tau • M st.x - st'.y = (st.y - st'.y) + st.tau • M st.x by abel, smul_add, smul_smul, inv_mul_cancel₀ hτ.ne', one_smul]
  · have hσ : 0 < P.ratio * t := by positivity
    have hpr := (h.prox1 (st.x - (P.ratio * t) • (P.rmatvec (st'.y + (t / st.tau) • (st'.y - st.y)) + st.grad)) (P.ratio * t) hσ).subgrad h.convG hσ
    have e1 : P.p1 (st.x - (P.ratio * t) • (P.rmatvec (st'.y + (t / st.tau) • (st'.y - st.y)) + st.grad)) (P.ratio * t) = st'.x := ex.symm
    rw [e1, h.ok.rmatvec, hg.grad, h.oracle] at hpr
    rw [eσ, eθ]
    convert hpr using 1
    simp only
    rw [show st.x - (P.ratio * t) • (Mt (st'.y + (t / st.tau) • (st'.y - st.y)) + g st.x) - st'.x =
        (st.x - st'.x) + (P.ratio * t) • (-(Mt (st'.y + (t / st.tau) • (st'.y - st.y)) + g st.x)) by module, smul_add, smul_smul,
      inv_mul_cancel₀ hσ.ne', one_smul]
    abel
  · obtain ⟨et, hacc, hrej⟩ := hmv hmove
    have hacc' := hacc
    unfold pdAccept at hacc'
    simp only at hacc'
    rw [← ex, hg.fk, hg.grad, h.oracle, div_le_iff₀ (by norm_num)] at hacc'
    simp only at hacc'
    have hinc : pdIncr P st st'.x = ‖M (st'.x - st.x)‖ := by unfold pdIncr; rw [h.ok.matvec, map_sub]
    rw [hinc] at hacc'
    have hD0 := h.convex st.x st'.x
    have hnM := h.norm (st'.x - st.x)
    have hq0 : 0 < ‖M (st'.x - st.x)‖ := by rw [map_sub]; exact lt_trans (by positivity) hmove
    set q := ‖M (st'.x - st.x)‖ with hq
    set D := f st'.x - f st.x - ⟪g st.x, st'.x - st.x⟫_ℝ with hD
    have hD1 : 0 ≤ D := by rw [hD]; linarith
    refine ⟨by rw [eσ, et], by rw [eθ, et], ?_, ?_, ?_, ?_⟩
    · rw [et]
      rcases hrej with e | hrej
      · refine (min_le_left _ _).trans ?_
        rw [e]; nlinarith
      · refine (min_le_right _ _).trans ?_
        by_contra hc
        push Not at hc
        exact hrej (pd_accepts h.ok h.oracle h.lip h.upper h.low h.lower hg _ hthat (by linarith) (by linarith))
    · rw [et]
      have h1 : 0 ≤ 2 * (P.ratio * t) * D := by positivity
      have h2 : P.ratio * t ^ 2 * q ^ 2 ≤ 1 / 2 * q ^ 2 := by
        have : P.ratio * t * t * q ^ 2 = P.ratio * t ^ 2 * q ^ 2 := by ring
        linarith
      exact le_of_mul_le_mul_right h2 (by positivity)
    · rw [et, eθ]
      have h1 : t / st.tau * (t / st.tau) ≤ (1 + st.theta) := by
        have : 0 < t / st.tau := by positivity
        have h2 : t / st.tau ≤ S := by linarith
        rw [← hS2]; nlinarith
      have h2 := mul_le_mul_of_nonneg_left h1 hτ.le
      have e : st.tau * (t / st.tau * (t / st.tau)) = t * (t / st.tau) := by field_simp
      linarith
    · rw [et, le_div_iff₀ (by positivity)]
      have h1 : q ^ 2 ≤ ‖st'.x - st.x‖ ^ 2 := pow_le_pow_left₀ (norm_nonneg _) hnM 2
      have e : (1 / 2 * t ^ 2 * q ^ 2 + t * D) * (4 * P.ratio) = 2 * (P.ratio * t * t * q ^ 2 + 2 * (P.ratio * t) * D) := by ring
      rw [e]
      linarith

/-- A step below which every candidate is accepted. -/
theorem exists_that {r a : ℝ} (hr : 0 < r) (ha : 0 ≤ a) : ∃ t : ℝ, 0 < t ∧ r * t ^ 2 + r * t * a ≤ 1 / 2 := by
  refine ⟨min 1 (1 / (2 * r * (1 + a))), lt_min one_pos (by positivity), ?_⟩
  set t := min 1 (1 / (2 * r * (1 + a))) with ht
  have h0 : 0 < t := lt_min one_pos (by positivity)
  have h1 : t ≤ 1 := min_le_left _ _
  have h2 : t ≤ 1 / (2 * r * (1 + a)) := min_le_right _ _
  rw [le_div_iff₀ (by positivity)] at h2
  have h3 : t ^ 2 ≤ t := by nlinarith
  have h4 := mul_le_mul_of_nonneg_left h3 hr.le
  linarith

/-- The infinite run. -/
theorem pd_search_run {P : PDArgs E F} {M : E →ₗ[ℝ] F} {Mt : F →ₗ[ℝ] E} {G : ExtFun E} {H : ExtFun F} {f : E → ℝ} {g : E → E} {Lf m : ℝ}
    (h : PDSearchOk P M Mt G H f g Lf m) : ∃ s : ℕ → PDState E F, s 0 = pdInit P ∧ (∀ k, pdIter P k = some (s k)) ∧ (∀ k, pdNext P k (s k) = some (s (k + 1))) ∧
      (∀ k, PDGood P (s k)) ∧ ∀ k, (s k).theta ≤ 5 / 4 := by
  obtain ⟨that, h0, h1⟩ := exists_that h.ok.ratio_pos (show 0 ≤ Lf / m ^ 2 from div_nonneg h.lip (sq_nonneg _))
  have hex : ∀ k, ∃ st, pdIter P k = some st ∧ PDGood P st ∧ st.theta ≤ 5 / 4 := by
    intro k
    induction k with
    | zero => exact ⟨pdInit P, rfl, pdInit_good h.ok, by show (1 : ℝ) ≤ 5 / 4; norm_num⟩
    | succ k ih =>
      obtain ⟨st, hk, hg, hθ⟩ := ih
      obtain ⟨st', hn, hg'⟩ := pd_search_next h k hg
      exact ⟨st', by rw [pdIter, hk]; exact hn, hg', (pd_search_iter h hg hθ hn h1).1⟩
  choose s hs using hex
  refine ⟨s, (Option.some.inj (hs 0).1).symm, fun k => (hs k).1, fun k => ?_, fun k => (hs k).2.1, fun k => (hs k).2.2⟩
  have := (hs (k + 1)).1
  rw [pdIter, (hs k).1] at this
  exact this

/-- **C108 (descent).** While every iteration moves `L x` by more than `1e-10`: the step sizes stay above a positive number, the iterates stay bounded and
the squared moves have a bounded sum, the three bounds being independent of the number of iterations. -/
theorem C108_moves_partial {P : PDArgs E F} {M : E →ₗ[ℝ] F} {Mt : F →ₗ[ℝ] E} {G : ExtFun E} {H : ExtFun F} {f : E → ℝ} {g : E → E} {Lf m : ℝ}
    (h : PDSearchOk P M Mt G H f g Lf m) {xs : E} {ys : F} (hys : IsSubgrad H (M xs) ys) (hxs : IsSubgrad G xs (-Mt ys - g xs))
    {s : ℕ → PDState E F} (hs0 : s 0 = pdInit P) (hs : ∀ k, pdNext P k (s k) = some (s (k + 1))) (hg : ∀ k, PDGood P (s k)) (hθ : ∀ k, (s k).theta ≤ 5 / 4) :
    ∃ τm κ C : ℝ, 0 < τm ∧ 0 < κ ∧ 0 ≤ C ∧ ∀ n, (∀ k < n, 1 / 10 ^ 10 < ‖M (s (k + 1)).x - M (s k).x‖) →
      (∀ k ≤ n, τm ≤ (s k).tau) ∧ (∀ k ≤ n, ‖(s k).x - xs‖ ^ 2 ≤ C) ∧
      κ * ∑ i ∈ Finset.range n, (‖(s (i + 1)).x - (s i).x‖ ^ 2 + ‖(s (i + 1)).y - (s i).y‖ ^ 2) ≤ C := by
  obtain ⟨that, h0, h1⟩ := exists_that h.ok.ratio_pos (show 0 ≤ Lf / m ^ 2 from div_nonneg h.lip (sq_nonneg _))
  have hr := h.ok.ratio_pos
  have hτ0 := h.ok.tau0_pos
  have hit := fun k => pd_search_iter h (hg k) (hθ k) (hs k) h1
  set τm := min P.tau0 (9 / 10 * that) with hτm
  set τM := max P.tau0 (Real.sqrt (1 / (2 * P.ratio))) with hτM
  have hτm0 : 0 < τm := lt_min hτ0 (by positivity)
  have hτM0 : 0 < τM := lt_of_lt_of_le hτ0 (le_max_left _ _)
  set κ := min (1 / 2 * (τm / τM) ^ 2) (1 / (4 * P.ratio)) with hκ
  have hκ0 : 0 < κ := lt_min (by positivity) (by positivity)
  let z : ℕ → F := fun k => (s k).tau⁻¹ • ((s k).y - (s (k + 1)).y) + M (s k).x
  have hz : ∀ k, IsSubgrad H (z k) (s (k + 1)).y := fun k => (hit k).2.1
  let V : ℕ → ℝ := fun k => 1 / 2 * ‖(s (k + 2)).y - ys‖ ^ 2 + ‖(s (k + 1)).x - xs‖ ^ 2 / (2 * P.ratio) +
    (s (k + 1)).tau * (1 + (s (k + 1)).theta) * subSlack H (M xs) (z k) (s (k + 1)).y
  have hV : ∀ k, ‖(s (k + 1)).x - xs‖ ^ 2 / (2 * P.ratio) ≤ V k := by
    intro k
    have h2 := subSlack_nonneg (hz k) hys.1
    have h3 := (hg (k + 1)).tau
    have h4 := (hg (k + 1)).theta
    have h5 : 0 ≤ (s (k + 1)).tau * (1 + (s (k + 1)).theta) * subSlack H (M xs) (z k) (s (k + 1)).y := by positivity
    have h6 : 0 ≤ 1 / 2 * ‖(s (k + 2)).y - ys‖ ^ 2 := by positivity
    show _ ≤ 1 / 2 * ‖(s (k + 2)).y - ys‖ ^ 2 + _ + _
    linarith
  have hV0 : ∀ k, 0 ≤ V k := fun k => le_trans (by positivity) (hV k)
  let d : ℕ → ℝ := fun i => ‖(s (i + 1)).x - (s i).x‖ ^ 2 + ‖(s (i + 1)).y - (s i).y‖ ^ 2
  have hd0 : ∀ i, 0 ≤ d i := fun i => by show 0 ≤ ‖(s (i + 1)).x - (s i).x‖ ^ 2 + ‖(s (i + 1)).y - (s i).y‖ ^ 2; positivity
  refine ⟨τm, κ, V 0 + κ * d 0 + ‖(s 0).x - xs‖ ^ 2 + 2 * P.ratio * V 0, hτm0, hκ0, by
    have := hV0 0; have := hd0 0; positivity, fun n hn => ?_⟩
  have htau : ∀ k ≤ n, τm ≤ (s k).tau ∧ (s k).tau ≤ τM := by
    intro k
    induction k with
    | zero => intro _; rw [hs0]; exact ⟨min_le_left _ _, le_max_left _ _⟩
    | succ k ih =>
      intro hk
      obtain ⟨-, -, h4, h5, -⟩ := (hit k).2.2.2.2 (hn k (by omega))
      refine ⟨(le_min (ih (by omega)).1 (min_le_right _ _)).trans h4, le_trans ?_ (le_max_right _ _)⟩
      refine Real.le_sqrt_of_sq_le ?_
      rw [le_div_iff₀ (by positivity)]
      linarith
  have hstep : ∀ j, j + 1 < n → V (j + 1) + κ * d (j + 1) ≤ V j := by
    intro j hj
    obtain ⟨e1, e2, -, -, h6, h7⟩ := (hit (j + 1)).2.2.2.2 (hn (j + 1) hj)
    have hp := (hit (j + 1)).2.2.1
    rw [e1] at hp
    have h3 := pd_search_step h.ok.adjoint h.convex (hg (j + 2)).tau (hg (j + 1)).tau hr e2 (z0 := z j) (z1 := z (j + 1)) (z2 := z (j + 2)) rfl rfl
      (hz j) (hz (j + 1)) (hz (j + 2)) hys hp hxs h7
    have h8 := mul_le_mul_of_nonneg_right h6 (subSlack_nonneg (hz j) hys.1)
    have h9 : κ * d (j + 1) ≤ 1 / 2 * (s (j + 2)).theta ^ 2 * ‖(s (j + 2)).y - (s (j + 1)).y‖ ^ 2 + ‖(s (j + 2)).x - (s (j + 1)).x‖ ^ 2 / (4 * P.ratio) := by
      show κ * (‖(s (j + 2)).x - (s (j + 1)).x‖ ^ 2 + ‖(s (j + 2)).y - (s (j + 1)).y‖ ^ 2) ≤ _
      have a1 : κ ≤ 1 / 2 * (s (j + 2)).theta ^ 2 := by
        refine (min_le_left _ _).trans (mul_le_mul_of_nonneg_left (pow_le_pow_left₀ (by positivity) ?_ 2) (by norm_num))
        rw [e2]
        exact div_le_div₀ (hg (j + 2)).tau.le (htau (j + 2) (by omega)).1 (hg (j + 1)).tau (htau (j + 1) (by omega)).2
      have a2 := mul_le_mul_of_nonneg_right a1 (sq_nonneg ‖(s (j + 2)).y - (s (j + 1)).y‖)
      have a3 := mul_le_mul_of_nonneg_right (min_le_right (1 / 2 * (τm / τM) ^ 2) (1 / (4 * P.ratio))) (sq_nonneg ‖(s (j + 2)).x - (s (j + 1)).x‖)
      rw [← hκ, one_div_mul_eq_div] at a3
      linarith
    show 1 / 2 * ‖(s (j + 3)).y - ys‖ ^ 2 + ‖(s (j + 2)).x - xs‖ ^ 2 / (2 * P.ratio) +
      (s (j + 2)).tau * (1 + (s (j + 2)).theta) * subSlack H (M xs) (z (j + 1)) (s (j + 2)).y + κ * d (j + 1) ≤
      1 / 2 * ‖(s (j + 2)).y - ys‖ ^ 2 + ‖(s (j + 1)).x - xs‖ ^ 2 / (2 * P.ratio) +
        (s (j + 1)).tau * (1 + (s (j + 1)).theta) * subSlack H (M xs) (z j) (s (j + 1)).y
    linarith
  have hsum : ∀ j < n, V j + κ * ∑ i ∈ Finset.range (j + 1), d i ≤ V 0 + κ * d 0 := by
    intro j
    induction j with
    | zero => intro _; simp
    | succ j ih =>
      intro hj
      rw [Finset.sum_range_succ, mul_add]
      have h3 := hstep j hj
      have h4 := ih (by omega)
      linarith
  have hd00 : 0 ≤ κ * d 0 := mul_nonneg hκ0.le (hd0 0)
  have hV2 : 0 ≤ 2 * P.ratio * V 0 := by have := hV0 0; positivity
  refine ⟨fun k hk => (htau k hk).1, fun k hk => ?_, ?_⟩
  · cases k with
    | zero =>
      have := hV0 0
      linarith
    | succ k =>
      have hVk : V k ≤ V 0 := by
        have : ∀ j < n, V j ≤ V 0 := by
          intro j
          induction j with
          | zero => intro _; exact le_rfl
          | succ j ih =>
            intro hj
            have h3 := hstep j hj
            have h4 := ih (by omega)
            have h5 := mul_nonneg hκ0.le (hd0 (j + 1))
            linarith
        exact this k (by omega)
      have h3 := (hV k).trans hVk
      rw [div_le_iff₀ (by positivity)] at h3
      have := hV0 0
      have := sq_nonneg ‖(s 0).x - xs‖
      linarith
  · cases n with
    | zero =>
      have := hV0 0
      simp only [Finset.range_zero, Finset.sum_empty, mul_zero]
      positivity
    | succ n =>
      have h3 := hsum n (by omega)
      have := hV0 n
      have := sq_nonneg ‖(s 0).x - xs‖
      show κ * ∑ i ∈ Finset.range (n + 1), d i ≤ _
      linarith

theorem pdIter_settings (P : PDArgs E F) (tol : ℝ) (n : ℕ) : ∀ k, pdIter { P with tol := tol, maxIter := n } k = pdIter P k := by
  intro k
  induction k with
  | zero => rfl
  | succ k ih =>
    rw [pdIter, pdIter, ih]
    rfl

/-- The objective after an iteration that extrapolates by `θ`. -/
theorem pd_gap_theta {M : E →ₗ[ℝ] F} {Mt : F →ₗ[ℝ] E} (hadj : ∀ x y, ⟪M x, y⟫_ℝ = ⟪x, Mt y⟫_ℝ) {G : ExtFun E} {h : F → ℝ} {f : E → ℝ} {g : E → E}
    (hf : ConvexGrad f g) {L l σ τ θ : ℝ} (hσ : 0 < σ) (hτ : 0 < τ) (hθ : 0 ≤ θ) (hq : UpperQuad f g L) (hm : ∀ x, ‖M x‖ ≤ ‖x‖) (hl : 0 ≤ l)
    (hlip : ∀ a b, h a - h b ≤ l * ‖a - b‖) {xs : E} (hxs : xs ∈ G.dom) {x x' : E} {y y' : F}
    (hd : IsSubgrad ⟨Set.univ, h⟩ (τ⁻¹ • (y - y') + M x) y') (hp : IsSubgrad G x' (σ⁻¹ • (x - x') - Mt (y' + θ • (y' - y)) - g x)) :
    f x' + G.val x' + h (M x') - (f xs + G.val xs + h (M xs)) ≤
      σ⁻¹ * (‖x' - x‖ * ‖x' - xs‖) + θ * (‖y' - y‖ * ‖x' - xs‖) + L / 2 * ‖x' - x‖ ^ 2 + 2 * (l * (‖x' - x‖ + τ⁻¹ * ‖y' - y‖)) := by
  set w := τ⁻¹ • (y - y') + M x with hw
  have hyn := subgrad_norm_le hl hlip hd
  have i1 := hp.2 xs hxs
  have i2 := hd.2 (M xs) (Set.mem_univ _)
  simp only at i2
  have i3 := hf x xs
  have i4 := hq x x'
  have i5 := hlip (M x') w
  have e1 : ⟪σ⁻¹ • (x - x') - Mt (y' + θ • (y' - y)) - g x, xs - x'⟫_ℝ =
      σ⁻¹ * ⟪x - x', xs - x'⟫_ℝ - ⟪y' + θ • (y' - y), M (xs - x')⟫_ℝ - ⟪g x, xs - x'⟫_ℝ := by
    rw [inner_sub_left, inner_sub_left, inner_smul_left, real_inner_comm _ (Mt _), ← hadj, real_inner_comm _ (M _)]
    rfl
  rw [e1] at i1
  have e2 : ⟪y' + θ • (y' - y), M (xs - x')⟫_ℝ = ⟪y', M xs - M x'⟫_ℝ + θ * ⟪y' - y, M (xs - x')⟫_ℝ := by
    rw [inner_add_left, inner_smul_left, map_sub]; rfl
  have e3 : ⟪y', M xs - w⟫_ℝ = ⟪y', M xs - M x'⟫_ℝ + ⟪y', M x' - w⟫_ℝ := by rw [← inner_add_right]; congr 1; abel
  have e4 : ⟪g x, xs - x⟫_ℝ = ⟪g x, xs - x'⟫_ℝ + ⟪g x, x' - x⟫_ℝ := by rw [← inner_add_right]; congr 1; abel
  rw [e2] at i1
  rw [e3] at i2
  rw [e4] at i3
  have b1 : -(σ⁻¹ * ⟪x - x', xs - x'⟫_ℝ) ≤ σ⁻¹ * (‖x' - x‖ * ‖x' - xs‖) := by
    rw [← mul_neg]
    refine mul_le_mul_of_nonneg_left ?_ (by positivity)
    have := abs_real_inner_le_norm (x - x') (xs - x')
    rw [norm_sub_rev x x', norm_sub_rev xs x'] at this
    exact (neg_le_abs _).trans this
  have b2 : θ * ⟪y' - y, M (xs - x')⟫_ℝ ≤ θ * (‖y' - y‖ * ‖x' - xs‖) := by
    refine mul_le_mul_of_nonneg_left ((real_inner_le_norm _ _).trans (mul_le_mul_of_nonneg_left ?_ (norm_nonneg _))) hθ
    rw [norm_sub_rev x' xs]; exact hm _
  have hwx : ‖M x' - w‖ ≤ ‖x' - x‖ + τ⁻¹ * ‖y' - y‖ := by
    have : M x' - w = M (x' - x) + τ⁻¹ • (y' - y) := by rw [hw, map_sub, smul_sub, smul_sub]; abel
    rw [this]
    refine (norm_add_le _ _).trans (add_le_add (hm _) ?_)
    rw [norm_smul, Real.norm_eq_abs, abs_of_pos (by positivity)]
  have b3 : -⟪y', M x' - w⟫_ℝ ≤ l * ‖M x' - w‖ := by
    have h1 := (neg_le_abs _).trans (abs_real_inner_le_norm y' (M x' - w))
    exact h1.trans (mul_le_mul_of_nonneg_right hyn (norm_nonneg _))
  have hmain : f x' + G.val x' + h (M x') - (f xs + G.val xs + h (M xs)) ≤
      σ⁻¹ * (‖x' - x‖ * ‖x' - xs‖) + θ * (‖y' - y‖ * ‖x' - xs‖) + L / 2 * ‖x' - x‖ ^ 2 + 2 * (l * ‖M x' - w‖) := by
    linarith
  have := mul_le_mul_of_nonneg_left hwx hl
  linarith

/-- A run that was never done. -/
theorem pd_not_done {P : PDArgs E F} {s : ℕ → PDState E F} (hs : ∀ k, pdIter P k = some (s k)) (hcb : P.callback = none) (hlsi : 0 < P.lsIter)
    (hm : 0 < P.maxIter) : ∃ res, minimizePrimalDual P = some (.ok res) ∧ res.final = s (res.nit + 1) ∧ res.nit < P.maxIter ∧
      (res.success = true ∨ res.nit + 1 = P.maxIter ∧ ∀ i < P.maxIter, ¬pdDone P (s (i + 1))) := by
  have hs0 : s 0 = pdInit P := (Option.some.inj (hs 0)).symm
  obtain ⟨n, hn⟩ := Nat.exists_eq_add_one_of_ne_zero (show P.maxIter ≠ 0 by omega)
  obtain ⟨r, hr, -, hr2, hr3, hr4, hr5⟩ := pdLoop_iter hs n 0
  rw [hs0] at hr
  refine ⟨_, by
    unfold minimizePrimalDual
    rw [if_neg (by omega), hn]
    simp only
    rw [hr]
    rfl, hr3, by simp only; omega, ?_⟩
  simp only [decide_eq_true_eq]
  by_cases hns : r.2.2 = .success
  · exact Or.inl hns
  · obtain ⟨h1, h2⟩ := hr5 hcb hns
    refine Or.inr ⟨by omega, fun i hi => ?_⟩
    rcases Nat.lt_or_ge i r.2.1 with hlt | hge
    · exact hr4 i (Nat.zero_le _) hlt
    · have : i = r.2.1 := by omega
      rw [this, ← hr3]; exact h2

/-- Terms with a bounded sum cannot all be large at the multiples of 100. -/
theorem hundred_sum {d : ℕ → ℝ} (hd : ∀ i, 0 ≤ d i) {a C : ℝ} {K : ℕ} (hlow : ∀ j < K, a ≤ d (100 * j)) (hC : ∑ i ∈ Finset.range (100 * K), d i ≤ C) :
    K * a ≤ C := by
  refine le_trans ?_ hC
  have hsub : ∑ j ∈ Finset.range K, d (100 * j) ≤ ∑ i ∈ Finset.range (100 * K), d i := by
    rw [← Finset.sum_image (f := d) (s := Finset.range K) (g := fun j => 100 * j) (by intro a _ b _ h; simpa using h)]
    refine Finset.sum_le_sum_of_subset_of_nonneg ?_ fun i _ _ => hd i
    intro i hi
    rw [Finset.mem_image] at hi
    obtain ⟨j, hj, rfl⟩ := hi
    rw [Finset.mem_range] at hj ⊢
    omega
  refine le_trans ?_ hsub
  have := Finset.card_nsmul_le_sum (Finset.range K) (fun j => d (100 * j)) a (fun j hj => hlow j (Finset.mem_range.mp hj))
  rwa [Finset.card_range, nsmul_eq_mul] at this

/-- **C108 (success).** From a problem with a saddle point, for every `tol > 0` there is `N` such that every run with `max_iter ≥ N` returns, and either reports success or
has an iteration that moves `L x` by at most `1e-10`. -/
theorem C108_success_partial {P : PDArgs E F} {M : E →ₗ[ℝ] F} {Mt : F →ₗ[ℝ] E} {G : ExtFun E} {H : ExtFun F} {f : E → ℝ} {g : E → E} {Lf m : ℝ}
    (h : PDSearchOk P M Mt G H f g Lf m) {xs : E} {ys : F} (hys : IsSubgrad H (M xs) ys) (hxs : IsSubgrad G xs (-Mt ys - g xs))
    {s : ℕ → PDState E F} (hs : ∀ k, pdIter P k = some (s k)) (hcb : P.callback = none) (hlsi : 0 < P.lsIter) {tol : ℝ} (htol : 0 < tol) :
    ∃ N, ∀ n, N ≤ n → ∃ res, minimizePrimalDual { P with tol := tol, maxIter := n } = some (.ok res) ∧ res.final = s (res.nit + 1) ∧
      (res.success = true ∨ ∃ k ≤ res.nit, ‖M (s (k + 1)).x - M (s k).x‖ ≤ 1 / 10 ^ 10) := by
  obtain ⟨s', a0, a1, a2, a3, a4⟩ := pd_search_run h
  obtain rfl : s' = s := funext fun k => Option.some.inj ((a1 k).symm.trans (hs k))
  obtain ⟨τm, κ, C, hτm, hκ, hC, hmain⟩ := C108_moves_partial h hys hxs a0 a2 a3 a4
  obtain ⟨K, hK⟩ := exists_nat_gt (2 * C / (κ * tol ^ 2))
  rw [div_lt_iff₀ (by positivity)] at hK
  refine ⟨100 * K + 1, fun n hn => ?_⟩
  have hs' : ∀ k, pdIter { P with tol := tol, maxIter := n } k = some (s' k) := fun k => (pdIter_settings P tol n k).trans (hs k)
  obtain ⟨res, hres, hfin, hnit, hsuc⟩ := pd_not_done hs' hcb hlsi (show 0 < n by omega)
  refine ⟨res, hres, hfin, ?_⟩
  rcases hsuc with hsuc | ⟨hnit, hnd⟩
  · exact Or.inl hsuc
  · right
    by_contra hc
    push Not at hc
    simp only at hnit
    obtain ⟨-, -, hsum⟩ := hmain (100 * K) fun k hk => hc k (by omega)
    set d : ℕ → ℝ := fun i => ‖(s' (i + 1)).x - (s' i).x‖ ^ 2 + ‖(s' (i + 1)).y - (s' i).y‖ ^ 2 with hd
    have hmult : ∀ j < K, tol ^ 2 / 2 ≤ d (100 * j) := by
      intro j hj
      have hno := hnd (100 * j) (by simp only; omega)
      obtain ⟨that, h0, h1⟩ := exists_that h.ok.ratio_pos (show 0 ≤ Lf / m ^ 2 from div_nonneg h.lip (sq_nonneg _))
      have hcert := (pd_search_iter h (a3 (100 * j)) (a4 (100 * j)) (a2 (100 * j)) h1).2.2.2.1
      rw [if_pos (by omega)] at hcert
      have hle : tol ≤ ‖(s' (100 * j + 1)).x - (s' (100 * j)).x‖ + ‖(s' (100 * j + 1)).y - (s' (100 * j)).y‖ := by
        by_contra hlt
        push Not at hlt
        exact hno ⟨_, hcert, hlt⟩
      show tol ^ 2 / 2 ≤ ‖(s' (100 * j + 1)).x - (s' (100 * j)).x‖ ^ 2 + ‖(s' (100 * j + 1)).y - (s' (100 * j)).y‖ ^ 2
      nlinarith [sq_nonneg (‖(s' (100 * j + 1)).x - (s' (100 * j)).x‖ - ‖(s' (100 * j + 1)).y - (s' (100 * j)).y‖)]
    have hd0 : ∀ i, 0 ≤ d i := fun i => by
      show 0 ≤ ‖(s' (i + 1)).x - (s' i).x‖ ^ 2 + ‖(s' (i + 1)).y - (s' i).y‖ ^ 2
      positivity
    have h3 : ∑ i ∈ Finset.range (100 * K), d i ≤ C / κ := by rw [le_div_iff₀ hκ, mul_comm]; exact hsum
    have h4 := hundred_sum hd0 hmult h3
    rw [le_div_iff₀ hκ] at h4
    linarith

/-- **C108 (accuracy).** With a Lipschitz `h` and a minimiser of `f + g + h(L ·)` there is a constant `B` such that for every `tol > 0` every sufficiently long run returns and either
some iteration moves `L x` by at most `1e-10` or the run reports success at a point whose objective is within `tol B + L_f tol² / 2` of the minimum. -/
theorem C108_accuracy_partial [CompleteSpace F] {P : PDArgs E F} {M : E →ₗ[ℝ] F} {Mt : F →ₗ[ℝ] E} {G : ExtFun E} {hh : F → ℝ} {f : E → ℝ} {g : E → E} {Lf m l : ℝ}
    (h : PDSearchOk P M Mt G ⟨Set.univ, hh⟩ f g Lf m) (hl : 0 ≤ l) (hlip : ∀ a b, hh a - hh b ≤ l * ‖a - b‖)
    {xs : E} (hxs : xs ∈ G.dom) (hmin : ∀ x ∈ G.dom, f xs + G.val xs + hh (M xs) ≤ f x + G.val x + hh (M x)) (hcb : P.callback = none) (hlsi : 0 < P.lsIter) :
    ∃ s : ℕ → PDState E F, (∀ k, pdIter P k = some (s k)) ∧ ∃ B, ∀ tol, 0 < tol → ∃ N, ∀ n, N ≤ n → ∃ res,
      minimizePrimalDual { P with tol := tol, maxIter := n } = some (.ok res) ∧
      ((∃ k ≤ res.nit, ‖M (s (k + 1)).x - M (s k).x‖ ≤ 1 / 10 ^ 10) ∨
        res.success = true ∧ res.x ∈ G.dom ∧ f res.x + G.val res.x + hh (M res.x) - (f xs + G.val xs + hh (M xs)) ≤ tol * B + Lf / 2 * tol ^ 2) := by
  have hcont : Continuous hh := by
    have : LipschitzWith ⟨l, hl⟩ hh := LipschitzWith.of_dist_le_mul fun a b => by
      rw [Real.dist_eq, dist_eq_norm, abs_le]
      have h1 := hlip a b
      have h2 := hlip b a
      rw [norm_sub_rev] at h2
      exact ⟨by show -(l * ‖a - b‖) ≤ _; linarith, h1⟩
    exact this.continuous
  obtain ⟨ys, hys, hgs⟩ := exists_saddle M h.convG h.convex h.upper h.convH hcont hxs hmin
  have hgs : IsSubgrad G xs (-Mt ys - g xs) := hgs (Mt ys) fun x => by rw [real_inner_comm, ← h.ok.adjoint, real_inner_comm]
  obtain ⟨s, a0, a1, a2, a3, a4⟩ := pd_search_run h
  obtain ⟨τm, κ, C, hτm, hκ, hC, hmain⟩ := C108_moves_partial h hys hgs a0 a2 a3 a4
  have hr := h.ok.ratio_pos
  refine ⟨s, a1, (1 / (P.ratio * τm) + 5 / 4) * Real.sqrt C + 2 * l * (1 + 1 / τm), fun tol htol => ?_⟩
  obtain ⟨N, hN⟩ := C108_success_partial h hys hgs a1 hcb hlsi htol
  refine ⟨N, fun n hn => ?_⟩
  obtain ⟨res, hres, hfin, hsuc⟩ := hN n hn
  refine ⟨res, hres, ?_⟩
  by_cases hst : ∃ k ≤ res.nit, ‖M (s (k + 1)).x - M (s k).x‖ ≤ 1 / 10 ^ 10
  · exact Or.inl hst
  · right
    have hsuc' := hsuc.resolve_right hst
    push Not at hst
    obtain ⟨-, -, hlt⟩ := C54_success hres hsuc'
    have hx := (pd_run hres).2.1
    set k := res.nit with hk
    obtain ⟨that, h0, h1⟩ := exists_that h.ok.ratio_pos (show 0 ≤ Lf / m ^ 2 from div_nonneg h.lip (sq_nonneg _))
    obtain ⟨-, hd, hp, -, hmv⟩ := pd_search_iter h (a3 k) (a4 k) (a2 k) h1
    obtain ⟨eσ, -⟩ := hmv (hst k le_rfl)
    obtain ⟨b1, b2, -⟩ := hmain (k + 1) fun j hj => hst j (by omega)
    have hgap := pd_gap_theta h.ok.adjoint h.convex (a3 (k + 1)).sigma (a3 k).tau (a3 (k + 1)).theta.le h.upper h.norm hl hlip hxs hd hp
    have hold : res.final.xOld = (s k).x ∧ res.final.yOld = (s k).y := by
      rw [hfin]
      have := a2 k
      unfold pdNext at this
      rw [Option.map_eq_some_iff] at this
      obtain ⟨r, -, e⟩ := this
      rw [← e]
      exact ⟨rfl, rfl⟩
    rw [hold.1, hold.2, hx, hfin] at hlt
    have hlt : ‖(s (k + 1)).x - (s k).x‖ + ‖(s (k + 1)).y - (s k).y‖ < tol := hlt
    rw [hx, hfin]
    refine ⟨hsuc', hp.1, hgap.trans ?_⟩
    have hR : ‖(s (k + 1)).x - xs‖ ≤ Real.sqrt C := Real.le_sqrt_of_sq_le (b2 (k + 1) le_rfl)
    have ha : ‖(s (k + 1)).x - (s k).x‖ ≤ tol := by
      have := norm_nonneg ((s (k + 1)).y - (s k).y)
      linarith
    have hb : ‖(s (k + 1)).y - (s k).y‖ ≤ tol := by
      have := norm_nonneg ((s (k + 1)).x - (s k).x)
      linarith
    have hσ : (s (k + 1)).sigma⁻¹ ≤ 1 / (P.ratio * τm) := by
      rw [eσ, ← one_div]
      exact one_div_le_one_div_of_le (by positivity) (mul_le_mul_of_nonneg_left (b1 (k + 1) le_rfl) hr.le)
    have hτ : (s k).tau⁻¹ ≤ 1 / τm := by
      rw [← one_div]
      exact one_div_le_one_div_of_le hτm (b1 k (by omega))
    have hθ := a4 (k + 1)
    have hθ0 := (a3 (k + 1)).theta
    have hσ0 := (a3 (k + 1)).sigma
    have hτ0 := (a3 k).tau
    have hS := Real.sqrt_nonneg C
    have c1 : (s (k + 1)).sigma⁻¹ * (‖(s (k + 1)).x - (s k).x‖ * ‖(s (k + 1)).x - xs‖) ≤ 1 / (P.ratio * τm) * (tol * Real.sqrt C) :=
      mul_le_mul hσ (mul_le_mul ha hR (norm_nonneg _) htol.le) (by positivity) (by positivity)
    have c2 : (s (k + 1)).theta * (‖(s (k + 1)).y - (s k).y‖ * ‖(s (k + 1)).x - xs‖) ≤ 5 / 4 * (tol * Real.sqrt C) :=
      mul_le_mul hθ (mul_le_mul hb hR (norm_nonneg _) htol.le) (by positivity) (by norm_num)
    have c3 : Lf / 2 * ‖(s (k + 1)).x - (s k).x‖ ^ 2 ≤ Lf / 2 * tol ^ 2 :=
      mul_le_mul_of_nonneg_left (pow_le_pow_left₀ (norm_nonneg _) ha 2) (by have := h.lip; linarith)
    have c4 : (s k).tau⁻¹ * ‖(s (k + 1)).y - (s k).y‖ ≤ 1 / τm * tol := mul_le_mul hτ hb (norm_nonneg _) (by positivity)
    have c5 : l * (‖(s (k + 1)).x - (s k).x‖ + (s k).tau⁻¹ * ‖(s (k + 1)).y - (s k).y‖) ≤ l * (tol + 1 / τm * tol) :=
      mul_le_mul_of_nonneg_left (add_le_add ha c4) hl
    have e : tol * ((1 / (P.ratio * τm) + 5 / 4) * Real.sqrt C + 2 * l * (1 + 1 / τm)) =
        1 / (P.ratio * τm) * (tol * Real.sqrt C) + 5 / 4 * (tol * Real.sqrt C) + 2 * (l * (tol + 1 / τm * tol)) := by ring
    rw [e]
    linarith

end General

section Library
variable {n d p : ℕ}

/-- **C108 (library).** `minimize_primal_dual(f.f_grad, x0, o1.prox, o2.prox, L=A, line_search=True)` with a squared or Huber loss, any data and regularisation (or a bounded
constraint), any penalty or constraint as first operator, any Lipschitz penalty as second one, any positive step sizes and any matrix with `m ‖x‖ ≤ ‖A x‖ ≤ ‖x‖`, `m > 0` (the
identity for `L=None`): a minimiser `xs` exists, and there is a constant `B` such that for every `tol > 0` every sufficiently long run without callback
returns, and either some iteration moves `A x` by at most `1e-10` or the run reports success within `tol B + f.lipschitz tol²/2` of the minimum. -/
theorem C108_library_partial (f : LossObj n d) (hf : f.Good) (he : f.Exact) {σ : ℝ} (hs : IsLargestSingular f.mat σ)
    (o1 : SplitObj d) (o2 : SplitObj p) (h1 : o1.Good) (h2 : o2.Good) {l : ℝ} (hl : o2.lip = some l) (hc : 0 < f.reg ∨ o1.Bounded) (A : Fin p → Fin d → ℝ) {m : ℝ}
    (hm0 : 0 < m) (hlow : ∀ x, m * ‖x‖ ≤ ‖opMatvec A x‖) (hup : ∀ x, ‖opMatvec A x‖ ≤ ‖x‖)
    (P : PDArgs (EuclideanSpace ℝ (Fin d)) (EuclideanSpace ℝ (Fin p)))
    (hfg : P.fg = f.oracle) (hp1 : P.prox1 = some o1.proxE) (hp2 : P.prox2 = some o2.proxE) (hmv : P.matvec = opMatvec A) (hrmv : P.rmatvec = opRmatvec A)
    (hls : P.lineSearch = true) (hσ : 0 < P.stepSize) (hτ : ∀ t, P.stepSize2 = some t → 0 < t) (hcb : P.callback = none) (hlsi : 0 < P.lsIter) :
    ∃ xs ∈ o1.fn.dom, (∀ x ∈ o1.fn.dom, f.fn xs + o1.fn.val xs + o2.fn.val (opMatvec A xs) ≤ f.fn x + o1.fn.val x + o2.fn.val (opMatvec A x)) ∧
      ∃ s : ℕ → PDState (EuclideanSpace ℝ (Fin d)) (EuclideanSpace ℝ (Fin p)), (∀ k, pdIter P k = some (s k)) ∧ ∃ B, ∀ tol, 0 < tol → ∃ N, ∀ n, N ≤ n → ∃ res,
        minimizePrimalDual { P with tol := tol, maxIter := n } = some (.ok res) ∧
        ((∃ k ≤ res.nit, ‖opMatvec A (s (k + 1)).x - opMatvec A (s k).x‖ ≤ 1 / 10 ^ 10) ∨
          res.success = true ∧ res.x ∈ o1.fn.dom ∧
          f.fn res.x + o1.fn.val res.x + o2.fn.val (opMatvec A res.x) - (f.fn xs + o1.fn.val xs + o2.fn.val (opMatvec A xs)) ≤
            tol * B + f.lipschitz σ / 2 * tol ^ 2) := by
  obtain ⟨-, hconv, hq, -⟩ := C92_loss f hf hs
  obtain ⟨c1, q1, -⟩ := C102_prox_exact o1 h1
  obtain ⟨c2, q2, -, h3⟩ := C102_prox_exact o2 h2
  obtain ⟨hl0, e, hlip⟩ := h3 l hl
  obtain ⟨xs, hxs, hmin⟩ := C104_exists f hf o1 o2 h1 h2 hl A hc
  have hL : 0 ≤ f.lipschitz σ := by
    obtain ⟨phi, phi', c, hc, hL, -⟩ := f.erm_form hf
    rw [hL]
    have h4 : 0 ≤ c * (σ * σ) / n := div_nonneg (mul_nonneg hc (mul_self_nonneg σ)) (Nat.cast_nonneg n)
    have h5 := f.reg_nonneg hf
    linarith
  have hok : PDSearchOk P (opLin A) (opLinT A) o1.fn ⟨Set.univ, o2.fn.val⟩ f.fn f.gradE (f.lipschitz σ) m :=
    ⟨⟨hmv, hrmv, opLin_adjoint A, hσ, hτ⟩, hls, c1, by unfold PDArgs.p1; rw [hp1]; exact q1, e ▸ c2, by unfold PDArgs.p2; rw [hp2]; exact e ▸ q2,
      by rw [hfg]; exact f.oracle_exact hf he, hconv, hL, hq, hm0, hlow, hup⟩
  exact ⟨xs, hxs, hmin, C108_accuracy_partial hok hl0 hlip hxs hmin hcb hlsi⟩

/-- The hypotheses of C108 hold together: the squared loss of the one-sample data set `(3, 4)` with `alpha = 1/2`, two l1 penalties, no linear operator, default step sizes. -/
example (x0 : EuclideanSpace ℝ (Fin 2)) :
    let f := LossObj.square ⟨fun _ : Fin 1 => ![3, 4], ![7], 1 / 2⟩
    let P : PDArgs (EuclideanSpace ℝ (Fin 2)) (EuclideanSpace ℝ (Fin 2)) := ⟨f.oracle, x0, some (SplitObj.pen (.l1Norm 1)).proxE, some (SplitObj.pen (.l1Norm 2)).proxE,
      opMatvec (eyeMat 2), opRmatvec (eyeMat 2), 1 / 10 ^ 6, 500, none, 1 / 10, none, true, 100⟩
    ∃ xs, (∀ x, f.fn xs + 1 * norm1 (WithLp.ofLp xs) + 2 * norm1 (WithLp.ofLp xs) ≤ f.fn x + 1 * norm1 (WithLp.ofLp x) + 2 * norm1 (WithLp.ofLp x)) ∧
      ∃ s : ℕ → PDState (EuclideanSpace ℝ (Fin 2)) (EuclideanSpace ℝ (Fin 2)), (∀ k, pdIter P k = some (s k)) ∧ ∃ B, ∀ tol, 0 < tol → ∃ N, ∀ n, N ≤ n → ∃ res,
        minimizePrimalDual { P with tol := tol, maxIter := n } = some (.ok res) ∧
        ((∃ k ≤ res.nit, ‖(s (k + 1)).x - (s k).x‖ ≤ 1 / 10 ^ 10) ∨ res.success = true ∧
          f.fn res.x + 1 * norm1 (WithLp.ofLp res.x) + 2 * norm1 (WithLp.ofLp res.x) - (f.fn xs + 1 * norm1 (WithLp.ofLp xs) + 2 * norm1 (WithLp.ofLp xs)) ≤
            tol * B + f.lipschitz 5 / 2 * tol ^ 2) := by
  intro f P
  obtain ⟨xs, -, hmin, s, hs, B, hB⟩ := C108_library_partial (p := 2) f (show (0 : ℝ) ≤ 1 / 2 by norm_num) trivial largestSingular_example (.pen (.l1Norm 1)) (.pen (.l1Norm 2))
    (show (0 : ℝ) ≤ 1 by norm_num) (show (0 : ℝ) ≤ 2 by norm_num) rfl (Or.inl (show (0 : ℝ) < 1 / 2 by norm_num)) (eyeMat 2) one_pos
    (fun x => by rw [opMatvec_eye, one_mul]) (fun x => by rw [opMatvec_eye]) P rfl rfl rfl rfl rfl rfl (show (0 : ℝ) < 1 / 10 by norm_num) (fun t h => by cases h) rfl
    (show (0 : ℤ) < 100 by norm_num)
  simp only [opMatvec_eye] at hmin hB
  refine ⟨xs, fun x => hmin x trivial, s, hs, B, fun tol htol => ?_⟩
  obtain ⟨N, hN⟩ := hB tol htol
  refine ⟨N, fun n hn => ?_⟩
  obtain ⟨res, r1, r2⟩ := hN n hn
  exact ⟨res, r1, r2.imp_right fun r => ⟨r.1, r.2.2⟩⟩

end Library

end Copt
