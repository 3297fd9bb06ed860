import Verif.Proof.Constraint

/-!
# Properties C01-C07 (and the projection part of C73): `copt/constraint.py`
-/

set_option linter.unusedSectionVars false

namespace Copt

open Spec

variable {K : Type} [Field K] [LinearOrder K] [IsStrictOrderedRing K] {n : ℕ}

/-- **C01.** `LinfBall(alpha).prox(x)` is the Euclidean projection of `x` on the max-norm ball. -/
theorem C01_linf_prox_is_projection (alpha : K) (ha : 0 ≤ alpha) (x : Fin n → K) :
    IsProj (linfBall alpha) x (LinfBall.prox alpha x) := by
  refine isProj_of_vi ?_ ?_
  · intro i
    rw [abs_le]
    unfold LinfBall.prox
    exact ⟨le_min (le_max_right _ _) (by linarith), min_le_right _ _⟩
  · intro y hy
    refine Finset.sum_nonpos fun i _ => ?_
    have hyi := abs_le.mp (hy i)
    simp only [Pi.sub_apply, LinfBall.prox]
    rcases le_total (x i) (-alpha) with h | h
    · rw [max_eq_right h, min_eq_left (by linarith)]
      nlinarith [hyi.1, hyi.2]
    · rw [max_eq_left h]
      rcases le_total (x i) alpha with h2 | h2
      · rw [min_eq_left h2]; simp
      · rw [min_eq_right h2]; nlinarith [hyi.1, hyi.2]

example : IsProj (linfBall (1 : ℚ)) ![3, -1/2] (LinfBall.prox 1 ![3, -1/2]) ∧
    LinfBall.prox (1 : ℚ) ![3, -1/2] ≠ ![3, -1/2] :=
  ⟨C01_linf_prox_is_projection 1 (by norm_num) _, by
    intro h; have := congrFun h 0; simp [LinfBall.prox] at this⟩

/-- **C02.** `L2Ball(alpha).prox(x)` is the Euclidean projection of `x` on the Euclidean ball. -/
theorem C02_l2_prox_is_projection (alpha : ℝ) (ha : 0 ≤ alpha) (x : Fin n → ℝ) :
    IsProj (l2Ball alpha) x (L2Ball.prox alpha x) := by
  have hN0 : (∑ i, x i ^ 2) = dot x x := by
    unfold dot; exact Finset.sum_congr rfl fun i _ => by ring
  unfold L2Ball.prox
  simp only []
  set N := Real.sqrt (∑ i, x i ^ 2) with hN
  have hNn : 0 ≤ N := Real.sqrt_nonneg _
  have hNsq : N ^ 2 = dot x x := by rw [hN, Real.sq_sqrt, hN0]; rw [hN0]; exact dot_self_nonneg x
  split_ifs with h
  · refine isProj_of_vi ?_ ?_
    · show dot x x ≤ alpha ^ 2
      rw [← hNsq]; exact pow_le_pow_left₀ hNn h 2
    · intro y _
      have : x - x = 0 := sub_self x
      rw [this]; simp [dot]
  · push Not at h
    have hNpos : 0 < N := lt_of_le_of_lt ha h
    have hform : (fun i => alpha * x i / N) = (alpha / N) • x := by
      funext i; simp only [Pi.smul_apply, smul_eq_mul]; ring
    rw [hform]
    set c := alpha / N with hc
    have hc0 : 0 ≤ c := div_nonneg ha hNn
    have hc1 : c < 1 := by rw [hc, div_lt_one hNpos]; exact h
    have hcN : c * N = alpha := by rw [hc]; field_simp
    refine isProj_of_vi ?_ ?_
    · show dot (c • x) (c • x) ≤ alpha ^ 2
      rw [dot_smul_left, dot_smul_right, ← hNsq, ← hcN]; exact le_of_eq (by ring)
    · intro y hy
      have hy' : dot y y ≤ alpha ^ 2 := hy
      have hcs := dot_sq_le x y
      have hxy : dot x y ≤ N * alpha := by
        refine le_of_sq_le_sq ?_ (mul_nonneg hNn ha)
        calc dot x y ^ 2 ≤ dot x x * dot y y := hcs
          _ ≤ dot x x * alpha ^ 2 := mul_le_mul_of_nonneg_left hy' (dot_self_nonneg x)
          _ = (N * alpha) ^ 2 := by rw [← hNsq]; ring
      have hexp : dot (x - c • x) (y - c • x) = (1 - c) * (dot x y - c * dot x x) := by
        rw [dot_sub_left, dot_sub_right, dot_smul_left, dot_sub_right, dot_smul_right]; ring
      rw [hexp, ← hNsq]
      have h2 : dot x y - c * N ^ 2 ≤ 0 := by
        have : c * N ^ 2 = N * alpha := by rw [← hcN]; ring
        linarith
      nlinarith

/-- C02, second part: points of the ball are returned unchanged. -/
theorem C02_l2_prox_inside (alpha : ℝ) (ha : 0 ≤ alpha) (x : Fin n → ℝ) (hx : x ∈ l2Ball alpha) :
    L2Ball.prox alpha x = x := by
  have h1 := C02_l2_prox_is_projection alpha ha x
  by_contra hne
  have h2 := h1.2 x hx (Ne.symm hne)
  have h3 : sqDist x x = 0 := by simp [sqDist]
  have h4 := sqDist_nonneg (L2Ball.prox alpha x) x
  linarith

example : IsProj (l2Ball (1 : ℝ)) ![3, 4] (L2Ball.prox 1 ![3, 4]) :=
  C02_l2_prox_is_projection 1 (by norm_num) _

/-- **C03.** `euclidean_proj_simplex(v, s)` returns the Euclidean projection of any non-empty `v`
on the simplex of radius `s > 0`. -/
theorem C03_proj_simplex_correct (hn : 0 < n) (v : Fin n → K) (s : K) (hs : 0 < s) :
    ∃ w, projSimplex v s = .ok w ∧ IsProj (simplex s) v w := by
  obtain ⟨θ, hok, hsum⟩ := projSimplex_spec hn v hs
  refine ⟨_, hok, isProj_of_vi ⟨fun i => le_max_right _ _, hsum⟩ ?_⟩
  rintro y ⟨hy0, hys⟩
  have key : ∀ i, (v i - max (v i - θ) 0) * (y i - max (v i - θ) 0)
      ≤ θ * (y i - max (v i - θ) 0) := by
    intro i
    rcases le_total (v i - θ) 0 with h | h
    · rw [max_eq_right h]; nlinarith [hy0 i]
    · rw [max_eq_left h]; nlinarith
  calc dot (v - fun i => max (v i - θ) 0) (y - fun i => max (v i - θ) 0)
      ≤ ∑ i, θ * (y i - max (v i - θ) 0) := Finset.sum_le_sum fun i _ => key i
    _ = 0 := by rw [← Finset.mul_sum, Finset.sum_sub_distrib, hys, hsum]; ring

/-- C03, error branches: non-positive radius, empty vector. -/
theorem C03_proj_simplex_errors (v : Fin n → K) (s : K) :
    (s ≤ 0 → projSimplex v s = .error .assertionError) ∧
    (n = 0 → 0 < s → projSimplex v s = .error .indexError) := by
  refine ⟨fun h => ?_, fun hn hs => ?_⟩
  · unfold projSimplex; rw [if_pos (by simpa using h)]
  · subst hn
    unfold projSimplex
    rw [if_neg (by simpa using hs), if_neg (by simp; exact fun h => absurd h hs.ne)]
    have : sortDesc v = [] := List.length_eq_zero_iff.mp (sortDesc_length v)
    simp [this, simplexCandidates]

example : ∃ w, projSimplex (![3, 1, 5/2] : Fin 3 → ℚ) 1 = .ok w ∧ IsProj (simplex 1) ![3, 1, 5/2] w :=
  C03_proj_simplex_correct (by norm_num) _ 1 (by norm_num)

/-- **C04.** `euclidean_proj_l1ball(v, s)` (hence `L1Ball(s).prox`) returns the Euclidean projection
of `v` on the l1 ball of radius `s > 0`. -/
theorem C04_l1_prox_is_projection (v : Fin n → K) (s : K) (hs : 0 < s) :
    ∃ w, L1Ball.prox s v = .ok w ∧ IsProj (l1Ball s) v w := by
  unfold L1Ball.prox projL1Ball
  rw [if_neg (by simpa using hs)]
  simp only []
  split_ifs with h
  · refine ⟨v, rfl, isProj_of_vi h ?_⟩
    intro y _
    rw [sub_self]; simp [dot]
  · push Not at h
    have hn : 0 < n := by
      rcases Nat.eq_zero_or_pos n with rfl | hn
      · simp at h; exact absurd h (not_lt.mpr hs.le)
      · exact hn
    obtain ⟨θ, hok, hsum⟩ := projSimplex_spec hn (fun i => |v i|) hs
    have hθ : 0 < θ := by
      by_contra hθ
      push Not at hθ
      have : ∑ i, |v i| ≤ ∑ i, max (|v i| - θ) 0 :=
        Finset.sum_le_sum fun i _ => le_max_of_le_left (by linarith)
      linarith
    rw [hok]
    refine ⟨fun i => max (|v i| - θ) 0 * npSign (v i), rfl, ?_⟩
    set w : Fin n → K := fun i => max (|v i| - θ) 0 with hw
    have hw0 : ∀ i, 0 ≤ w i := fun i => le_max_right _ _
    have hz : ∀ i, v i = 0 → w i = 0 := by
      intro i hi; simp only [hw, hi, abs_zero]; exact max_eq_right (by linarith)
    have habs : ∀ i, |w i * npSign (v i)| = w i := by
      intro i
      by_cases hi : v i = 0
      · rw [hz i hi]; simp
      · have h1 := npSign_sq (v i) hi
        have : |npSign (v i)| = 1 := by
          have h2 : |npSign (v i)| * |npSign (v i)| = 1 := by rw [← abs_mul, h1, abs_one]
          nlinarith [abs_nonneg (npSign (v i))]
        rw [abs_mul, this, mul_one, abs_of_nonneg (hw0 i)]
    refine isProj_of_vi ?_ ?_
    · show ∑ i, |w i * npSign (v i)| ≤ s
      rw [Finset.sum_congr rfl fun i _ => habs i]; exact hsum.le
    · intro y hy
      have key : ∀ i, (v i - w i * npSign (v i)) * (y i - w i * npSign (v i)) ≤ θ * |y i| - θ * w i := by
        intro i
        by_cases hi : v i = 0
        · rw [hz i hi, hi]; simp; positivity
        · have h1 := npSign_sq (v i) hi
          have h2 : v i - w i * npSign (v i) = npSign (v i) * (|v i| - w i) := by
            have := npSign_mul_abs (v i); linear_combination -this
          have h3 : npSign (v i) * y i ≤ |y i| := by
            calc npSign (v i) * y i ≤ |npSign (v i) * y i| := le_abs_self _
              _ = |npSign (v i)| * |y i| := abs_mul _ _
              _ ≤ 1 * |y i| := mul_le_mul_of_nonneg_right (abs_npSign_le _) (abs_nonneg _)
              _ = |y i| := one_mul _
          have h4 : (v i - w i * npSign (v i)) * (y i - w i * npSign (v i))
              = (|v i| - w i) * (npSign (v i) * y i) - (|v i| - w i) * w i := by
            rw [h2]; linear_combination (-(|v i| - w i) * w i) * h1
          rw [h4]
          have hd0 : 0 ≤ |v i| - w i := by
            simp only [hw]; rcases le_total (|v i| - θ) 0 with h | h
            · rw [max_eq_right h]; simp
            · rw [max_eq_left h]; linarith
          have hd1 : |v i| - w i ≤ θ := by
            have := le_max_left (|v i| - θ) 0; simp only [hw]; linarith
          have hd2 : (|v i| - w i) * w i = θ * w i := by
            simp only [hw]; rcases le_total (|v i| - θ) 0 with h | h
            · rw [max_eq_right h]; simp
            · rw [max_eq_left h]; ring
          rw [hd2]
          have := mul_le_mul_of_nonneg_left h3 hd0
          have h5 := mul_le_mul_of_nonneg_right hd1 (abs_nonneg (y i))
          linarith
      have hy' : ∑ i, |y i| ≤ s := hy
      calc dot _ _ ≤ ∑ i, (θ * |y i| - θ * w i) := Finset.sum_le_sum fun i _ => key i
        _ = θ * (∑ i, |y i|) - θ * s := by
            rw [Finset.sum_sub_distrib, ← Finset.mul_sum, ← Finset.mul_sum, hsum]
        _ ≤ 0 := by nlinarith

/-- C04, error branch: a non-positive radius raises AssertionError. -/
theorem C04_l1_prox_error (v : Fin n → K) (s : K) (hs : s ≤ 0) :
    L1Ball.prox s v = .error .assertionError := by
  unfold L1Ball.prox projL1Ball; rw [if_pos (by simpa using hs)]

example : ∃ w, L1Ball.prox (1 : ℚ) ![3, -2] = .ok w ∧ IsProj (l1Ball 1) ![3, -2] w :=
  C04_l1_prox_is_projection _ 1 (by norm_num)

/-- Any linear function is bounded on the l1 ball by its largest coefficient. -/
theorem dot_le_of_l1 (u y : Fin n → K) (a M : K) (hM : ∀ i, |u i| ≤ M) (hM0 : 0 ≤ M)
    (hy : y ∈ l1Ball a) : dot u y ≤ a * M := by
  have hy' : ∑ i, |y i| ≤ a := hy
  calc dot u y ≤ ∑ i, M * |y i| := Finset.sum_le_sum fun i _ => by
        calc u i * y i ≤ |u i * y i| := le_abs_self _
          _ = |u i| * |y i| := abs_mul _ _
          _ ≤ M * |y i| := mul_le_mul_of_nonneg_right (hM i) (abs_nonneg _)
    _ = M * ∑ i, |y i| := by rw [Finset.mul_sum]
    _ ≤ a * M := by nlinarith

theorem dot_l1Vertex (u : Fin n → K) (a : K) (rep : K × Fin n) :
    dot u (l1Vertex a rep) = a * rep.1 * u rep.2 := by
  unfold dot l1Vertex
  rw [Finset.sum_eq_single rep.2]
  · simp; ring
  · intro b _ hb; simp [hb]
  · intro h; exact absurd (Finset.mem_univ _) h

theorem norm1_l1Vertex (a : K) (rep : K × Fin n) : norm1 (l1Vertex a rep) = |a * rep.1| := by
  unfold norm1 l1Vertex
  rw [Finset.sum_eq_single rep.2]
  · simp
  · intro b _ hb; simp [hb]
  · intro h; exact absurd (Finset.mem_univ _) h

/-- **C05.** `L1Ball(alpha).lmo(u, x)` returns `s - x` where `s` maximises `⟨u, ·⟩` over the l1 ball,
`s` is the vertex denoted by the returned representation, and the maximal step is 1. -/
theorem C05_l1_lmo_correct (hn : 0 < n) (alpha : K) (ha : 0 ≤ alpha) (u x : Fin n → K) :
    ∃ o rep, L1Ball.lmo alpha u x = .ok o ∧ o.fwRep = some rep ∧ o.awayRep = none ∧ o.maxStep = 1 ∧
      o.dir = l1Vertex alpha rep - x ∧ MaximisesOn (l1Ball alpha) u (l1Vertex alpha rep) := by
  obtain ⟨j, hj⟩ := npArgmax_total hn (fun i => |u i|)
  have hmax := npArgmax_ok hj
  refine ⟨{ dir := Function.update (fun i => -x i) j (-x j + alpha * npSign (u j)),
            fwRep := some (npSign (u j), j), awayRep := none, maxStep := 1 }, (npSign (u j), j),
    ?_, rfl, rfl, rfl, ?_, ?_, ?_⟩
  · unfold L1Ball.lmo; rw [hj]; rfl
  · funext i
    by_cases hi : i = j
    · subst hi; simp [l1Vertex]; ring
    · simp [l1Vertex, hi]
  · show norm1 _ ≤ alpha
    rw [norm1_l1Vertex, abs_mul, abs_of_nonneg ha]
    have := abs_npSign_le (u j)
    nlinarith
  · intro y hy
    rw [dot_l1Vertex]
    have h1 := dot_le_of_l1 u y alpha |u j| hmax (abs_nonneg _) hy
    have h2 := npSign_mul_self_abs (u j)
    calc dot u y ≤ alpha * |u j| := h1
      _ = alpha * npSign (u j) * u j := by rw [← h2]; ring

example : ∃ o rep, L1Ball.lmo (2 : ℚ) ![1, -3] ![1, 1] = .ok o ∧ o.fwRep = some rep ∧
    o.awayRep = none ∧ o.maxStep = 1 ∧ o.dir = l1Vertex 2 rep - ![1, 1] ∧
    MaximisesOn (l1Ball 2) ![1, -3] (l1Vertex 2 rep) :=
  C05_l1_lmo_correct (by norm_num) 2 (by norm_num) _ _

/-- **C06.** `L1Ball(alpha).lmo_pairwise(u, x, active_set)` on a non-empty active set returns `s - v`,
`s` maximal over the ball and `v` the vertex of an entry with minimal correlation with `u`; the maximal
step is the weight of that entry. -/
theorem C06_l1_lmo_pairwise_correct (hn : 0 < n) (alpha : K) (ha : 0 ≤ alpha) (u x : Fin n → K)
    (act : ActiveSet (L1Rep K n) K) (hact : act ≠ []) :
    ∃ o fw away, L1Ball.lmoPairwise alpha u x act = .ok o ∧ o.fwRep = some fw ∧ o.awayRep = some away ∧
      (away, o.maxStep) ∈ act ∧ o.dir = l1Vertex alpha fw - l1Vertex alpha away ∧
      MaximisesOn (l1Ball alpha) u (l1Vertex alpha fw) ∧
      ∀ item ∈ act, dot u (l1Vertex alpha away) ≤ dot u (l1Vertex alpha item.1) := by
  obtain ⟨o, fw, hok, hfw, -, -, hdir, hmax⟩ := C05_l1_lmo_correct hn alpha ha u x
  unfold L1Ball.lmoPairwise
  rw [hok]
  cases hmin : act.argmin (fun item => L1Ball.correlation item.1 u) with
  | none => exact absurd (List.argmin_eq_none.mp hmin) hact
  | some item =>
    obtain ⟨away, w⟩ := item
    refine ⟨{ dir := Function.update (fun i => o.dir i + x i) away.2
                (o.dir away.2 + x away.2 - away.1 * alpha),
              fwRep := o.fwRep, awayRep := some away, maxStep := w }, fw, away, ?_, hfw, rfl, ?_, ?_, hmax, ?_⟩
    · rfl
    · exact List.argmin_mem hmin
    · funext i
      rw [hdir]
      by_cases hi : i = away.2
      · subst hi; simp [l1Vertex]; ring
      · simp [l1Vertex, hi]
    · intro item hitem
      rw [dot_l1Vertex, dot_l1Vertex]
      have h1 := List.le_of_mem_argmin hitem hmin
      have h2 := mul_le_mul_of_nonneg_left h1 ha
      simp only [L1Ball.correlation] at h2
      linarith

/-- C06, consequence: when `x` is the convex combination of the active set, the pairwise direction is at
least as correlated with `u` as the Frank-Wolfe direction `s - x`. -/
theorem C06_pairwise_gap (hn : 0 < n) (alpha : K) (ha : 0 ≤ alpha) (u x : Fin n → K)
    (act : ActiveSet (L1Rep K n) K) (hact : act ≠ [])
    (hw : ∀ item ∈ act, 0 ≤ item.2) (hsum : (act.map Prod.snd).sum = 1)
    (hx : x = (act.map (fun item => item.2 • l1Vertex alpha item.1)).sum) :
    ∃ o, L1Ball.lmoPairwise alpha u x act = .ok o ∧
      ∀ s ∈ l1Ball alpha, dot u (s - x) ≤ dot u o.dir := by
  obtain ⟨o, fw, away, hok, -, -, -, hdir, hmax, hmin⟩ :=
    C06_l1_lmo_pairwise_correct hn alpha ha u x act hact
  refine ⟨o, hok, fun s hs => ?_⟩
  rw [hdir, dot_sub_right, dot_sub_right]
  have h1 := hmax.2 s hs
  have h2 : dot u (l1Vertex alpha away) ≤ dot u x := by
    have gen : ∀ (l : ActiveSet (L1Rep K n) K), (∀ item ∈ l, 0 ≤ item.2) →
        (∀ item ∈ l, dot u (l1Vertex alpha away) ≤ dot u (l1Vertex alpha item.1)) →
        (l.map Prod.snd).sum * dot u (l1Vertex alpha away) ≤
          dot u (l.map (fun item => item.2 • l1Vertex alpha item.1)).sum := by
      intro l
      induction l with
      | nil => intro _ _; simp [dot]
      | cons a l ih =>
        intro hw hm
        simp only [List.map_cons, List.sum_cons]
        rw [dot_add_right, dot_smul_right, add_mul]
        have h3 := ih (fun i hi => hw i (List.mem_cons_of_mem _ hi))
          (fun i hi => hm i (List.mem_cons_of_mem _ hi))
        have h4 := mul_le_mul_of_nonneg_left (hm a List.mem_cons_self) (hw a List.mem_cons_self)
        linarith
    have := gen act hw hmin
    rw [hsum, one_mul, ← hx] at this
    exact this
  linarith

/-- C06, error branch: an empty active set raises ValueError (Python's `min` of an empty sequence). -/
theorem C06_empty_active_set (hn : 0 < n) (alpha : K) (ha : 0 ≤ alpha) (u x : Fin n → K) :
    L1Ball.lmoPairwise alpha u x [] = .error .valueError := by
  obtain ⟨o, fw, hok, -⟩ := C05_l1_lmo_correct hn alpha ha u x
  unfold L1Ball.lmoPairwise; rw [hok]; rfl

example : ∃ (act : ActiveSet (L1Rep ℚ 2) ℚ) (x : Fin 2 → ℚ), act ≠ [] ∧ (∀ item ∈ act, 0 ≤ item.2) ∧
    (act.map Prod.snd).sum = 1 ∧ x = (act.map (fun item => item.2 • l1Vertex 3 item.1)).sum :=
  ⟨[((1, 0), 1/3), ((-1, 1), 2/3)], _, by simp, by
    intro item hitem; simp at hitem; rcases hitem with rfl | rfl <;> norm_num, by norm_num, rfl⟩

/-- **C07 (partial).** If some coordinate of `u` is positive, `SimplexConstraint(s).lmo(u, x)` returns
`v - x` with `v` maximal over the simplex (and over the documented set).  Missing: the statement for `u`
without a positive coordinate, which is false of the code, see `C07_simplex_lmo_infeasible`. -/
theorem C07_simplex_lmo_partial (s : K) (hs : 0 < s) (u x : Fin n → K) (hu : ∃ i, 0 < u i) :
    ∃ o, SimplexConstraint.lmo s u x = .ok o ∧ o.maxStep = 1 ∧
      MaximisesOn (simplex s) u (o.dir + x) ∧ MaximisesOn (cappedSimplex s) u (o.dir + x) := by
  obtain ⟨i0, hi0⟩ := hu
  have hn : 0 < n := lt_of_le_of_lt (Nat.zero_le _) i0.2
  obtain ⟨j, hj⟩ := npArgmax_total hn u
  have hmax := npArgmax_ok hj
  have hpos : 0 < u j := lt_of_lt_of_le hi0 (hmax i0)
  refine ⟨{ dir := Function.update (fun i => -x i) j (-x j + s * npSign (u j)),
            fwRep := some j, awayRep := none, maxStep := 1 }, ?_, rfl, ?_⟩
  · unfold SimplexConstraint.lmo; rw [hj]; rfl
  have hsgn : npSign (u j) = 1 := by simp [npSign, hpos]
  have hv : (Function.update (fun i => -x i) j (-x j + s * npSign (u j)) + x : Fin n → K)
      = l1Vertex s (1, j) := by
    funext i
    by_cases hi : i = j
    · subst hi; simp [l1Vertex, hsgn]
    · simp [l1Vertex, hi]
  simp only [hv]
  have hv0 : ∀ i, 0 ≤ l1Vertex s ((1 : K), j) i := by
    intro i; unfold l1Vertex; split_ifs <;> simp [hs.le]
  have hn1 : norm1 (l1Vertex s ((1 : K), j)) = s := by rw [norm1_l1Vertex]; simp [abs_of_pos hs]
  have hbound : ∀ y : Fin n → K, (∀ i, 0 ≤ y i) → norm1 y ≤ s → dot u y ≤ dot u (l1Vertex s ((1 : K), j)) := by
    intro y hy0 hy
    rw [dot_l1Vertex]
    have hy' : ∑ i, y i ≤ s := by
      have : norm1 y = ∑ i, y i := Finset.sum_congr rfl fun i _ => abs_of_nonneg (hy0 i)
      rwa [this] at hy
    calc dot u y ≤ ∑ i, u j * y i := Finset.sum_le_sum fun i _ => mul_le_mul_of_nonneg_right (hmax i) (hy0 i)
      _ = u j * ∑ i, y i := by rw [Finset.mul_sum]
      _ ≤ u j * s := mul_le_mul_of_nonneg_left hy' hpos.le
      _ = s * 1 * u j := by ring
  refine ⟨⟨⟨hv0, ?_⟩, ?_⟩, ⟨⟨hv0, hn1.le⟩, fun y hy => hbound y hy.1 hy.2⟩⟩
  · exact (Finset.sum_congr rfl fun i _ => (abs_of_nonneg (hv0 i)).symm).trans hn1
  · intro y hy
    refine hbound y hy.1 ?_
    have : norm1 y = ∑ i, y i := Finset.sum_congr rfl fun i _ => abs_of_nonneg (hy.1 i)
    rw [this]; exact hy.2.le

/-- **C07 is false of the code**: whenever all coordinates of `u` are negative (and `s > 0`), the vertex
returned by `SimplexConstraint.lmo` has a negative coordinate, hence belongs neither to the simplex nor to
the documented set. -/
theorem C07_simplex_lmo_infeasible (hn : 0 < n) (s : K) (hs : 0 < s) (u x : Fin n → K)
    (hu : ∀ i, u i < 0) :
    ∃ o, SimplexConstraint.lmo s u x = .ok o ∧ o.dir + x ∉ simplex s ∧ o.dir + x ∉ cappedSimplex s := by
  obtain ⟨j, hj⟩ := npArgmax_total hn u
  refine ⟨{ dir := Function.update (fun i => -x i) j (-x j + s * npSign (u j)),
            fwRep := some j, awayRep := none, maxStep := 1 }, ?_, ?_⟩
  · unfold SimplexConstraint.lmo; rw [hj]; rfl
  have hsgn : npSign (u j) = -1 := by simp [npSign, hu j, not_lt.mpr (hu j).le]
  have hneg : (Function.update (fun i => -x i) j (-x j + s * npSign (u j)) + x : Fin n → K) j < 0 := by
    simp [hsgn]; exact hs
  exact ⟨fun h => absurd (h.1 j) (not_le.mpr hneg), fun h => absurd (h.1 j) (not_le.mpr hneg)⟩

/-- Refutation of C07 in closed form. -/
theorem C07_refuted : ¬ ∀ (n : ℕ) (s : ℚ) (u x : Fin n → ℚ), 0 < n → 0 < s →
    ∃ o, SimplexConstraint.lmo s u x = .ok o ∧
      (MaximisesOn (simplex s) u (o.dir + x) ∨ MaximisesOn (cappedSimplex s) u (o.dir + x)) := by
  intro h
  obtain ⟨o, ho, hm⟩ := h 2 1 (fun _ => -1) 0 (by norm_num) (by norm_num)
  obtain ⟨o', ho', h1, h2⟩ := C07_simplex_lmo_infeasible (K := ℚ) (n := 2) (by norm_num) 1 (by norm_num)
    (fun _ => -1) 0 (by intro i; norm_num)
  rw [ho] at ho'; injection ho' with ho'; subst ho'
  rcases hm with hm | hm
  · exact h1 hm.1
  · exact h2 hm.1

example : ∃ i, (0 : ℚ) < (![-1, 2] : Fin 2 → ℚ) i := ⟨1, by norm_num⟩

end Copt
