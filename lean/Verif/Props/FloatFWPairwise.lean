import Verif.Proof.FloatFWPairwise
import Verif.Props.FloatFW

/-! # C123: the pairwise Frank-Wolfe method on the l1 ball with rounded arithmetic -/

set_option linter.unusedSectionVars false

namespace Copt

open Spec
open scoped InnerProductSpace

variable {d n : ℕ}

/-- The combination of the vertices with the weights of the active set. -/
noncomputable def activeComb (alpha : ℝ) (act : ActiveSet (FlRep d) ℝ) : Fin d → ℝ := fun j => (act.map fun p => p.2 * repVertex alpha p.1 j).sum

/-- The hypotheses on a run. -/
structure PfwRun (g : EuclideanSpace ℝ (Fin d) → EuclideanSpace ℝ (Fin d)) (alpha K : ℝ) (rd : ℝ → ℝ) (u eta w : ℝ) (P : FlPfwArgs d) : Prop where
  rnd : Rounding rd u eta
  u_le : u ≤ w
  eta_le : eta ≤ w
  w_le : w ≤ 1 / 8
  d_le : 4 * d * w ≤ 1
  grad : ∀ k x j, |P.grad k x j - g (WithLp.toLp 2 x) j| ≤ K * w * (1 + norm2 x)
  inner : ∀ k v y, FlDot rd (List.ofFn fun j => (v j, y j)) (P.dot k v y)
  step : ∀ k l, P.tol < l.certificate → 0 ≤ l.out.maxStep → 0 ≤ P.step k l ∧ P.step k l ≤ l.out.maxStep
  alpha_eq : P.alpha = alpha

/-- The active set during a run. -/
structure ActInv (rd : ℝ → ℝ) (act : ActiveSet (FlRep d) ℝ) : Prop where
  nodup : (keys act).Nodup
  fix : ∀ k, rd (dGet act k) = dGet act k
  nonneg : ∀ k, 0 ≤ dGet act k
  ne : act ≠ []

/-- The drift during a run. -/
structure PfwNear (alpha c w : ℝ) (k : ℕ) (x : Fin d → ℝ) (act : ActiveSet (FlRep d) ℝ) : Prop where
  mass : |∑ r, dGet act r - 1| ≤ 11 * (k * w)
  near : ∑ j, |x j - ∑ r, dGet act r * repVertex alpha r j| ≤ c * (k * w)

variable {f : EuclideanSpace ℝ (Fin d) → ℝ} {g : EuclideanSpace ℝ (Fin d) → EuclideanSpace ℝ (Fin d)} {L alpha K c : ℝ} {rd : ℝ → ℝ} {u eta w : ℝ} {P : FlPfwArgs d}

theorem comb_norm1_le (ha : 0 ≤ alpha) (v : FlRep d → ℝ) : ∑ j, |∑ r, v r * repVertex alpha r j| ≤ alpha * ∑ r, |v r| := by
  calc ∑ j, |∑ r, v r * repVertex alpha r j| ≤ ∑ j, ∑ r, |v r| * |repVertex alpha r j| := Finset.sum_le_sum fun j _ =>
        (Finset.abs_sum_le_sum_abs _ _).trans (Finset.sum_le_sum fun r _ => by rw [abs_mul])
    _ = ∑ r, |v r| * norm1 (repVertex alpha r) := by
        rw [Finset.sum_comm]
        exact Finset.sum_congr rfl fun r _ => by rw [← Finset.mul_sum]; rfl
    _ ≤ ∑ r, |v r| * alpha := Finset.sum_le_sum fun r _ => mul_le_mul_of_nonneg_left (norm1_repVertex ha r) (abs_nonneg _)
    _ = _ := by rw [← Finset.sum_mul, mul_comm]

/-- Consequences of the drift being small. -/
theorem PfwNear.bounds {x : Fin d → ℝ} {act : ActiveSet (FlRep d) ℝ} {k : ℕ} (h : PfwNear alpha c w k x act) (hi : ActInv rd act) (ha : 0 < alpha) (h11 : 11 * (k * w) ≤ 1) (hca : c * (k * w) ≤ alpha) :
    (∀ r, dGet act r ≤ 2) ∧ norm1 x ≤ alpha + alpha * (11 * (k * w)) + c * (k * w) ∧ norm1 x ≤ 3 * alpha := by
  have hm := (abs_le.mp h.mass).2
  have hs : ∑ r, |dGet act r| = ∑ r, dGet act r := Finset.sum_congr rfl fun r _ => abs_of_nonneg (hi.nonneg r)
  have hc := comb_norm1_le ha.le (dGet act)
  rw [hs] at hc
  have h1 : norm1 x ≤ ∑ j, |x j - ∑ r, dGet act r * repVertex alpha r j| + ∑ j, |∑ r, dGet act r * repVertex alpha r j| := by
    unfold norm1
    rw [← Finset.sum_add_distrib]
    refine Finset.sum_le_sum fun j _ => ?_
    calc |x j| = |(x j - ∑ r, dGet act r * repVertex alpha r j) + ∑ r, dGet act r * repVertex alpha r j| := congrArg _ (by ring)
      _ ≤ _ := abs_add_le _ _
  have h2 := h.near
  have h3 : alpha * ∑ r, dGet act r ≤ alpha * (1 + 11 * (k * w)) := mul_le_mul_of_nonneg_left (by linarith) ha.le
  have h4 : alpha * (11 * (k * w)) ≤ alpha * 1 := mul_le_mul_of_nonneg_left h11 ha.le
  refine ⟨fun r => ?_, by linarith, by linarith⟩
  have := Finset.single_le_sum (f := fun r => dGet act r) (fun r _ => hi.nonneg r) (Finset.mem_univ r)
  linarith

/-- The oracle: the two vertices. -/
theorem flLmoPairwise_spec (hd : 0 < d) (v x : Fin d → ℝ) {act : ActiveSet (FlRep d) ℝ} (hi : ActInv rd act) (ha : 0 ≤ alpha) :
    ∃ o, flLmoPairwise rd alpha v x act = .ok o ∧ o.dir = flPairDir rd alpha o.fw o.away x ∧ o.maxStep = dGet act o.away ∧ 0 ≤ o.maxStep ∧ repVertex alpha o.fw = l1Vertex alpha v ∧
      ∀ r, dGet act r * dot v (repVertex alpha o.away) ≤ dGet act r * dot v (repVertex alpha r) := by
  obtain ⟨i, hi1, -⟩ := exists_argmax hd v
  cases hmin : act.argmin fun item => (item.1.1 : ℝ) * v item.1.2 with
  | none => exact absurd (List.argmin_eq_none.mp hmin) hi.ne
  | some q =>
    have hq : q ∈ act := List.argmin_mem hmin
    have e : dGet act q.1 = q.2 := dGet_of_mem hi.nodup hq
    refine ⟨⟨flPairDir rd alpha (SignType.sign (v i), i) q.1 x, (SignType.sign (v i), i), q.1, q.2⟩, ?_, rfl, e.symm, e ▸ hi.nonneg q.1, ?_, fun r => ?_⟩
    · unfold flLmoPairwise
      rw [hi1]
      simp only
      rw [hmin]
    · unfold repVertex l1Vertex
      rw [hi1]
    · have hdv : ∀ r : FlRep d, dot v (repVertex alpha r) = alpha * ((r.1 : ℝ) * v r.2) := fun r => by
        unfold dot repVertex
        simp only [mul_ite, mul_zero, Finset.sum_ite_eq', Finset.mem_univ, if_true]
        ring
      by_cases hr : r ∈ keys act
      · obtain ⟨p, hp, rfl⟩ := List.mem_map.mp hr
        refine mul_le_mul_of_nonneg_left ?_ (hi.nonneg _)
        rw [hdv, hdv]
        exact mul_le_mul_of_nonneg_left (List.le_of_mem_argmin (f := fun item : FlRep d × ℝ => (item.1.1 : ℝ) * v item.1.2) hp hmin) ha
      · rw [dGet_not_mem hr, zero_mul, zero_mul]

theorem PfwRun.d_pos (h : PfwRun g alpha K rd u eta w P) : 0 < d := by
  by_contra h0
  have h0 : d = 0 := by omega
  subst h0
  have := h.inner 0 (fun _ => 0) (fun _ => 0)
  rw [List.ofFn_zero] at this
  exact absurd this.pos (by simp)

/-- One iteration keeps the drift small. -/
theorem PfwNear.next (h : PfwRun g alpha K rd u eta w P) (ha : 0 < alpha) (hc : c = 49 * alpha + 15 + 3 * d) {x : Fin d → ℝ} {act act' : ActiveSet (FlRep d) ℝ} {k : ℕ} (hn : PfwNear alpha c w k x act)
    (hi : ActInv rd act) (h11 : 11 * (k * w) ≤ 1) (hca : c * (k * w) ≤ alpha) {fw away : FlRep d} {s : ℝ} (hs0 : 0 ≤ s) (hs1 : s ≤ dGet act away) (hw' : ∀ r, dGet act' r = flWeight rd act fw away s r) :
    PfwNear alpha c w (k + 1) (fun j => rd (x j + rd (s * flPairDir rd alpha fw away x j))) act' := by
  obtain ⟨b1, -, b3⟩ := hn.bounds hi ha h11 hca
  have hw0 : 0 ≤ w := h.rnd.u_nonneg.trans h.u_le
  have hE := flWeight_error h.rnd h.u_le h.eta_le h.w_le hi.nonneg b1 (fw := fw) hs0 hs1
  obtain ⟨e, he⟩ : ∃ e : FlRep d → ℝ, e = fun r => flWeight rd act fw away s r - (dGet act r + (if r = fw then s else 0) + (if r = away then -s else 0)) := ⟨_, rfl⟩
  have hE' : ∑ r, |e r| ≤ 11 * w := by rw [he]; exact hE
  have hd' : ∀ r, dGet act' r = dGet act r + (if r = fw then s else 0) + (if r = away then -s else 0) + e r := fun r => by rw [hw', he]; ring
  have ht : norm1 (fun j => repVertex alpha fw j - repVertex alpha away j) ≤ 2 * alpha := (norm1_sub_le _ _).trans (by linarith [norm1_repVertex ha.le fw, norm1_repVertex ha.le away])
  have hD := flPairDir_error h.rnd h.u_le h.eta_le h.w_le ha fw away b3
  have hU := pairUpdate_error h.rnd h.u_le h.eta_le h.w_le ha b3 hD ht hs0 (hs1.trans (b1 away))
  constructor
  · have e1 : ∑ r, dGet act' r - 1 = (∑ r, dGet act r - 1) + ∑ r, e r := by
      simp only [hd', Finset.sum_add_distrib, Finset.sum_ite_eq', Finset.mem_univ, if_true]
      ring
    rw [e1]
    refine (abs_add_le _ _).trans ?_
    push_cast
    linarith [hn.mass, Finset.abs_sum_le_sum_abs e Finset.univ]
  · have e1 : ∀ j, ∑ r, dGet act' r * repVertex alpha r j = ∑ r, dGet act r * repVertex alpha r j + s * (repVertex alpha fw j - repVertex alpha away j) + ∑ r, e r * repVertex alpha r j := by
      intro j
      have : ∀ r, dGet act' r * repVertex alpha r j = dGet act r * repVertex alpha r j + (if r = fw then s * repVertex alpha r j else 0) + (if r = away then -s * repVertex alpha r j else 0) + e r * repVertex alpha r j := fun r => by
        rw [hd']; split_ifs <;> ring
      simp only [this, Finset.sum_add_distrib, Finset.sum_ite_eq', Finset.mem_univ, if_true]
      ring
    have e2 := (comb_norm1_le ha.le e).trans (mul_le_mul_of_nonneg_left hE' ha.le)
    have e3 : ∑ j, |rd (x j + rd (s * flPairDir rd alpha fw away x j)) - ∑ r, dGet act' r * repVertex alpha r j| ≤
        ∑ j, (|rd (x j + rd (s * flPairDir rd alpha fw away x j)) - (x j + s * (repVertex alpha fw j - repVertex alpha away j))| + |x j - ∑ r, dGet act r * repVertex alpha r j| + |∑ r, e r * repVertex alpha r j|) := by
      refine Finset.sum_le_sum fun j _ => ?_
      rw [e1]
      have : rd (x j + rd (s * flPairDir rd alpha fw away x j)) - (∑ r, dGet act r * repVertex alpha r j + s * (repVertex alpha fw j - repVertex alpha away j) + ∑ r, e r * repVertex alpha r j) =
          (rd (x j + rd (s * flPairDir rd alpha fw away x j)) - (x j + s * (repVertex alpha fw j - repVertex alpha away j))) + (x j - ∑ r, dGet act r * repVertex alpha r j) + -(∑ r, e r * repVertex alpha r j) := by ring
      rw [this]
      refine (abs_add_three _ _ _).trans (le_of_eq ?_)
      rw [abs_neg]
    refine e3.trans ?_
    rw [Finset.sum_add_distrib, Finset.sum_add_distrib]
    have h5 := hn.near
    have h6 : c * ((k + 1 : ℕ) * w) = c * (k * w) + (49 * alpha + 15 + 3 * d) * w := by rw [hc]; push_cast; ring
    linarith

/-- The constants. -/
structure PfwConst (g : EuclideanSpace ℝ (Fin d) → EuclideanSpace ℝ (Fin d)) (L alpha K : ℝ) where
  c : ℝ
  Kh : ℝ
  Gh : ℝ
  K3 : ℝ
  c_def : c = 49 * alpha + 15 + 3 * d
  K_def : Kh = K * (1 + 3 * alpha)
  G_def : Gh = ‖g 0‖ + L * (3 * alpha) + Kh
  K3_def : K3 = 4 * d * (Gh * (4 * alpha + 1) + 1) + Gh * (9 * alpha + 5)

/-- What the certificate tells. -/
theorem PfwRun.cert (h : PfwRun g alpha K rd u eta w P) (k0 : PfwConst g L alpha K) (ha : 0 < alpha) (hL : 0 ≤ L) (hK : 0 ≤ K) (hG : LipGrad g L) (hcv : ConvexGrad f g) {x : Fin d → ℝ}
    {act : ActiveSet (FlRep d) ℝ} {k : ℕ} (hn : PfwNear alpha k0.c w k x act) (hi : ActInv rd act) (h11 : 11 * (k * w) ≤ 1) (hca : k0.c * (k * w) ≤ alpha) {o : FlPfwOut d}
    (ho : o.dir = flPairDir rd alpha o.fw o.away x) (hfw : repVertex alpha o.fw = l1Vertex alpha (fun j => -P.grad k x j))
    (haw : ∀ r, dGet act r * dot (fun j => -P.grad k x j) (repVertex alpha o.away) ≤ dGet act r * dot (fun j => -P.grad k x j) (repVertex alpha r)) {y : Fin d → ℝ} (hy : norm1 y ≤ alpha) :
    f (WithLp.toLp 2 x) - f (WithLp.toLp 2 y) ≤ (P.dot k o.dir fun j => -P.grad k x j) + (k0.K3 + 4 * alpha * k0.Kh) * w + k0.Gh * (k0.c + 11 * alpha) * (k * w) := by
  obtain ⟨-, -, hx⟩ := hn.bounds hi ha h11 hca
  have hw0 : 0 ≤ w := h.rnd.u_nonneg.trans h.u_le
  obtain ⟨p, hp⟩ : ∃ p : Fin d → ℝ, p = fun j => -P.grad k x j := ⟨_, rfl⟩
  obtain ⟨D, hD⟩ : ∃ D, D = o.dir := ⟨_, rfl⟩
  obtain ⟨s, hs⟩ : ∃ s, s = repVertex alpha o.fw := ⟨_, rfl⟩
  obtain ⟨a, haa⟩ : ∃ a, a = repVertex alpha o.away := ⟨_, rfl⟩
  rw [← hp] at hfw haw ⊢
  rw [← hD]
  have hsm : norm1 s ≤ alpha := by rw [hs]; exact norm1_repVertex ha.le _
  have ham : norm1 a ≤ alpha := by rw [haa]; exact norm1_repVertex ha.le _
  have hKh0 : 0 ≤ k0.Kh := by rw [k0.K_def]; positivity
  have hGh0 : 0 ≤ k0.Gh := by rw [k0.G_def]; positivity
  have hx2 : norm2 x ≤ 3 * alpha := by
    have h1 := toLp_le_norm1 x
    rw [toLp_norm] at h1
    exact h1.trans hx
  have hgd : ∀ j, |g (WithLp.toLp 2 x) j + p j| ≤ k0.Kh * w := fun j => by
    have h1 := h.grad k x j
    have h2 : K * w * (1 + norm2 x) ≤ K * w * (1 + 3 * alpha) := mul_le_mul_of_nonneg_left (by linarith) (by positivity)
    have h3 : |g (WithLp.toLp 2 x) j + p j| = |P.grad k x j - g (WithLp.toLp 2 x) j| := by rw [hp, ← abs_neg]; congr 1; ring
    rw [h3, k0.K_def]
    linarith
  have hg1 : ∀ j, |p j| ≤ k0.Gh := fun j => by
    have h0 : ‖g (WithLp.toLp 2 x)‖ ≤ ‖g 0‖ + L * (3 * alpha) := by
      have h1 := hG (WithLp.toLp 2 x) 0
      rw [sub_zero] at h1
      have h2 := mul_le_mul_of_nonneg_left ((toLp_le_norm1 x).trans hx) hL
      linarith [norm_sub_norm_le (g (WithLp.toLp 2 x)) (g 0)]
    have h1 : |g (WithLp.toLp 2 x) j| ≤ ‖g 0‖ + L * (3 * alpha) := (abs_le_norm2 _ j).trans (by rw [← norm_ofLp]; exact h0)
    have h3 : k0.Kh * w ≤ k0.Kh * 1 := mul_le_mul_of_nonneg_left (by linarith [h.w_le]) hKh0
    calc |p j| = |(g (WithLp.toLp 2 x) j + p j) + -g (WithLp.toLp 2 x) j| := congrArg _ (by ring)
      _ ≤ |g (WithLp.toLp 2 x) j + p j| + |g (WithLp.toLp 2 x) j| := (abs_add_le _ _).trans (by rw [abs_neg])
      _ ≤ k0.Gh := by rw [k0.G_def]; linarith [hgd j]
  -- the certificate
  have hde := flPairDir_error h.rnd h.u_le h.eta_le h.w_le ha o.fw o.away hx
  rw [← ho, ← hD, ← hs, ← haa] at hde
  have hsa : norm1 (fun j => s j - a j) ≤ 2 * alpha := (norm1_sub_le s a).trans (by linarith)
  have hDn : norm1 D ≤ 4 * alpha + 1 := by
    have h1 : norm1 D ≤ norm1 (fun j => s j - a j) + ∑ j, |D j - (s j - a j)| := by
      unfold norm1
      rw [← Finset.sum_add_distrib]
      refine Finset.sum_le_sum fun j _ => ?_
      calc |D j| = |(s j - a j) + (D j - (s j - a j))| := congrArg _ (by ring)
        _ ≤ _ := abs_add_le _ _
    have h2 : (9 * alpha + 5) * w ≤ (9 * alpha + 5) * (1 / 8) := mul_le_mul_of_nonneg_left h.w_le (by linarith)
    linarith
  have hdl : 4 * d * u ≤ 1 := le_trans (mul_le_mul_of_nonneg_left h.u_le (by positivity)) h.d_le
  have e1 := (h.inner k D p).error_vec h.rnd hdl
  have e2 : ∑ j, |D j * p j| ≤ k0.Gh * (4 * alpha + 1) := by
    calc ∑ j, |D j * p j| ≤ ∑ j, k0.Gh * |D j| := Finset.sum_le_sum fun j _ => by
          rw [abs_mul, mul_comm]; exact mul_le_mul_of_nonneg_right (hg1 j) (abs_nonneg _)
      _ = k0.Gh * norm1 D := by rw [← Finset.mul_sum]; rfl
      _ ≤ _ := mul_le_mul_of_nonneg_left hDn hGh0
  have e3 : 4 * d * (u * (∑ j, |D j * p j|) + eta) ≤ 4 * d * ((k0.Gh * (4 * alpha + 1) + 1) * w) := by
    refine mul_le_mul_of_nonneg_left ?_ (by positivity)
    have : u * (∑ j, |D j * p j|) ≤ w * (k0.Gh * (4 * alpha + 1)) := mul_le_mul h.u_le e2 (Finset.sum_nonneg fun _ _ => abs_nonneg _) hw0
    linarith [h.eta_le]
  have e4 : ∑ j, D j * p j = dot p s - dot p a + dot p (fun j => D j - (s j - a j)) := by
    unfold dot
    rw [← Finset.sum_sub_distrib, ← Finset.sum_add_distrib]
    exact Finset.sum_congr rfl fun j _ => by ring
  have e5 := abs_dot_le (y := fun j => D j - (s j - a j)) hg1
  have e6 : k0.Gh * norm1 (fun j => D j - (s j - a j)) ≤ k0.Gh * ((9 * alpha + 5) * w) := mul_le_mul_of_nonneg_left hde hGh0
  have e7 : dot p s - dot p a - k0.K3 * w ≤ P.dot k D p := by
    have : k0.K3 * w = 4 * d * ((k0.Gh * (4 * alpha + 1) + 1) * w) + k0.Gh * ((9 * alpha + 5) * w) := by rw [k0.K3_def]; ring
    linarith [(abs_le.mp e1).1, (abs_le.mp e5).1]
  -- the vertices
  have f1 : dot p y ≤ dot p s := by rw [hs, hfw]; exact l1Vertex_max h.d_pos p hy
  obtain ⟨z, hz⟩ : ∃ z : Fin d → ℝ, z = fun j => ∑ r, dGet act r * repVertex alpha r j := ⟨_, rfl⟩
  have f2 : (∑ r, dGet act r) * dot p a ≤ dot p z := by
    have : dot p z = ∑ r, dGet act r * dot p (repVertex alpha r) := by
      unfold dot
      rw [hz]
      simp only [Finset.mul_sum]
      rw [Finset.sum_comm]
      exact Finset.sum_congr rfl fun r _ => Finset.sum_congr rfl fun j _ => by ring
    rw [this, Finset.sum_mul, haa]
    exact Finset.sum_le_sum fun r _ => haw r
  have f3 : |(∑ r, dGet act r - 1) * dot p a| ≤ 11 * (k * w) * (k0.Gh * alpha) := by
    rw [abs_mul]
    exact mul_le_mul hn.mass ((abs_dot_le hg1).trans (mul_le_mul_of_nonneg_left ham hGh0)) (abs_nonneg _) (by positivity)
  have f4 : |dot p (fun j => x j - z j)| ≤ k0.Gh * (k0.c * (k * w)) := (abs_dot_le hg1).trans (mul_le_mul_of_nonneg_left (by rw [hz]; exact hn.near) hGh0)
  have f5 : dot p (fun j => x j - z j) = dot p x - dot p z := by
    unfold dot
    rw [← Finset.sum_sub_distrib]
    exact Finset.sum_congr rfl fun j _ => by ring
  -- the objective
  have g1 := hcv (WithLp.toLp 2 x) (WithLp.toLp 2 y)
  have g2 : ⟪g (WithLp.toLp 2 x), WithLp.toLp 2 y - WithLp.toLp 2 x⟫_ℝ = dot (fun j => g (WithLp.toLp 2 x) j + p j) (fun j => y j - x j) - (dot p y - dot p x) := by
    rw [inner_ofLp]
    unfold dot
    rw [← Finset.sum_sub_distrib, ← Finset.sum_sub_distrib]
    refine Finset.sum_congr rfl fun j _ => ?_
    show g (WithLp.toLp 2 x) j * (y j - x j) = _
    ring
  have g3 := abs_dot_le (y := fun j => y j - x j) hgd
  have g4 : norm1 (fun j => y j - x j) ≤ 4 * alpha := (norm1_sub_le y x).trans (by linarith)
  have g5 := mul_le_mul_of_nonneg_left g4 (show 0 ≤ k0.Kh * w by positivity)
  linarith [(abs_le.mp g3).1, (abs_le.mp f3).1, (abs_le.mp f4).1]

/-- What a run does. -/
theorem PfwRun.loop (h : PfwRun g alpha K rd u eta w P) (k0 : PfwConst g L alpha K) (ha : 0 < alpha) (hL : 0 ≤ L) (hK : 0 ≤ K) (hG : LipGrad g L) (hcv : ConvexGrad f g) (m : ℕ) :
    ∀ (it : ℕ) (x : Fin d → ℝ) (act : ActiveSet (FlRep d) ℝ), ActInv rd act → (11 * (it * w) ≤ 1 → k0.c * (it * w) ≤ alpha → PfwNear alpha k0.c w it x act) →
      ∃ r, flPfwLoop rd P m it x act = .ok r ∧ it ≤ r.nit ∧ r.nit ≤ it + m ∧ ActInv rd r.active ∧ (P.tol < r.certificate → r.nit = it + m) ∧
        (11 * ((r.nit + 1 : ℕ) * w) ≤ 1 → k0.c * ((r.nit + 1 : ℕ) * w) ≤ alpha → (∃ k ≤ r.nit + 1, PfwNear alpha k0.c w k r.x r.active) ∧
          (r.certificate ≤ P.tol → ∀ y, norm1 y ≤ alpha →
            f (WithLp.toLp 2 r.x) - f (WithLp.toLp 2 y) ≤ r.certificate + (k0.K3 + 4 * alpha * k0.Kh) * w + k0.Gh * (k0.c + 11 * alpha) * (r.nit * w))) := by
  have hw0 : 0 ≤ w := h.rnd.u_nonneg.trans h.u_le
  have hc0 : 0 ≤ k0.c := by rw [k0.c_def]; positivity
  have down : ∀ k : ℕ, 11 * ((k + 1 : ℕ) * w) ≤ 1 → k0.c * ((k + 1 : ℕ) * w) ≤ alpha → 11 * (k * w) ≤ 1 ∧ k0.c * (k * w) ≤ alpha := by
    intro k h1 h2
    push_cast at h1 h2
    have := mul_nonneg hc0 hw0
    constructor <;> linarith
  induction m with
  | zero =>
    intro it x act hi hn
    obtain ⟨o, ho1, ho2, ho3, ho4, ho5, ho6⟩ := flLmoPairwise_spec h.d_pos (fun j => -P.grad it x j) x hi ha.le
    rw [flPfwLoop, h.alpha_eq, ho1]
    obtain ⟨ce, hce⟩ : ∃ ce, ce = P.dot it o.dir fun j => -P.grad it x j := ⟨_, rfl⟩
    simp only [bind, Except.bind, pure, Except.pure]
    rw [← hce]
    split_ifs with ht
    · refine ⟨_, rfl, le_rfl, le_rfl, hi, fun hh => absurd hh (not_lt.mpr ht), fun h1 h2 => ?_⟩
      obtain ⟨h3, h4⟩ := down _ h1 h2
      refine ⟨⟨it, Nat.le_succ _, hn h3 h4⟩, fun _ y hy => ?_⟩
      rw [hce]
      exact h.cert k0 ha hL hK hG hcv (hn h3 h4) hi h3 h4 ho2 ho5 ho6 hy
    · push Not at ht
      obtain ⟨hs0, hs1⟩ := h.step it ⟨x, act, o, ce⟩ ht ho4
      have hs1' : P.step it ⟨x, act, o, ce⟩ ≤ dGet act o.away := hs1.trans (le_of_eq ho3)
      obtain ⟨act', a1, a2, a3, a4, a5, a6⟩ := flUpdateActiveSet_ok h.rnd hi.nodup hi.fix hi.nonneg (fw := o.fw) hs0 hs1'
      rw [a1]
      refine ⟨_, rfl, le_rfl, le_rfl, ⟨a2, a4, a5, a6⟩, fun _ => rfl, fun h1 h2 => ?_⟩
      obtain ⟨h3, h4⟩ := down _ h1 h2
      refine ⟨⟨it + 1, le_rfl, ?_⟩, fun hh => absurd hh (not_le.mpr ht)⟩
      have := (hn h3 h4).next h ha k0.c_def hi h3 h4 hs0 hs1' a3
      rw [← ho2] at this
      exact this
  | succ m ih =>
    intro it x act hi hn
    obtain ⟨o, ho1, ho2, ho3, ho4, ho5, ho6⟩ := flLmoPairwise_spec h.d_pos (fun j => -P.grad it x j) x hi ha.le
    rw [flPfwLoop, h.alpha_eq, ho1]
    obtain ⟨ce, hce⟩ : ∃ ce, ce = P.dot it o.dir fun j => -P.grad it x j := ⟨_, rfl⟩
    simp only [bind, Except.bind, pure, Except.pure]
    rw [← hce]
    split_ifs with ht
    · refine ⟨_, rfl, le_rfl, Nat.le_add_right _ _, hi, fun hh => absurd hh (not_lt.mpr ht), fun h1 h2 => ?_⟩
      obtain ⟨h3, h4⟩ := down _ h1 h2
      refine ⟨⟨it, Nat.le_succ _, hn h3 h4⟩, fun _ y hy => ?_⟩
      rw [hce]
      exact h.cert k0 ha hL hK hG hcv (hn h3 h4) hi h3 h4 ho2 ho5 ho6 hy
    · push Not at ht
      obtain ⟨hs0, hs1⟩ := h.step it ⟨x, act, o, ce⟩ ht ho4
      have hs1' : P.step it ⟨x, act, o, ce⟩ ≤ dGet act o.away := hs1.trans (le_of_eq ho3)
      obtain ⟨act', a1, a2, a3, a4, a5, a6⟩ := flUpdateActiveSet_ok h.rnd hi.nodup hi.fix hi.nonneg (fw := o.fw) hs0 hs1'
      rw [a1]
      simp only
      obtain ⟨r, r1, r2, r3, r4, r5, r6⟩ := ih (it + 1) _ act' ⟨a2, a4, a5, a6⟩ (fun h1 h2 => by
        obtain ⟨h3, h4⟩ := down _ h1 h2
        have := (hn h3 h4).next h ha k0.c_def hi h3 h4 hs0 hs1' a3
        rw [← ho2] at this
        exact this)
      exact ⟨r, r1, by omega, by omega, r4, fun hh => by have := r5 hh; omega, r6⟩

/-! ### C123 -/

/-- What is guaranteed for a run of the arguments `P`: it does not raise, the weights of the active set are nonnegative, one for each vertex, and as long as `C (nit + 1) w ≤ 1`

* the weights add up to one, and the result is the combination of the vertices they say it is, up to `C (nit + 1) w`; so the result leaves the ball by at most that much;
* for a result accepted by the tolerance, the computed certificate bounds the suboptimality, up to `C (nit + 1) w`. -/
def PfwGuarantee (f : EuclideanSpace ℝ (Fin d) → ℝ) (alpha C w : ℝ) (P : FlPfwArgs d) (r : FlPfwResult d) : Prop :=
  r.nit + 1 ≤ P.maxIter ∧ (P.tol < r.certificate → r.nit + 1 = P.maxIter) ∧ (r.active.map Prod.fst).Nodup ∧ (∀ p ∈ r.active, 0 ≤ p.2) ∧
  (C * (r.nit + 1) * w ≤ 1 →
    |(r.active.map Prod.snd).sum - 1| ≤ C * (r.nit + 1) * w ∧
    (∑ j, |r.x j - activeComb alpha r.active j|) ≤ C * (r.nit + 1) * w ∧
    norm1 r.x ≤ alpha + C * (r.nit + 1) * w ∧
    (r.certificate ≤ P.tol → ∀ y, norm1 y ≤ alpha → f (WithLp.toLp 2 r.x) - f (WithLp.toLp 2 y) ≤ r.certificate + C * (r.nit + 1) * w))

theorem PfwGuarantee.mono {f : EuclideanSpace ℝ (Fin d) → ℝ} {alpha C C' w : ℝ} {P : FlPfwArgs d} {r : FlPfwResult d} (h : PfwGuarantee f alpha C w P r) (hC : C ≤ C') (hw : 0 ≤ w) :
    PfwGuarantee f alpha C' w P r := by
  obtain ⟨h1, h2, h3, h4, h5⟩ := h
  have m : C * (r.nit + 1) * w ≤ C' * (r.nit + 1) * w := mul_le_mul_of_nonneg_right (mul_le_mul_of_nonneg_right hC (by positivity)) hw
  refine ⟨h1, h2, h3, h4, fun hh => ?_⟩
  obtain ⟨g1, g2, g3, g4⟩ := h5 (by linarith)
  exact ⟨by linarith, by linarith, by linarith, fun a y hy => by linarith [g4 a y hy]⟩

/-- **C123.** `minimize_frank_wolfe` on the l1 ball of radius `alpha` with `variant="pairwise"`, everything computed in rounded arithmetic, with any rule for the step size whose steps are between
`0` and the weight of the away vertex.  There is a constant `C`, which depends on the problem only, such that in every arithmetic of precision `w` with `C w ≤ 1` the run never raises and
`PfwGuarantee` holds. -/
theorem C123_rounded_pairwise {f : EuclideanSpace ℝ (Fin d) → ℝ} {g : EuclideanSpace ℝ (Fin d) → EuclideanSpace ℝ (Fin d)} {L alpha K : ℝ} (hL : 0 ≤ L) (ha : 0 < alpha) (hK : 0 ≤ K)
    (hc : ConvexGrad f g) (hG : LipGrad g L) :
    ∃ C, 0 < C ∧ ∀ (rd : ℝ → ℝ) (u eta w : ℝ), Rounding rd u eta → rd 1 = 1 → u ≤ w → eta ≤ w → C * w ≤ 1 →
      ∀ P : FlPfwArgs d, (∀ k x j, |P.grad k x j - g (WithLp.toLp 2 x) j| ≤ K * w * (1 + norm2 x)) → (∀ k v y, FlDot rd (List.ofFn fun j => (v j, y j)) (P.dot k v y)) →
        (∀ k l, P.tol < l.certificate → 0 ≤ l.out.maxStep → 0 ≤ P.step k l ∧ P.step k l ≤ l.out.maxStep) → P.alpha = alpha → 0 ≤ P.tol → 1 ≤ P.maxIter →
        ∃ r, flMinimizePfw rd P = .ok r ∧ PfwGuarantee f alpha C w P r := by
  obtain ⟨k0⟩ : Nonempty (PfwConst g L alpha K) := ⟨⟨_, _, _, _, rfl, rfl, rfl, rfl⟩⟩
  have hd0 : (0 : ℝ) ≤ d := Nat.cast_nonneg d
  have hc0 : 0 ≤ k0.c := by rw [k0.c_def]; positivity
  have hKh0 : 0 ≤ k0.Kh := by rw [k0.K_def]; positivity
  have hGh0 : 0 ≤ k0.Gh := by rw [k0.G_def]; positivity
  have hK30 : 0 ≤ k0.K3 := by rw [k0.K3_def]; positivity
  have hca : 0 ≤ k0.c / alpha := by positivity
  have p1 : 0 ≤ 4 * alpha * k0.Kh := by positivity
  have p2 : 0 ≤ k0.Gh * (k0.c + 11 * alpha) := by positivity
  obtain ⟨C, hC⟩ : ∃ C, C = 11 + 4 * d + k0.c / alpha + (k0.c + 11 * alpha) + (k0.K3 + 4 * alpha * k0.Kh) + k0.Gh * (k0.c + 11 * alpha) := ⟨_, rfl⟩
  refine ⟨C, by rw [hC]; linarith, ?_⟩
  intro rd u eta w hr h1 hu he hCw P hgr hdot hst hal htol hm
  have hw0 : 0 ≤ w := hr.u_nonneg.trans hu
  have le1 : ∀ t, t ≤ C → t * w ≤ C * w := fun t ht => mul_le_mul_of_nonneg_right ht hw0
  have H : PfwRun g alpha K rd u eta w P := ⟨hr, hu, he, by
    have := le1 8 (by rw [hC]; linarith)
    linarith, by
    have := le1 (4 * d) (by rw [hC]; linarith)
    linarith, hgr, hdot, hst, hal⟩
  have hg : ∀ r, dGet ([(P.x0Rep, 1)] : ActiveSet (FlRep d) ℝ) r = if r = P.x0Rep then 1 else 0 := fun r => by
    rw [dGet_cons]
    by_cases hh : P.x0Rep = r
    · rw [if_pos hh, if_pos hh.symm]
    · rw [if_neg hh, if_neg (Ne.symm hh)]; exact dGet_not_mem (by simp [keys])
  have hi : ActInv rd ([(P.x0Rep, 1)] : ActiveSet (FlRep d) ℝ) := ⟨by simp [keys], fun r => by
      rw [hg]; split_ifs
      · exact h1
      · exact hr.zero, fun r => by rw [hg]; split_ifs <;> norm_num, by simp⟩
  have hn : PfwNear alpha k0.c w 0 (repVertex alpha P.x0Rep) ([(P.x0Rep, 1)] : ActiveSet (FlRep d) ℝ) := by
    constructor
    · simp [hg]
    · simp [hg]
  obtain ⟨m, hmm⟩ : ∃ m, P.maxIter = m + 1 := ⟨P.maxIter - 1, by omega⟩
  obtain ⟨r, r1, -, r3, r4, r5, r6⟩ := H.loop k0 ha hL hK hG hc m 0 _ _ hi fun _ _ => hn
  refine ⟨r, ?_, by omega, fun hh => by have := r5 hh; omega, r4.nodup, fun p hp => by rw [← dGet_of_mem r4.nodup hp]; exact r4.nonneg _, fun hCk => ?_⟩
  · unfold flMinimizePfw
    rw [if_neg (not_lt.mpr htol), hmm]
    simp only
    rw [hal]
    exact r1
  · have hkw : 0 ≤ ((r.nit : ℝ) + 1) * w := by positivity
    have le2 : ∀ t, t ≤ C → t * (((r.nit : ℝ) + 1) * w) ≤ C * (r.nit + 1) * w := fun t ht => by
      have := mul_le_mul_of_nonneg_right ht hkw
      linarith
    have q1 : 11 * ((r.nit + 1 : ℕ) * w) ≤ 1 := by
      push_cast
      linarith [le2 11 (by rw [hC]; linarith)]
    have q2 : k0.c * ((r.nit + 1 : ℕ) * w) ≤ alpha := by
      push_cast
      have e : k0.c * (((r.nit : ℝ) + 1) * w) = alpha * (k0.c / alpha * (((r.nit : ℝ) + 1) * w)) := by field_simp
      rw [e]
      exact mul_le_of_le_one_right ha.le (by linarith [le2 (k0.c / alpha) (by rw [hC]; linarith)])
    obtain ⟨⟨k, hk, hnear⟩, hcert⟩ := r6 q1 q2
    have hkr : (k : ℝ) * w ≤ ((r.nit : ℝ) + 1) * w := mul_le_mul_of_nonneg_right (by exact_mod_cast hk) hw0
    have s1 : (r.active.map Prod.snd).sum = ∑ k, dGet r.active k := by
      have := sum_dict r4.nodup fun _ => (1 : ℝ)
      simpa using this
    have s2 : ∀ j, activeComb alpha r.active j = ∑ k, dGet r.active k * repVertex alpha k j := fun j => sum_dict r4.nodup fun k => repVertex alpha k j
    have q3 : k0.c * (k * w) ≤ k0.c * (((r.nit : ℝ) + 1) * w) := mul_le_mul_of_nonneg_left hkr hc0
    refine ⟨?_, ?_, ?_, fun hh y hy => ?_⟩
    · rw [s1]
      have := le2 11 (by rw [hC]; linarith)
      linarith [hnear.mass]
    · simp only [s2]
      have := le2 k0.c (by rw [hC]; linarith)
      linarith [hnear.near]
    · push_cast at q1 q2
      have b := (hnear.bounds r4 ha (by linarith) (by linarith)).2.1
      have e1 : alpha * (11 * (k * w)) ≤ alpha * (11 * (((r.nit : ℝ) + 1) * w)) := mul_le_mul_of_nonneg_left (by linarith) ha.le
      have := le2 (k0.c + 11 * alpha) (by rw [hC]; linarith)
      linarith
    · have b := hcert hh y hy
      have e1 := le2 ((k0.K3 + 4 * alpha * k0.Kh) + k0.Gh * (k0.c + 11 * alpha)) (by rw [hC]; linarith)
      have e2 : 0 ≤ (k0.K3 + 4 * alpha * k0.Kh) * (r.nit * w) := by positivity
      have e3 : 0 ≤ k0.Gh * (k0.c + 11 * alpha) * w := by positivity
      linarith

/-- The step sizes of `step="DR"` and of the line search are between `0` and the weight of the away vertex, whatever the estimate of the Lipschitz constant. -/
theorem C123_step_admissible {rd : ℝ → ℝ} {u eta : ℝ} (hr : Rounding rd u eta) {cert normD lip maxStep : ℝ} (hc : 0 < cert) (hn : 0 ≤ normD) (hl : 0 ≤ lip) (hm : 0 ≤ maxStep) :
    0 ≤ flDrStep rd cert normD lip maxStep ∧ flDrStep rd cert normD lip maxStep ≤ maxStep := by
  unfold flDrStep
  split_ifs
  · exact ⟨hm, le_rfl⟩
  · exact ⟨le_min (hr.nonneg (div_nonneg hc.le (hr.nonneg (mul_nonneg hn hl)))) hm, min_le_right _ _⟩

/-- **C123.** The losses of the library: `minimize_frank_wolfe(f.f_grad, x0, L1Ball(alpha).lmo_pairwise, x0_rep, variant="pairwise")`, gradients computed in rounded arithmetic with any order of
the operations in the matrix products and the exponential to precision `w`. -/
theorem C123_rounded_pairwise_regression (f : LossObj n d) (hf : f.Good) {sv : ℝ} (hsv : IsLargestSingular f.mat sv) {alpha : ℝ} (ha : 0 < alpha) :
    ∃ C, 0 < C ∧ ∀ (rd fexp : ℝ → ℝ) (u eta w : ℝ), Rounding rd u eta → rd 1 = 1 → u ≤ w → eta ≤ w ^ 2 → (∀ t ≤ 0, |fexp t - Real.exp t| ≤ w) → C * w ≤ 1 →
      ∀ P : FlPfwArgs d, (∀ k x, f.FlGrad rd fexp x (P.grad k x)) → (∀ k v y, FlDot rd (List.ofFn fun j => (v j, y j)) (P.dot k v y)) →
        (∀ k l, P.tol < l.certificate → 0 ≤ l.out.maxStep → 0 ≤ P.step k l ∧ P.step k l ≤ l.out.maxStep) → P.alpha = alpha → 0 ≤ P.tol → 1 ≤ P.maxIter →
        ∃ r, flMinimizePfw rd P = .ok r ∧ PfwGuarantee f.fn alpha C w P r := by
  obtain ⟨-, hc, hq, hG, -⟩ := C92_loss f hf hsv
  have hL : 0 ≤ f.lipschitz sv := by
    obtain ⟨phi, phi', c, hc, hLc, -⟩ := f.erm_form hf
    rw [hLc]
    have h1 : 0 ≤ c * (sv * sv) / n := by have := mul_self_nonneg sv; positivity
    linarith [f.reg_nonneg hf]
  obtain ⟨K, hK, g1⟩ := f.flGrad_error hf
  obtain ⟨C, hC, h⟩ := C123_rounded_pairwise hL ha hK hc hG
  have hn0 : (0 : ℝ) ≤ n := Nat.cast_nonneg n
  have hd0 : (0 : ℝ) ≤ d := Nat.cast_nonneg d
  obtain ⟨C', hC'⟩ : ∃ C', C' = C + 4 * n + 4 * d + 10 := ⟨_, rfl⟩
  refine ⟨C', by rw [hC']; linarith, ?_⟩
  intro rd fexp u eta w hr h1 hu he hexp hCw P hgr hdot hst hal htol hm
  have hw0 : 0 ≤ w := hr.u_nonneg.trans hu
  have hnw : 0 ≤ n * w := by positivity
  have hdw : 0 ≤ d * w := by positivity
  have hCw0 : 0 ≤ C * w := by positivity
  rw [hC', add_mul, add_mul, add_mul] at hCw
  have hsc : Scale rd u eta w 1 := ⟨hr, hu, he, hw0, by linarith, le_rfl⟩
  obtain ⟨r, r1, r2⟩ := h rd u eta w hr h1 hu hsc.eta_le' (by linarith) P
    (fun k x j => g1 rd u eta w hsc (by linarith) (by linarith) (by linarith) fexp hexp x _ (hgr k x) j) hdot hst hal htol hm
  exact ⟨r, r1, r2.mono (by rw [hC']; linarith) hw0⟩

/-! ### Instances -/

/-- Every loss, data set, radius, starting vertex, tolerance and number of iterations, `step="DR"` with any Lipschitz estimate and any values `nd` for the squared norms, in every arithmetic with enough bits, with the results of a
sequential implementation: the hypotheses of C123 can be met; the run returns a point of the ball up to `tol`, with value within `2 tol` of the best value if the certificate is accepted. -/
example (hn : 0 < n) (hd : 0 < d) (f : LossObj n d) (hf : f.Good) {sv : ℝ} (hsv : IsLargestSingular f.mat sv) {alpha tol lip : ℝ} (ha : 0 < alpha) (htol : 0 < tol) (hlip : 0 ≤ lip)
    (rep : FlRep d) (N : ℕ) (nd : (Fin d → ℝ) → ℝ) (hnd : ∀ v, 0 ≤ nd v) :
    ∃ p0 : ℕ, ∀ p ≥ p0, ∃ (P : FlPfwArgs d) (r : FlPfwResult d), P.x0Rep = rep ∧ P.tol = tol ∧ P.maxIter = N + 1 ∧
      (∀ k l, P.step k l = flDrStep (flBits p) l.certificate (nd l.out.dir) lip l.out.maxStep) ∧
      (∀ k x, f.FlGrad (flBits p) (fun t => flBits p (Real.exp t)) x (P.grad k x)) ∧ flMinimizePfw (flBits p) P = .ok r ∧ norm1 r.x ≤ alpha + tol ∧
      (r.certificate ≤ tol → ∀ y, norm1 y ≤ alpha → f.fn (WithLp.toLp 2 r.x) ≤ f.fn (WithLp.toLp 2 y) + 2 * tol) := by
  obtain ⟨C, hC, h⟩ := C123_rounded_pairwise_regression f hf hsv ha
  have hN : (0 : ℝ) < N + 1 := by positivity
  obtain ⟨p0, hp0⟩ := exists_pow_lt_of_lt_one (show 0 < min tol 1 / (C * (N + 1)) by have := lt_min htol one_pos; positivity) (show (2⁻¹ : ℝ) < 1 by norm_num)
  refine ⟨p0, fun p hp => ?_⟩
  have hw : C * (N + 1) * (2⁻¹ : ℝ) ^ p < min tol 1 := by
    rw [mul_comm, ← lt_div_iff₀ (by positivity)]
    exact lt_of_le_of_lt (pow_le_pow_of_le_one (by norm_num) (by norm_num) hp) hp0
  have hw1 := hw.trans_le (min_le_left _ _)
  have hw2 := hw.trans_le (min_le_right _ _)
  have hpos : (0 : ℝ) < 2⁻¹ ^ p := by positivity
  have hhalf : (2⁻¹ : ℝ) ^ (p + 1) = 2⁻¹ ^ p / 2 := by rw [pow_succ]; ring
  have hr := flBits_rounding (p := p) (eta := 0) le_rfl
  have hCw : C * (2⁻¹ : ℝ) ^ p ≤ 1 := by
    have : 0 ≤ C * N * (2⁻¹ : ℝ) ^ p := by positivity
    linarith
  choose gr hgr using fun x => f.exists_flGrad (flBits p) (fun t => flBits p (Real.exp t)) hn hd x
  choose dt hdt using fun v y : Fin d → ℝ => exists_flDot_vec (flBits p) hd fun j => (v j, y j)
  obtain ⟨P, hP⟩ : ∃ P : FlPfwArgs d, P = ⟨fun _ => gr, fun _ => dt, fun _ l => flDrStep (flBits p) l.certificate (nd l.out.dir) lip l.out.maxStep, alpha, rep, tol, N + 1⟩ := ⟨_, rfl⟩
  obtain ⟨r, r1, r2, -, -, -, r3⟩ := h (flBits p) (fun t => flBits p (Real.exp t)) (2⁻¹ ^ (p + 1)) 0 (2⁻¹ ^ p) hr (flBits_one p) (by rw [hhalf]; linarith) (by positivity) (fun t ht => by
      have h1 := hr.err (Real.exp t)
      rw [abs_of_pos (Real.exp_pos t), add_zero] at h1
      have h2 : Real.exp t ≤ 1 := Real.exp_le_one_iff.mpr ht
      have h3 := mul_le_mul_of_nonneg_left h2 (show (0 : ℝ) ≤ 2⁻¹ ^ (p + 1) by positivity)
      rw [hhalf] at h1 h3
      linarith) hCw P (fun _ x => by rw [hP]; exact hgr x) (fun _ v y => by rw [hP]; exact hdt v y) (fun k l hl hm => by
        rw [hP] at hl ⊢
        exact C123_step_admissible hr (htol.trans hl) (hnd _) hlip hm) (by rw [hP]) (by rw [hP]; exact htol.le) (by rw [hP]; exact Nat.succ_le_succ (Nat.zero_le _))
  have e1 : P.tol = tol := by rw [hP]
  have e2 : P.maxIter = N + 1 := by rw [hP]
  rw [e2] at r2
  have c3 : C * ((r.nit : ℝ) + 1) * 2⁻¹ ^ p ≤ C * (N + 1) * 2⁻¹ ^ p := by
    have : (r.nit : ℝ) + 1 ≤ N + 1 := by exact_mod_cast r2
    exact mul_le_mul_of_nonneg_right (mul_le_mul_of_nonneg_left this hC.le) hpos.le
  obtain ⟨-, -, q3, q4⟩ := r3 (by linarith)
  refine ⟨P, r, by rw [hP], e1, e2, fun _ _ => by rw [hP], fun _ x => by rw [hP]; exact hgr x, r1, by linarith, fun hh y hy => ?_⟩
  have := q4 (by rw [e1]; exact hh) y hy
  linarith

end Copt
