import Verif.Proof.FloatValue
import Verif.Props.FloatSolver

/-!
# C121: values of the losses with rounded arithmetic
-/

set_option linter.unusedSectionVars false

namespace Copt

open Spec

variable {rd : ℝ → ℝ} {u eta w r : ℝ} {n d : ℕ}

theorem softplus_lipschitz (a b : ℝ) : |Real.log (1 + Real.exp (-a)) - Real.log (1 + Real.exp (-b))| ≤ 1 * |a - b| := by
  have key : ∀ a b : ℝ, Real.log (1 + Real.exp (-a)) - Real.log (1 + Real.exp (-b)) ≤ |a - b| := by
    intro a b
    have h1 : 1 + Real.exp (-a) ≤ Real.exp |a - b| * (1 + Real.exp (-b)) := by
      have e1 : 1 ≤ Real.exp |a - b| := Real.one_le_exp (abs_nonneg _)
      have e2 : Real.exp (-a) ≤ Real.exp |a - b| * Real.exp (-b) := by
        rw [← Real.exp_add]; exact Real.exp_le_exp.mpr (by linarith [neg_abs_le (a - b)])
      linarith
    have h2 := Real.log_le_log (by positivity) h1
    rw [Real.log_mul (Real.exp_pos _).ne' (by positivity), Real.log_exp] at h2
    linarith
  rw [one_mul, abs_le]
  have h1 := key a b
  have h2 := key b a
  rw [abs_sub_comm] at h2
  constructor <;> linarith

theorem softplus_le (x : ℝ) : Real.log (1 + Real.exp (-x)) ≤ 1 + |x| := by
  have h1 := softplus_lipschitz x 0
  rw [sub_zero, one_mul] at h1
  have h2 := (abs_le.mp h1).2
  have h3 : Real.log (1 + Real.exp (-0)) ≤ 1 := by
    have := log1p_upper (Real.exp_pos (-0)).le
    simpa using this
  linarith

theorem huber1_lipschitz {delta : ℝ} (hd : 0 ≤ delta) (a b : ℝ) : |huber1 delta a - huber1 delta b| ≤ delta * |a - b| := by
  have key : ∀ a b : ℝ, huber1 delta a - huber1 delta b ≤ delta * |a - b| := by
    intro a b
    have h1 := huber1_ge hd b (clip1 delta a) (clip1_abs hd a)
    have h2 := huber1_eq hd a
    have h3 : clip1 delta a * (a - b) ≤ delta * |a - b| := by
      refine (le_abs_self _).trans ?_
      rw [abs_mul]
      exact mul_le_mul_of_nonneg_right (clip1_abs hd a) (abs_nonneg _)
    linarith
  rw [abs_le]
  have h1 := key a b
  have h2 := key b a
  rw [abs_sub_comm] at h2
  constructor <;> linarith

/-- The term `0.5 * alpha * x.dot(x)`. -/
theorem pen_close (alpha : ℝ) (hs : Scale rd u eta w r) (hd : 4 * d * w ≤ 1) {x : Fin d → ℝ} (hx : ∀ j, |x j| ≤ r) {q : ℝ} (hq : FlDot rd (List.ofFn fun j => (x j, x j)) q) :
    ∃ C B, C = 2 * ((2 * 0 + |0.5 * alpha| + 1) * (d + (4 * d * (d + 1))) + |0.5 * alpha| * (4 * d * (d + 1))) + |0.5 * alpha| * d + 1 ∧ B = |0.5 * alpha| * d ∧
      Close w (r * r) C B (rd (rd (0.5 * alpha) * q)) (0.5 * alpha * dot x x) := by
  refine ⟨_, _, rfl, rfl, ?_⟩
  have h1 := ((Close.const hs.one (0.5 * alpha)).round hs.one).mulR hs.one hs.sq (sq_close hs hd hx hq)
  rw [one_mul] at h1
  exact h1.round hs.sq

theorem logValue_error (hn : 0 < n) (f : LogLoss n d) (hf : ∀ i, 0 ≤ f.b i ∧ f.b i ≤ 1) : ∃ K, 0 ≤ K ∧ ∀ (rd : ℝ → ℝ) (u eta w r : ℝ), Scale rd u eta w r → 4 * n * w ≤ 1 → 4 * d * w ≤ 1 →
    2⁻¹ ^ 53 ≤ w → w ≤ 1 / 8 → ∀ fexp flog1p, FlExpLog fexp flog1p w eta → ∀ x v, (∀ j, |x j| ≤ r) → f.FlValue rd fexp flog1p x v →
      |v - logisticLoss f.A f.b f.alpha x| ≤ K * w * (r * r) := by
  obtain ⟨C1, B1, hC1, hB1, h1⟩ := matvec_close f.A
  refine Exists.intro ?K ⟨?hK, ?main⟩
  case main =>
    intro rd u eta w r hs hnw hdw hw hw8 fexp flog1p hel x v hx hv
    obtain ⟨z, s, q, hz, hsum, hq, rfl⟩ := hv
    have e1 := h1 rd u eta w r hs hdw x z hx hz
    have hw0 := hs.w_nonneg
    have he8 : eta ≤ 1 / 8 := hs.eta_le'.trans hw8
    have e2 : ∀ i, Close w r (1 * C1 + 8 * (2 + B1 + C1)) (1 + 1 * B1) (flLogsig rd fexp flog1p (z i)) (-Real.log (1 + Real.exp (-(dot (f.A i) x)))) := by
      intro i
      have g1 := (e1 i).lip hs (g := fun t => -Real.log (1 + Real.exp (-t))) zero_le_one (fun a b => by
        have := softplus_lipschitz b a
        rw [abs_sub_comm b a] at this
        refine le_trans (le_of_eq ?_) this
        congr 1; ring)
      have g2 := g1.perturb hs (v := flLogsig rd fexp flog1p (z i)) (K := 8 * (2 + B1 + C1)) (by positivity) (by
        have g3 := flLogsig_error hs.rnd hs.u_le hw hw8 he8 hel (z i)
        rw [sub_neg_eq_add]
        refine g3.trans ?_
        have g4 := softplus_le (z i)
        have g5 := (e1 i).size' hs
        have g6 := hs.r_ge
        have g7 : 4 * w * Real.log (1 + Real.exp (-z i)) ≤ 4 * w * ((1 + B1 + C1) * r) := mul_le_mul_of_nonneg_left (by linarith) (by linarith)
        have g8 : w ≤ w * r := le_mul_of_one_le_right hw0 g6
        have g9 := hs.eta_le'
        have g10 : 0 ≤ w * r * (B1 + C1) := by positivity
        linarith)
      refine g2.mono hs le_rfl ?_
      have : |(fun t => -Real.log (1 + Real.exp (-t))) 0| ≤ 1 := by
        show |-Real.log (1 + Real.exp (-0))| ≤ 1
        rw [abs_neg, abs_of_nonneg (Real.log_nonneg (by linarith [Real.exp_pos (-0)]))]
        have := log1p_upper (Real.exp_pos (-0)).le
        simpa using this
      linarith
    have e3 : ∀ i, Close w 1 (2 * 0 + 1 + 1) 1 (rd (1 - f.b i)) (1 - f.b i) := fun i =>
      (Close.self hs.one (by have := hf i; rw [abs_le]; constructor <;> linarith)).round hs.one
    have e4 := fun i => (e3 i).mulR hs.one hs (e1 i)
    simp only [one_mul] at e4
    have e5 := fun i => ((((e4 i).round hs).sub (e2 i)).round hs).up hs (le_sq_of_one_le hs.r_ge)
    have e6 := Close.sumFn hs.sq hnw e5 (by positivity) (by positivity) hsum
    obtain ⟨C, B, hC, hB, e7⟩ := pen_close f.alpha hs hdw hx hq
    rw [hC, hB] at e7
    have e8 := (((e6.div (n : ℝ)).round hs.sq).add e7).round hs.sq
    have hval : (∑ i, ((1 - f.b i) * dot (f.A i) x - -Real.log (1 + Real.exp (-dot (f.A i) x)))) / n + 0.5 * f.alpha * dot x x = logisticLoss f.A f.b f.alpha x := by
      unfold logisticLoss erm
      have : ∀ i, logistic1 (f.b i) (dot (f.A i) x) = (1 - f.b i) * dot (f.A i) x - -Real.log (1 + Real.exp (-dot (f.A i) x)) := fun i => by
        rw [logistic1_eq, log_sigmoid]
      simp only [this]
      rw [show f.alpha / 2 = 0.5 * f.alpha by norm_num; ring]
    rw [hval] at e8
    exact e8.err
  case hK => positivity

theorem squareValue_error (hn : 0 < n) (f : SquareLoss n d) : ∃ K, 0 ≤ K ∧ ∀ (rd : ℝ → ℝ) (u eta w r : ℝ), Scale rd u eta w r → 4 * n * w ≤ 1 → 4 * d * w ≤ 1 →
    ∀ x v, (∀ j, |x j| ≤ r) → f.FlValue rd x v → |v - squareLoss f.A f.b f.alpha x| ≤ K * w * (r * r) := by
  obtain ⟨C1, B1, hC1, hB1, h1⟩ := matvec_close f.A
  obtain ⟨Bb, hBb⟩ : ∃ Bb, Bb = ∑ i, |f.b i| := ⟨_, rfl⟩
  have hBb0 : 0 ≤ Bb := by rw [hBb]; exact Finset.sum_nonneg fun i _ => abs_nonneg _
  refine Exists.intro ?K ⟨?hK, ?main⟩
  case main =>
    intro rd u eta w r hs hnw hdw x v hx hv
    obtain ⟨p, s, q, hp, hsum, hq, rfl⟩ := hv
    have e1 := h1 rd u eta w r hs hdw x p hx hp
    have e2 := fun i => ((e1 i).sub ((Close.const hs (f.b i)).mono hs le_rfl (B' := Bb) (by
      rw [hBb]; exact Finset.single_le_sum (f := fun i => |f.b i|) (fun i _ => abs_nonneg _) (Finset.mem_univ i)))).round hs
    have e3 := fun i => ((e2 i).mulR hs hs (e2 i)).round hs.sq
    have e4 := Close.sumFn hs.sq hnw e3 (by positivity) (by positivity) hsum
    have e5 := ((((e4.div (n : ℝ)).round hs.sq).smul 0.5).round hs.sq).add (((((sq_close hs hdw hx hq).smul f.alpha).round hs.sq).smul 0.5).round hs.sq)
    have e6 := e5.round hs.sq
    have hval : 0.5 * ((∑ i, (dot (f.A i) x - f.b i) * (dot (f.A i) x - f.b i)) / n) + 0.5 * (f.alpha * dot x x) = squareLoss f.A f.b f.alpha x := by
      unfold squareLoss dot
      simp only [pow_two]
      norm_num; ring
    rw [hval] at e6
    exact e6.err
  case hK => positivity

theorem huberValue_error (hn : 0 < n) (f : HuberLoss n d) (hd0 : 0 < f.delta) : ∃ K, 0 ≤ K ∧ ∀ (rd : ℝ → ℝ) (u eta w r : ℝ), Scale rd u eta w r → 4 * n * w ≤ 1 → 4 * d * w ≤ 1 →
    ∀ x v, (∀ j, |x j| ≤ r) → f.FlValue rd x v → |v - huberLoss f.A f.b f.alpha f.delta x| ≤ K * w * (r * r) := by
  classical
  obtain ⟨C1, B1, hC1, hB1, h1⟩ := matvec_close f.A
  obtain ⟨Bb, hBb⟩ : ∃ Bb, Bb = ∑ i, |f.b i| := ⟨_, rfl⟩
  have hBb0 : 0 ≤ Bb := by rw [hBb]; exact Finset.sum_nonneg fun i _ => abs_nonneg _
  obtain ⟨Cz, hCz⟩ : ∃ Cz, Cz = 2 * (C1 + 0) + (B1 + Bb) + 1 := ⟨_, rfl⟩
  have hCz0 : 0 ≤ Cz := by rw [hCz]; positivity
  obtain ⟨Z, hZ⟩ : ∃ Z, Z = B1 + Bb + Cz := ⟨_, rfl⟩
  have hZ0 : 0 ≤ Z := by rw [hZ]; positivity
  refine Exists.intro ?K ⟨?hK, ?main⟩
  case main =>
    intro rd u eta w r hs hnw hdw x v hx hv
    obtain ⟨p, s, s', q, hp, hsum, hsum', hq, rfl⟩ := hv
    have hw0 := hs.w_nonneg
    have e1 := h1 rd u eta w r hs hdw x p hx hp
    obtain ⟨z, hz⟩ : ∃ z : Fin n → ℝ, z = fun i => rd (p i - f.b i) := ⟨_, rfl⟩
    have e2 : ∀ i, Close w r Cz (B1 + Bb) (z i) (dot (f.A i) x - f.b i) := by
      intro i
      have h2 := ((e1 i).sub ((Close.const hs (f.b i)).mono hs le_rfl (B' := Bb) (by
        rw [hBb]; exact Finset.single_le_sum (f := fun i => |f.b i|) (fun i _ => abs_nonneg _) (Finset.mem_univ i)))).round hs
      rw [← hCz] at h2
      rw [hz]; exact h2
    have hzs : ∀ i, Close w r 0 Z (z i) (z i) := fun i => ⟨by simp, by rw [hZ]; exact (e2 i).size' hs, le_rfl, hZ0⟩
    have hza : ∀ i, Close w r 0 Z |z i| |z i| := fun i => ⟨by simp, by rw [abs_abs]; exact (hzs i).size, le_rfl, hZ0⟩
    have a1 := fun i => ((hzs i).mulR hs hs (hzs i)).round hs.sq
    have a2 := fun i => ((((hza i).sub ((Close.const hs (0.5 * f.delta)).round hs)).round hs).smul f.delta).round hs |>.up hs (le_sq_of_one_le hs.r_ge)
    have hlen : ∀ P : Fin n → Bool, ((List.finRange n).filter P).length ≤ n := fun P => by
      have := List.length_filter_le P (List.finRange n)
      rwa [List.length_finRange] at this
    have hzi : ∀ i, rd (p i - f.b i) = z i := fun i => by rw [hz]
    simp only [hzi] at hsum hsum'
    have c1 := Close.sumList hs.sq (hlen _) hnw (fun i _ => a1 i) (by positivity) (by positivity) hsum
    have c2 := Close.sumList hs.sq (hlen _) hnw (fun i _ => a2 i) (by positivity) (by positivity) hsum'
    obtain ⟨C, B, hC, hB, e7⟩ := pen_close f.alpha hs hdw hx hq
    rw [hC, hB] at e7
    have c3 := ((((((c1.smul 0.5).round hs.sq).add c2).round hs.sq).div (n : ℝ)).round hs.sq).add e7
    have c4 := (c3.round hs.sq).err
    have hsum2 := list_filter_sum (List.finRange n) (fun i => |z i| < f.delta) (fun i => 0.5 * (z i * z i)) (fun i => f.delta * (|z i| - 0.5 * f.delta))
    rw [← Fin.sum_univ_def] at hsum2
    have hhub : ∑ i, (if |z i| < f.delta then 0.5 * (z i * z i) else f.delta * (|z i| - 0.5 * f.delta)) = ∑ i, huber1 f.delta (z i) := by
      refine Finset.sum_congr rfl fun i _ => ?_
      unfold huber1
      rcases lt_trichotomy |z i| f.delta with h | h | h
      · rw [if_pos h, if_pos h.le]; ring
      · rw [if_neg h.not_lt, if_pos h.le, ← sq_abs, h]; ring
      · rw [if_neg h.not_gt, if_neg h.not_ge]; ring
    rw [hhub] at hsum2
    have hl : 0.5 * (((List.finRange n).filter fun i => |z i| < f.delta).map fun i => z i * z i).sum =
        (((List.finRange n).filter fun i => |z i| < f.delta).map fun i => 0.5 * (z i * z i)).sum := by
      rw [List.sum_map_mul_left]
    have hN0 : 0 ≤ (n : ℝ)⁻¹ := by positivity
    have hn1 : (n : ℝ) ≠ 0 := by positivity
    have hdiff : |(∑ i, huber1 f.delta (z i)) / n - (∑ i, huber1 f.delta (dot (f.A i) x - f.b i)) / n| ≤ f.delta * Cz * w * (r * r) := by
      rw [← sub_div, abs_div, Nat.abs_cast, div_le_iff₀ (by positivity), ← Finset.sum_sub_distrib]
      refine (Finset.abs_sum_le_sum_abs _ _).trans ?_
      calc ∑ i, |huber1 f.delta (z i) - huber1 f.delta (dot (f.A i) x - f.b i)| ≤ ∑ _i : Fin n, f.delta * Cz * w * (r * r) := by
            refine Finset.sum_le_sum fun i _ => (huber1_lipschitz hd0.le _ _).trans ?_
            have h3 := mul_le_mul_of_nonneg_left (e2 i).err hd0.le
            have h4 := mul_le_mul_of_nonneg_left (le_sq_of_one_le hs.r_ge) (by positivity : 0 ≤ f.delta * Cz * w)
            linarith
        _ = f.delta * Cz * w * (r * r) * n := by simp; ring
    rw [hl, hsum2] at c4
    unfold huberLoss erm
    have h5 : ∀ v t t' c c' : ℝ, |v - (t + c')| ≤ c → |t - t'| ≤ f.delta * Cz * w * (r * r) → |v - (t' + c')| ≤ c + f.delta * Cz * w * (r * r) := by
      intro v t t' c c' h1 h2
      have : v - (t' + c') = (v - (t + c')) + (t - t') := by ring
      rw [this]; exact (abs_add_le _ _).trans (add_le_add h1 h2)
    have c5 := h5 _ _ _ _ _ c4 hdiff
    rw [show f.alpha / 2 = 0.5 * f.alpha by norm_num; ring]
    refine c5.trans (le_of_eq ?_)
    rw [← add_mul, ← add_mul]
  case hK => positivity

/-! ### C121 -/

/-- **C121.** `logsig` computes `log(σ(x))` to a few units of the working precision relative to the exact value, for every `x`, and never calls the exponential above `18`:
nothing is assumed about `fexp t` for `t > 18`.  The thresholds `-33`, `-18`, `37` are admissible for every precision not better than double precision. -/
theorem C121_logsig (hr : Rounding rd u eta) (hu : u ≤ w) (hw : 2⁻¹ ^ 53 ≤ w) (hw1 : w ≤ 1 / 8) (he : eta ≤ 1 / 8) {fexp flog1p : ℝ → ℝ}
    (hexp : ∀ t ≤ 18, 0 ≤ fexp t ∧ |fexp t - Real.exp t| ≤ w * Real.exp t + eta) (hlog : ∀ s, 0 ≤ s → |flog1p s - Real.log (1 + s)| ≤ w * Real.log (1 + s) + eta) (x : ℝ) :
    |flLogsig rd fexp flog1p x - Real.log (sigmoid x)| ≤ 4 * w * |Real.log (sigmoid x)| + 4 * eta := by
  have h := flLogsig_error hr hu hw hw1 he (fexp := fexp) (flog1p := flog1p) ⟨fun t ht => (hexp t ht).2, fun t ht => (hexp t ht).1, hlog⟩ x
  rw [log_sigmoid, sub_neg_eq_add, abs_neg, abs_of_nonneg (Real.log_nonneg (by linarith [Real.exp_pos (-x)]))]
  exact h

/-- **C121.** The value of every loss is computed with an error proportional to the working precision, at every point and for every order of the summations. -/
theorem C121_value (hn : 0 < n) (f : LossObj n d) (hf : f.Good) : ∃ K, 0 < K ∧ ∀ (rd fexp flog1p : ℝ → ℝ) (u eta w : ℝ), Rounding rd u eta → u ≤ w → eta ≤ w ^ 2 → 2⁻¹ ^ 53 ≤ w → 4 * n * w ≤ 1 → 4 * d * w ≤ 1 → 8 * w ≤ 1 →
    (∀ t ≤ 18, 0 ≤ fexp t ∧ |fexp t - Real.exp t| ≤ w * Real.exp t + eta) → (∀ s, 0 ≤ s → |flog1p s - Real.log (1 + s)| ≤ w * Real.log (1 + s) + eta) →
      ∀ x v, f.FlValue rd fexp flog1p x v → |v - f.fn (WithLp.toLp 2 x)| ≤ K * w * (1 + norm2 x) ^ 2 := by
  have main : ∃ K, 0 ≤ K ∧ ∀ (rd : ℝ → ℝ) (u eta w r : ℝ), Scale rd u eta w r → 4 * n * w ≤ 1 → 4 * d * w ≤ 1 →
      2⁻¹ ^ 53 ≤ w → w ≤ 1 / 8 → ∀ fexp flog1p, FlExpLog fexp flog1p w eta → ∀ x v, (∀ j, |x j| ≤ r) → f.FlValue rd fexp flog1p x v →
      |v - f.fn (WithLp.toLp 2 x)| ≤ K * w * (r * r) := by
    cases f with
    | log f => exact logValue_error hn f hf.2
    | square f =>
      obtain ⟨K, hK, h⟩ := squareValue_error hn f
      exact ⟨K, hK, fun rd u eta w r hs h1 h2 _ _ _ _ _ => h rd u eta w r hs h1 h2⟩
    | huber f =>
      obtain ⟨K, hK, h⟩ := huberValue_error hn f hf.2
      exact ⟨K, hK, fun rd u eta w r hs h1 h2 _ _ _ _ _ => h rd u eta w r hs h1 h2⟩
  obtain ⟨K, hK, h⟩ := main
  refine ⟨K + 1, by positivity, ?_⟩
  intro rd fexp flog1p u eta w hr hu he hw hnw hdw hw8 hexp hlog x v hv
  have hw0 : 0 ≤ w := hr.u_nonneg.trans hu
  have hs : Scale rd u eta w (1 + norm2 x) := ⟨hr, hu, he, hw0, by linarith, by linarith [norm2_nonneg' x]⟩
  have := h rd u eta w _ hs hnw hdw hw (by linarith) fexp flog1p ⟨fun t ht => (hexp t ht).2, fun t ht => (hexp t ht).1, hlog⟩ x v
    (fun j => by linarith [abs_le_norm2 x j]) hv
  have b4 : 0 ≤ w * ((1 + norm2 x) * (1 + norm2 x)) := by have := norm2_nonneg' x; positivity
  rw [pow_two]
  linarith

theorem flDot_single {l : List (ℝ × ℝ)} {a : ℝ} (h : FlDot rd l a) : ∀ p, l = [p] → a = rd (p.1 * p.2) := by
  induction h with
  | single x y => rintro p hp; rw [List.cons.injEq] at hp; rw [← hp.1]
  | add h1 h2 i1 i2 => intro p hp; have := congrArg List.length hp; have := h1.pos; have := h2.pos; simp at *; omega
  | fma x y h ih =>
    intro p hp
    have h1 := congrArg List.length hp
    have h2 := h.pos
    rw [List.length_cons, List.length_singleton] at h1
    omega
  | perm hp h ih => rintro p rfl; exact ih p (List.perm_singleton.mp hp)

theorem flSum_single {l : List ℝ} {a : ℝ} (h : FlSum rd l a) : ∀ p, l = [p] → a = p := by
  induction h with
  | single x => rintro p hp; rw [List.cons.injEq] at hp; exact hp.1
  | add h1 h2 i1 i2 => intro p hp; have := congrArg List.length hp; have := h1.pos; have := h2.pos; simp at *; omega
  | perm hp h ih => rintro p rfl; exact ih p (List.perm_singleton.mp hp)

/-- **C121.** The error bound of the value cannot be replaced by a relative one: for a sample of class `0` (`b = 0`) classified correctly with margin `t > 33` the computed loss is `0`, although
the loss is positive: `(1 - b) * z` and `logsig(z)` cancel. -/
theorem C121_cancellation (hr : Rounding rd u eta) {t : ℝ} (ht : 33 < t) (hrt : rd t = t) (hr1 : rd 1 = 1) (fexp flog1p : ℝ → ℝ) {v : ℝ}
    (hv : LogLoss.FlValue rd fexp flog1p (⟨fun _ _ => 1, fun _ => 0, 0, false⟩ : LogLoss 1 1) (fun _ => -t) v) :
    v = 0 ∧ 0 < logisticLoss (fun (_ : Fin 1) (_ : Fin 1) => 1) (fun _ => 0) 0 (fun _ => -t) := by
  obtain ⟨z, s, q, hz, hs, hq, rfl⟩ := hv
  have hnt : rd (-t) = -t := by rw [hr.neg, hrt]
  have hz0 : z 0 = -t := by
    have := flDot_single (hz 0) (1, -t) (by simp)
    rw [this, one_mul, hnt]
  have hs0 : s = 0 := by
    rw [flSum_single hs _ (by rw [List.ofFn_succ, List.ofFn_zero])]
    have : flLogsig rd fexp flog1p (z 0) = -t := by
      rw [hz0]; unfold flLogsig; rw [if_pos (by linarith)]
    show rd (rd (rd (1 - 0) * z 0) - flLogsig rd fexp flog1p (z 0)) = 0
    rw [this, hz0, sub_zero, hr1, one_mul, hnt, sub_self, hr.zero]
  constructor
  · rw [hs0, zero_div, hr.zero]
    simp only [mul_zero, hr.zero, zero_mul, add_zero]
  · unfold logisticLoss erm
    have h1 : ∀ z, logistic1 0 z = z + Real.log (1 + Real.exp (-z)) := fun z => by
      rw [logistic1_eq, log_sigmoid]; ring
    simp only [Finset.univ_unique, Finset.sum_singleton, zero_div, zero_mul, add_zero]
    rw [h1, log1p_exp_neg]
    have : 0 < Real.log (1 + Real.exp (dot (fun _ : Fin 1 => (1 : ℝ)) fun _ => -t)) := Real.log_pos (by linarith [Real.exp_pos (dot (fun _ : Fin 1 => (1 : ℝ)) fun _ => -t)])
    norm_num
    exact this

theorem exists_flSum (rd : ℝ → ℝ) : ∀ l : List ℝ, l ≠ [] → ∃ r, FlSum rd l r
  | [], h => absurd rfl h
  | [x], _ => ⟨x, .single x⟩
  | x :: y :: l, _ => by
    obtain ⟨r, hr⟩ := exists_flSum rd (y :: l) (by simp)
    exact ⟨_, .add (.single x) hr⟩

/-- Double precision meets the hypotheses of `C121_logsig`. -/
example (x : ℝ) : |flLogsig fl64 (fun t => fl64 (Real.exp t)) (fun s => fl64 (Real.log (1 + s))) x - Real.log (sigmoid x)| ≤ 4 * 2⁻¹ ^ 53 * |Real.log (sigmoid x)| := by
  have h := fl64_rounding (le_refl 0)
  have := C121_logsig h le_rfl le_rfl (by norm_num) (by norm_num) (fexp := fun t => fl64 (Real.exp t)) (flog1p := fun s => fl64 (Real.log (1 + s)))
    (fun t _ => ⟨h.nonneg (Real.exp_pos t).le, by have := h.err (Real.exp t); rwa [abs_of_pos (Real.exp_pos t)] at this⟩)
    (fun s hs => by have := h.err (Real.log (1 + s)); rwa [abs_of_nonneg (Real.log_nonneg (by linarith))] at this) x
  linarith

theorem exists_logValue (rd : ℝ → ℝ) (f : LogLoss (n + 1) (d + 1)) (x : Fin (d + 1) → ℝ) (fexp flog1p : ℝ → ℝ) : ∃ v, LossObj.FlValue rd fexp flog1p (.log f) x v := by
  have h1 := fun i => exists_flDot_vec rd (Nat.succ_pos d) fun j => (f.A i j, x j)
  choose z hz using h1
  obtain ⟨q, hq⟩ := exists_flDot_vec rd (Nat.succ_pos d) fun j => (x j, x j)
  obtain ⟨s, hs⟩ := exists_flSum rd (List.ofFn fun i => rd (rd (rd (1 - f.b i) * z i) - flLogsig rd fexp flog1p (z i))) (by simp)
  exact ⟨_, z, s, q, hz, hs, hq, rfl⟩

/-- Double precision meets the hypotheses of `C121_value` for three samples and two features; a value is always computed. -/
example (f : LogLoss 3 2) (ha : 0 ≤ f.alpha) (hb : ∀ i, 0 ≤ f.b i ∧ f.b i ≤ 1) : ∃ K, 0 < K ∧ ∀ x, ∃ v,
    LossObj.FlValue fl64 (fun t => fl64 (Real.exp t)) (fun s => fl64 (Real.log (1 + s))) (.log f) x v ∧ |v - logisticLoss f.A f.b f.alpha x| ≤ K * 2⁻¹ ^ 53 * (1 + norm2 x) ^ 2 := by
  obtain ⟨K, hK, h⟩ := C121_value (by norm_num) (.log f) ⟨ha, hb⟩
  refine ⟨K, hK, fun x => ?_⟩
  obtain ⟨v, hv⟩ := exists_logValue fl64 f x (fun t => fl64 (Real.exp t)) (fun s => fl64 (Real.log (1 + s)))
  have hr := fl64_rounding (le_refl 0)
  refine ⟨v, hv, h fl64 _ _ _ 0 (2⁻¹ ^ 53) hr le_rfl (by norm_num) le_rfl (by norm_num) (by norm_num) (by norm_num) ?_ ?_ x v hv⟩
  · exact fun t _ => ⟨hr.nonneg (Real.exp_pos t).le, by have := hr.err (Real.exp t); rwa [abs_of_pos (Real.exp_pos t)] at this⟩
  · exact fun s hs => by have := hr.err (Real.log (1 + s)); rwa [abs_of_nonneg (Real.log_nonneg (by linarith))] at this

theorem fl64_one : fl64 1 = 1 := by
  have h := ulp64_eq (x := 1) (q := 2 ^ (-52 : ℤ)) rfl (by norm_num) (by norm_num)
  exact fl64_int one_pos (m := 2 ^ 52) (by rw [h]; norm_num)

theorem fl64_forty : fl64 40 = 40 := by
  have h := ulp64_eq (x := 40) (q := 2 ^ (-47 : ℤ)) rfl (by norm_num) (by norm_num)
  exact fl64_int (by norm_num) (m := 40 * 2 ^ 47) (by rw [h]; norm_num)

/-- The margin `40` in double precision: a value is computed, it is `0`, and the loss is positive. -/
example (fexp flog1p : ℝ → ℝ) : LogLoss.FlValue fl64 fexp flog1p (⟨fun _ _ => 1, fun _ => 0, 0, false⟩ : LogLoss 1 1) (fun _ => -40) 0 ∧
    0 < logisticLoss (fun (_ : Fin 1) (_ : Fin 1) => 1) (fun _ => 0) 0 (fun _ => -40) := by
  obtain ⟨v, hv⟩ := exists_logValue fl64 (⟨fun _ _ => 1, fun _ => 0, 0, false⟩ : LogLoss 1 1) (fun _ => -40) fexp flog1p
  obtain ⟨h0, h1⟩ := C121_cancellation (fl64_rounding (le_refl 0)) (by norm_num) fl64_forty fl64_one fexp flog1p hv
  exact ⟨h0 ▸ hv, h1⟩

end Copt
