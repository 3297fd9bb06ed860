import Verif.Proof.InexactProxGrad
import Verif.Props.Regression

/-! # Errors of the losses and of the proximal operators with rounded arithmetic -/

set_option linter.unusedSectionVars false

namespace Copt

open Spec

variable {rd : ℝ → ℝ} {u eta w r C B C' B' y y0 z z0 : ℝ} {n d : ℕ}

theorem Close.perturb (hs : Scale rd u eta w r) (h : Close w r C B y y0) {v K : ℝ} (hK : 0 ≤ K) (hv : |v - y| ≤ K * w * r) : Close w r (C + K) B v y0 := by
  refine ⟨?_, h.size, add_nonneg h.C_nonneg hK, h.B_nonneg⟩
  have e3 : |v - y0| ≤ |v - y| + |y - y0| := abs_sub_le _ _ _
  linarith [h.err]

theorem Close.mul (hs : Scale rd u eta w 1) (h : Close w 1 C B y y0) (h' : Close w 1 C' B' z z0) : Close w 1 (C * (B' + C') + B * C') (B * B') (y * z) (y0 * z0) := by
  have hC := h.C_nonneg
  have hB := h.B_nonneg
  have hC' := h'.C_nonneg
  have hB' := h'.B_nonneg
  have hw := hs.w_nonneg
  refine ⟨?_, ?_, by positivity, by positivity⟩
  · have e : y * z - y0 * z0 = (y - y0) * z + y0 * (z - z0) := by ring
    rw [e]
    refine (abs_add_le _ _).trans ?_
    rw [abs_mul, abs_mul]
    have h1 := mul_le_mul h.err (h'.size' hs) (abs_nonneg _) (by positivity)
    have h2 := mul_le_mul h.size h'.err (abs_nonneg _) (by positivity)
    linarith
  · rw [abs_mul]
    have := mul_le_mul h.size h'.size (abs_nonneg _) (by positivity)
    linarith

theorem Close.quot (hs : Scale rd u eta w 1) (h : Close w 1 C B y y0) (h' : Close w 1 C' B' z z0) (hz0 : 1 ≤ z0) (hw2 : 2 * C' * w ≤ 1) :
    Close w 1 (2 * C + 2 * B * C') B (y / z) (y0 / z0) := by
  have hC := h.C_nonneg
  have hB := h.B_nonneg
  have hC' := h'.C_nonneg
  have hw := hs.w_nonneg
  have hz : 1 / 2 ≤ z := by linarith [(abs_le.mp h'.err).1]
  have hz' : 0 < z := by linarith
  have hz0' : 0 < z0 := by linarith
  have hi : z⁻¹ ≤ 2 := by rw [inv_le_comm₀ hz' two_pos]; linarith
  have hi0 : z0⁻¹ ≤ 1 := inv_le_one_of_one_le₀ hz0
  have hi' : 0 ≤ z⁻¹ := by positivity
  have hi0' : 0 ≤ z0⁻¹ := by positivity
  refine ⟨?_, ?_, by positivity, hB⟩
  · have e : y / z - y0 / z0 = (y - y0) * z⁻¹ + y0 * (z0 - z) * (z⁻¹ * z0⁻¹) := by field_simp; ring
    rw [e]
    refine (abs_add_le _ _).trans ?_
    rw [abs_mul, abs_mul, abs_mul, abs_of_nonneg hi', abs_of_nonneg (mul_nonneg hi' hi0'), abs_sub_comm z0]
    have h1 := mul_le_mul h.err hi hi' (by positivity)
    have h2 := mul_le_mul h.size h'.err (abs_nonneg _) (by positivity)
    have h3 := mul_le_mul h2 (mul_le_mul hi hi0 hi0' zero_le_two) (by positivity) (by positivity)
    linarith
  · rw [abs_div, abs_of_pos hz0']
    exact (div_le_self (abs_nonneg _) hz0).trans h.size

theorem list_abs_sum_le {ι : Type} (l : List ι) (f : ι → ℝ) : |(l.map f).sum| ≤ (l.map fun i => |f i|).sum := by
  induction l with
  | nil => simp
  | cons i l ih => simp only [List.map_cons, List.sum_cons]; exact (abs_add_le _ _).trans (by linarith)

theorem list_sub_dot {ι : Type} (l : List ι) (a y y0 : ι → ℝ) :
    (l.map fun i => a i * y i).sum - (l.map fun i => a i * y0 i).sum = (l.map fun i => a i * (y i - y0 i)).sum := by
  induction l with
  | nil => simp
  | cons i l ih => simp only [List.map_cons, List.sum_cons]; rw [← ih]; ring

/-- A dot product over a list of indices. -/
theorem Close.dotList {ι : Type} (hs : Scale rd u eta w r) {l : List ι} {m : ℕ} (hl : l.length ≤ m) (hm : 4 * m * w ≤ 1) {a : ι → ℝ} {S : ℝ} (hS : (l.map fun i => |a i|).sum ≤ S) {y y0 : ι → ℝ}
    (h : ∀ i ∈ l, Close w r C B (y i) (y0 i)) (hC : 0 ≤ C) (hB : 0 ≤ B) {s : ℝ} (hd : FlDot0 rd (l.map fun i => (a i, y i)) s) :
    Close w r (S * C + 4 * m * (S * (B + C) + 1)) (S * B) s (l.map fun i => a i * y0 i).sum := by
  have hS0 : 0 ≤ S := le_trans (List.sum_nonneg fun t ht => by obtain ⟨i, -, rfl⟩ := List.mem_map.mp ht; exact abs_nonneg _) hS
  have hr0 : 0 ≤ r := by linarith [hs.r_ge]
  have hw := hs.w_nonneg
  have hml : (l.length : ℝ) ≤ m := by exact_mod_cast hl
  rcases hd with ⟨hnil, rfl⟩ | hd
  · have : l = [] := by simpa using hnil
    subst this
    exact ⟨by simp; positivity, by simp; positivity, by positivity, by positivity⟩
  have e1 := hd.error hs.rnd (by rw [List.length_map]; have := hs.u_le; have := hs.rnd.u_nonneg; nlinarith)
  rw [List.length_map, List.map_map, List.map_map] at e1
  have e0' : 0 ≤ (l.map ((fun p : ℝ × ℝ => |p.1 * p.2|) ∘ fun i => (a i, y i))).sum := List.sum_nonneg fun t ht => by
    obtain ⟨i, -, rfl⟩ := List.mem_map.mp ht; exact abs_nonneg _
  have e1 := e1.trans (mul_le_mul_of_nonneg_right (show 4 * (l.length : ℝ) - 2 ≤ 4 * l.length by linarith)
    (by have := hs.rnd.u_nonneg; have := hs.rnd.eta_nonneg; positivity))
  have bound : ∀ (f : ι → ℝ) (c : ℝ), (∀ i ∈ l, |f i| ≤ c) → 0 ≤ c → (l.map fun i => |a i * f i|).sum ≤ S * c := by
    intro f c hf hc
    calc (l.map fun i => |a i * f i|).sum ≤ (l.map fun i => |a i| * c).sum := List.sum_le_sum fun i hi => by
          rw [abs_mul]; exact mul_le_mul_of_nonneg_left (hf i hi) (abs_nonneg _)
      _ = (l.map fun i => |a i|).sum * c := List.sum_map_mul_right ..
      _ ≤ S * c := mul_le_mul_of_nonneg_right hS hc
  have habs := list_abs_sum_le l
  have e2 : (l.map fun i => |a i * y i|).sum ≤ S * ((B + C) * r) := bound y _ (fun i hi => (h i hi).size' hs) (by positivity)
  have e3 : |(l.map fun i => a i * y i).sum - (l.map fun i => a i * y0 i).sum| ≤ S * (C * w * r) := by
    have : (l.map fun i => a i * y i).sum - (l.map fun i => a i * y0 i).sum = (l.map fun i => a i * (y i - y0 i)).sum := list_sub_dot l a y y0
    rw [this]
    exact (habs _).trans (bound (fun i => y i - y0 i) _ (fun i hi => (h i hi).err) (by positivity))
  have e0 : 0 ≤ (l.map fun i => |a i * y i|).sum := List.sum_nonneg fun t ht => by obtain ⟨i, -, rfl⟩ := List.mem_map.mp ht; exact abs_nonneg _
  have e4 : u * (l.map fun i => |a i * y i|).sum ≤ w * (S * ((B + C) * r)) := mul_le_mul hs.u_le e2 e0 hw
  have e5 : eta ≤ w * r := hs.eta_le'.trans (le_mul_of_one_le_right hw hs.r_ge)
  have e6 := mul_le_mul (mul_le_mul_of_nonneg_left hml zero_le_four) (add_le_add e4 e5) (by have := hs.rnd.u_nonneg; have := hs.rnd.eta_nonneg; positivity) (by positivity)
  refine ⟨?_, ?_, by positivity, by positivity⟩
  · refine (abs_sub_le s (l.map fun i => a i * y i).sum _).trans ?_
    have e7 : |s - (l.map fun i => a i * y i).sum| ≤ _ := e1.trans e6
    linarith
  · refine (habs _).trans ?_
    have := bound y0 (B * r) (fun i hi => (h i hi).size) (by positivity)
    linarith

theorem Close.self (hs : Scale rd u eta w r) {a : ℝ} (h : |a| ≤ r) : Close w r 0 1 a a := ⟨by simp, by linarith, le_rfl, zero_le_one⟩

theorem absRow_le (A : Fin n → Fin d → ℝ) (i : Fin n) : ∑ j, |A i j| ≤ ∑ i, ∑ j, |A i j| :=
  Finset.single_le_sum (f := fun i => ∑ j, |A i j|) (fun i _ => Finset.sum_nonneg fun j _ => abs_nonneg _) (Finset.mem_univ i)

theorem absCol_le (A : Fin n → Fin d → ℝ) (j : Fin d) : ∑ i, |A i j| ≤ ∑ i, ∑ j, |A i j| :=
  Finset.sum_le_sum fun i _ => Finset.single_le_sum (f := fun j => |A i j|) (fun j _ => abs_nonneg _) (Finset.mem_univ j)

/-- The products `A.dot(x)`. -/
theorem matvec_close (A : Fin n → Fin d → ℝ) : ∃ C B, 0 ≤ C ∧ 0 ≤ B ∧ ∀ (rd : ℝ → ℝ) (u eta w r : ℝ), Scale rd u eta w r → 4 * d * w ≤ 1 →
    ∀ (x : Fin d → ℝ) (p : Fin n → ℝ), (∀ j, |x j| ≤ r) → (∀ i, FlDot rd (List.ofFn fun j => (A i j, x j)) (p i)) → ∀ i, Close w r C B (p i) (dot (A i) x) := by
  have hS0 : 0 ≤ ∑ i, ∑ j, |A i j| := Finset.sum_nonneg fun i _ => Finset.sum_nonneg fun j _ => abs_nonneg _
  obtain ⟨S, hS⟩ : ∃ S, S = ∑ i, ∑ j, |A i j| := ⟨_, rfl⟩
  rw [← hS] at hS0
  refine ⟨S * 0 + 4 * d * (S * (1 + 0) + 1), S * 1, by positivity, by positivity, ?_⟩
  intro rd u eta w r hs hd x p hx hp i
  exact Close.dot hs hd (by rw [hS]; exact absRow_le A i) (fun j => Close.self hs (hx j)) le_rfl zero_le_one (hp i)

/-- A gradient computed from `A.dot(x)`. -/
theorem ermGrad_error (A : Fin n → Fin d → ℝ) (alpha : ℝ) (phi' : Fin n → ℝ → ℝ) {c : ℝ} (hc : 0 ≤ c) (hl : ∀ i s t, |phi' i s - phi' i t| ≤ c * |s - t|) {K0 : ℝ} (hK0 : 0 ≤ K0) :
    ∃ K, 0 ≤ K ∧ ∀ (rd : ℝ → ℝ) (u eta w r : ℝ), Scale rd u eta w r → 4 * n * w ≤ 1 → 4 * d * w ≤ 1 →
      ∀ deriv : Fin n → ℝ → ℝ, (∀ i p, |deriv i p - phi' i p| ≤ K0 * w * (1 + |p|)) → ∀ x g, (∀ j, |x j| ≤ r) → FlErmGrad rd A alpha deriv x g →
        ∀ j, |g j - (matVecT A (fun i => phi' i (dot (A i) x)) j / n + alpha * x j)| ≤ K * w * r := by
  obtain ⟨C1, B1, hC1, hB1, h1⟩ := matvec_close A
  have hS0 : 0 ≤ ∑ i, ∑ j, |A i j| := Finset.sum_nonneg fun i _ => Finset.sum_nonneg fun j _ => abs_nonneg _
  obtain ⟨S, hS⟩ : ∃ S, S = ∑ i, ∑ j, |A i j| := ⟨_, rfl⟩
  rw [← hS] at hS0
  obtain ⟨Bp, hBp⟩ : ∃ Bp, Bp = ∑ i, |phi' i 0| := ⟨_, rfl⟩
  have hBp0 : 0 ≤ Bp := by rw [hBp]; exact Finset.sum_nonneg fun i _ => abs_nonneg _
  obtain ⟨C2, hC2⟩ : ∃ C2, C2 = c * C1 + K0 * (1 + B1 + C1) := ⟨_, rfl⟩
  obtain ⟨B2, hB2⟩ : ∃ B2, B2 = Bp + c * B1 := ⟨_, rfl⟩
  have hC20 : 0 ≤ C2 := by rw [hC2]; positivity
  have hB20 : 0 ≤ B2 := by rw [hB2]; positivity
  obtain ⟨C3, hC3⟩ : ∃ C3, C3 = S * C2 + 4 * n * (S * (B2 + C2) + 1) := ⟨_, rfl⟩
  have hC30 : 0 ≤ C3 := by rw [hC3]; positivity
  refine ⟨2 * ((2 * (|(n : ℝ)⁻¹| * C3) + |(n : ℝ)⁻¹| * (S * B2) + 1) + (2 * (|alpha| * 0) + |alpha| * 1 + 1)) + (|(n : ℝ)⁻¹| * (S * B2) + |alpha| * 1) + 1, by positivity, ?_⟩
  intro rd u eta w r hs hn hd deriv hder x g hx hg j
  obtain ⟨p, q, hp, hq, hgj⟩ := hg
  have e1 := h1 rd u eta w r hs hd x p hx hp
  have e2 : ∀ i, Close w r C2 B2 (deriv i (p i)) (phi' i (dot (A i) x)) := by
    intro i
    have h2 := ((e1 i).lip hs hc (hl i)).perturb hs (v := deriv i (p i)) (K := K0 * (1 + B1 + C1)) (by positivity) (by
      refine (hder i (p i)).trans ?_
      have e3 := (e1 i).size' hs
      have e4 : 1 + |p i| ≤ (1 + B1 + C1) * r := by have := hs.r_ge; linarith
      have e5 := mul_le_mul_of_nonneg_left e4 (mul_nonneg hK0 hs.w_nonneg)
      linarith)
    refine h2.mono hs (le_of_eq hC2.symm) ?_
    rw [hB2, hBp]
    have := Finset.single_le_sum (f := fun i => |phi' i 0|) (fun i _ => abs_nonneg _) (Finset.mem_univ i)
    linarith
  have e3 := Close.dot hs hn (S := S) (by rw [hS]; exact absCol_le A j) e2 hC20 hB20 (hq j)
  rw [← hC3] at e3
  have e4 := (((e3.div (n : ℝ)).round hs).add (((Close.self hs (hx j)).smul alpha).round hs)).round hs
  rw [← hgj] at e4
  exact e4.err

/-- The exponential of the library on negative numbers, to precision `w`. -/
def FlExp (fexp : ℝ → ℝ) (w : ℝ) : Prop := ∀ t ≤ 0, |fexp t - Real.exp t| ≤ w

/-- `expit_b`. -/
theorem flExpitB_error (hs : Scale rd u eta w 1) {fexp : ℝ → ℝ} (he : FlExp fexp w) (hw : 10 * w ≤ 1) {b : ℝ} (hb : 0 ≤ b ∧ b ≤ 1) (x : ℝ) :
    |flExpitB rd fexp b x - (sigmoid x - b)| ≤ 200 * w := by
  have hexp : ∀ t ≤ 0, Close w 1 1 1 (fexp t) (Real.exp t) := fun t ht =>
    ⟨by linarith [he t ht], by rw [abs_of_pos (Real.exp_pos t)]; linarith [Real.exp_le_one_iff.mpr ht], zero_le_one, zero_le_one⟩
  have h1 : Close w 1 0 1 1 1 := Close.self hs (by simp)
  have hb1 : Close w 1 0 1 b b := Close.self hs (by rw [abs_le]; constructor <;> linarith)
  have hb2 : Close w 1 0 1 (1 - b) (1 - b) := Close.self hs (by rw [abs_le]; constructor <;> linarith)
  have hden : ∀ t ≤ 0, Close w 1 5 2 (rd (1 + fexp t)) (1 + Real.exp t) := fun t ht =>
    ((h1.add (hexp t ht)).round hs).mono hs (by norm_num) (by norm_num)
  have hpos : ∀ t, 1 ≤ 1 + Real.exp t := fun t => by linarith [Real.exp_pos t]
  unfold flExpitB
  split_ifs with hx
  · have e := (((((hb2.round hs).mul hs (hexp x hx.le)).round hs).sub hb1).round hs).quot hs (hden x hx.le) (hpos x) (by linarith)
    have e2 := (e.round hs).err
    have : ((1 - b) * Real.exp x - b) / (1 + Real.exp x) = sigmoid x - b := by
      unfold sigmoid
      rw [Real.exp_neg]
      have := Real.exp_pos x
      field_simp
      ring
    rw [this] at e2
    refine e2.trans ?_
    have := hs.w_nonneg
    norm_num
    nlinarith
  · have hx' : -x ≤ 0 := by push Not at hx; linarith
    have e := ((((hb2.round hs).sub ((hb1.mul hs (hexp (-x) hx')).round hs))).round hs).quot hs (hden (-x) hx') (hpos (-x)) (by linarith)
    have e2 := (e.round hs).err
    have : (1 - b - b * Real.exp (-x)) / (1 + Real.exp (-x)) = sigmoid x - b := by
      unfold sigmoid
      have := Real.exp_pos (-x)
      field_simp
      ring
    rw [this] at e2
    refine e2.trans ?_
    have := hs.w_nonneg
    norm_num
    nlinarith

theorem list_filter_sum {ι : Type} (l : List ι) (p : ι → Prop) [DecidablePred p] (f f' : ι → ℝ) :
    ((l.filter fun i => p i).map f).sum + ((l.filter fun i => ¬ p i).map f').sum = (l.map fun i => if p i then f i else f' i).sum := by
  induction l with
  | nil => simp
  | cons i l ih =>
    by_cases h : p i
    · simp only [List.filter_cons, h, not_true_eq_false, decide_true, decide_false, if_true, List.map_cons, List.sum_cons, Bool.false_eq_true, if_false]
      rw [← ih]; ring
    · simp only [List.filter_cons, h, not_false_eq_true, decide_true, decide_false, if_true, List.map_cons, List.sum_cons, Bool.false_eq_true, if_false]
      rw [← ih]; ring

theorem list_filter_le {ι : Type} (l : List ι) (p : ι → Prop) [DecidablePred p] (f : ι → ℝ) (hf : ∀ i, 0 ≤ f i) : ((l.filter fun i => p i).map f).sum ≤ (l.map f).sum := by
  induction l with
  | nil => simp
  | cons i l ih =>
    by_cases h : p i
    · simp only [List.filter_cons, h, decide_true, if_true, List.map_cons, List.sum_cons]; linarith
    · simp only [List.filter_cons, h, decide_false, Bool.false_eq_true, if_false, List.map_cons, List.sum_cons]; linarith [hf i]

open Classical in
theorem clip1_cases {delta : ℝ} (hd : 0 < delta) (z : ℝ) : clip1 delta z = if |z| < delta then z else delta * SignType.sign z := by
  unfold clip1
  split_ifs with h
  · rw [abs_lt] at h
    rw [min_eq_left h.2.le, max_eq_right h.1.le]
  · push Not at h
    rcases le_total 0 z with hz | hz
    · rw [abs_of_nonneg hz] at h
      rw [min_eq_right h, max_eq_right (by linarith), sign_pos (by linarith)]; simp
    · rw [abs_of_nonpos hz] at h
      rw [min_eq_left (by linarith), max_eq_left (by linarith), sign_neg (by linarith)]; simp

theorem abs_le_norm2 (x : Fin d → ℝ) (j : Fin d) : |x j| ≤ norm2 x := by
  have := coord_le_norm (WithLp.toLp 2 x) j
  rwa [toLp_norm] at this

theorem norm2_nonneg' (x : Fin d → ℝ) : 0 ≤ norm2 x := Real.sqrt_nonneg _

/-- The Huber loss: the two parts of the gradient are discontinuous, their sum is not. -/
theorem huberGrad_error (f : HuberLoss n d) (hd0 : 0 < f.delta) : ∃ K, 0 ≤ K ∧ ∀ (rd : ℝ → ℝ) (u eta w r : ℝ), Scale rd u eta w r → 4 * n * w ≤ 1 → 4 * d * w ≤ 1 →
    ∀ x g, (∀ j, |x j| ≤ r) → HuberLoss.FlGrad rd f x g → ∀ j, |g j - (matVecT f.A (fun i => clip1 f.delta (dot (f.A i) x - f.b i)) j / n + f.alpha * x j)| ≤ K * w * r := by
  classical
  obtain ⟨C1, B1, hC1, hB1, h1⟩ := matvec_close f.A
  have hS0 : 0 ≤ ∑ i, ∑ j, |f.A i j| := Finset.sum_nonneg fun i _ => Finset.sum_nonneg fun j _ => abs_nonneg _
  obtain ⟨S, hS⟩ : ∃ S, S = ∑ i, ∑ j, |f.A i j| := ⟨_, rfl⟩
  rw [← hS] at hS0
  obtain ⟨Bb, hBb⟩ : ∃ Bb, Bb = ∑ i, |f.b i| := ⟨_, rfl⟩
  have hBb0 : 0 ≤ Bb := by rw [hBb]; exact Finset.sum_nonneg fun i _ => abs_nonneg _
  obtain ⟨Bz, hBz⟩ : ∃ Bz, Bz = B1 + Bb := ⟨_, rfl⟩
  have hBz0 : 0 ≤ Bz := by rw [hBz]; positivity
  obtain ⟨Cz, hCz⟩ : ∃ Cz, Cz = 2 * (C1 + 0) + Bz + 1 := ⟨_, rfl⟩
  have hCz0 : 0 ≤ Cz := by rw [hCz]; positivity
  have hdel := hd0.le
  obtain ⟨Cd, hCd⟩ : ∃ Cd, Cd = 2 * 0 + f.delta + 1 := ⟨_, rfl⟩
  have hCd0 : 0 ≤ Cd := by rw [hCd]; positivity
  obtain ⟨C2, hC2⟩ : ∃ C2, C2 = S * 0 + 4 * n * (S * ((Bz + Cz) + 0) + 1) := ⟨_, rfl⟩
  have hC20 : 0 ≤ C2 := by rw [hC2]; positivity
  obtain ⟨C3, hC3⟩ : ∃ C3, C3 = S * Cd + 4 * n * (S * (f.delta + Cd) + 1) := ⟨_, rfl⟩
  have hC30 : 0 ≤ C3 := by rw [hC3]; positivity
  obtain ⟨N, hN⟩ : ∃ N : ℝ, N = |(n : ℝ)⁻¹| := ⟨_, rfl⟩
  have hN0 : 0 ≤ N := by rw [hN]; exact abs_nonneg _
  obtain ⟨K1, hK1⟩ : ∃ K1, K1 = 2 * ((2 * ((2 * (N * C2) + N * (S * (Bz + Cz)) + 1) + (2 * (|f.alpha| * 0) + |f.alpha| * 1 + 1)) + (N * (S * (Bz + Cz)) + |f.alpha| * 1) + 1) +
    (2 * (N * C3) + N * (S * f.delta) + 1)) + ((N * (S * (Bz + Cz)) + |f.alpha| * 1) + N * (S * f.delta)) + 1 := ⟨_, rfl⟩
  have hK10 : 0 ≤ K1 := by rw [hK1]; positivity
  refine ⟨K1 + N * (S * Cz), by positivity, ?_⟩
  intro rd u eta w r hs hn hd x g hx hg j
  obtain ⟨p, q, q', hp, hq, hq', hgj⟩ := hg
  have e1 := h1 rd u eta w r hs hd x p hx hp
  have hw := hs.w_nonneg
  have hr0 : 0 ≤ r := by linarith [hs.r_ge]
  obtain ⟨z, hz⟩ : ∃ z : Fin n → ℝ, z = fun i => rd (p i - f.b i) := ⟨_, rfl⟩
  have hzi : ∀ i, Close w r Cz Bz (z i) (dot (f.A i) x - f.b i) := by
    intro i
    have h2 := ((e1 i).sub ((Close.const hs (f.b i)).mono hs le_rfl (B' := Bb) (by
      rw [hBb]; exact Finset.single_le_sum (f := fun i => |f.b i|) (fun i _ => abs_nonneg _) (Finset.mem_univ i)))).round hs
    rw [← hBz, ← hCz] at h2
    rw [hz]; exact h2
  have hzs : ∀ i, Close w r 0 (Bz + Cz) (z i) (z i) := fun i => ⟨by simp, (hzi i).size' hs, le_rfl, by positivity⟩
  have hds : ∀ i, Close w r Cd f.delta (rd (f.delta * SignType.sign (z i))) (f.delta * SignType.sign (z i)) := by
    intro i
    rw [hCd]
    refine Close.round hs ⟨by simp, ?_, le_rfl, hdel⟩
    rw [abs_mul, abs_of_pos hd0]
    have h2 : |((SignType.sign (z i) : SignType) : ℝ)| ≤ 1 := by
      rcases lt_trichotomy (z i) 0 with h | h | h
      · rw [sign_neg h]; simp
      · rw [h]; simp
      · rw [sign_pos h]; simp
    have := mul_le_mul_of_nonneg_left (h2.trans hs.r_ge) hdel
    linarith
  have hcol : ∀ P : Fin n → Prop, ∀ _ : DecidablePred P, (((List.finRange n).filter fun i => P i).map fun i => |f.A i j|).sum ≤ S := by
    intro P _
    refine (list_filter_le _ P _ fun i => abs_nonneg _).trans ?_
    rw [← Fin.sum_univ_def, hS]; exact absCol_le f.A j
  have hlen : ∀ P : Fin n → Bool, ((List.finRange n).filter P).length ≤ n := fun P => by
    have := List.length_filter_le P (List.finRange n)
    rwa [List.length_finRange] at this
  have hqj := hq j
  have hqj' := hq' j
  have hgj' := hgj j
  rw [← hz] at hqj hqj'
  have c1 := Close.dotList hs (hlen _) hn (hcol _ _) (fun i _ => hzs i) le_rfl (by positivity) hqj
  have c2 := Close.dotList hs (hlen _) hn (hcol _ _) (fun i _ => hds i) hCd0 hdel hqj'
  rw [← hC2] at c1
  rw [← hC3] at c2
  have c3 := ((((((c1.div (n : ℝ)).round hs).add (((Close.self hs (hx j)).smul f.alpha).round hs)).round hs)).add ((c2.div (n : ℝ)).round hs)).round hs
  rw [← hgj', ← hN, ← hK1] at c3
  have c4 := c3.err
  have hsum := list_filter_sum (List.finRange n) (fun i => |z i| < f.delta) (fun i => f.A i j * z i) (fun i => f.A i j * (f.delta * SignType.sign (z i)))
  rw [← Fin.sum_univ_def] at hsum
  have hclip : ∑ i, (if |z i| < f.delta then f.A i j * z i else f.A i j * (f.delta * SignType.sign (z i))) = ∑ i, f.A i j * clip1 f.delta (z i) := by
    refine Finset.sum_congr rfl fun i _ => ?_
    rw [clip1_cases hd0, mul_ite]
  rw [hclip] at hsum
  have hdiff : |∑ i, f.A i j * clip1 f.delta (z i) - ∑ i, f.A i j * clip1 f.delta (dot (f.A i) x - f.b i)| ≤ S * (Cz * w * r) := by
    rw [← Finset.sum_sub_distrib]
    refine (Finset.abs_sum_le_sum_abs _ _).trans ?_
    calc ∑ i, |f.A i j * clip1 f.delta (z i) - f.A i j * clip1 f.delta (dot (f.A i) x - f.b i)| ≤ ∑ i, |f.A i j| * (Cz * w * r) := by
          refine Finset.sum_le_sum fun i _ => ?_
          rw [← mul_sub, abs_mul]
          exact mul_le_mul_of_nonneg_left ((clip1_lipschitz _ _ _).trans (hzi i).err) (abs_nonneg _)
      _ = (∑ i, |f.A i j|) * (Cz * w * r) := (Finset.sum_mul ..).symm
      _ ≤ S * (Cz * w * r) := mul_le_mul_of_nonneg_right (by rw [hS]; exact absCol_le f.A j) (by positivity)
  have hdiff2 : |(∑ i, f.A i j * clip1 f.delta (z i)) / n - (∑ i, f.A i j * clip1 f.delta (dot (f.A i) x - f.b i)) / n| ≤ N * (S * (Cz * w * r)) := by
    rw [← sub_div, div_eq_inv_mul, abs_mul, ← hN]
    exact mul_le_mul_of_nonneg_left hdiff hN0
  refine (abs_sub_le _ ((∑ i, f.A i j * clip1 f.delta (z i)) / n + f.alpha * x j) _).trans ?_
  have e5 : |g j - ((∑ i, f.A i j * clip1 f.delta (z i)) / n + f.alpha * x j)| ≤ K1 * w * r := by
    refine le_trans (le_of_eq ?_) c4
    rw [← hsum]
    congr 2
    ring
  have e6 : |(∑ i, f.A i j * clip1 f.delta (z i)) / n + f.alpha * x j - (matVecT f.A (fun i => clip1 f.delta (dot (f.A i) x - f.b i)) j / n + f.alpha * x j)| ≤ N * (S * (Cz * w * r)) := by
    rw [add_sub_add_right_eq_sub]; exact hdiff2
  linarith

/-- The gradients of the losses. -/
theorem LossObj.flGrad_error (f : LossObj n d) (hf : f.Good) : ∃ K, 0 ≤ K ∧ ∀ (rd : ℝ → ℝ) (u eta w : ℝ), Scale rd u eta w 1 → 4 * n * w ≤ 1 → 4 * d * w ≤ 1 → 10 * w ≤ 1 →
    ∀ fexp : ℝ → ℝ, FlExp fexp w → ∀ x g, f.FlGrad rd fexp x g → ∀ j, |g j - f.gradE (WithLp.toLp 2 x) j| ≤ K * w * (1 + norm2 x) := by
  have hsc : ∀ {rd : ℝ → ℝ} {u eta w : ℝ} (x : Fin d → ℝ), Scale rd u eta w 1 → Scale rd u eta w (1 + norm2 x) := fun x hs =>
    ⟨hs.rnd, hs.u_le, hs.eta_le, hs.w_nonneg, hs.w_le, by linarith [norm2_nonneg' x]⟩
  have hx : ∀ (x : Fin d → ℝ) j, |x j| ≤ 1 + norm2 x := fun x j => by linarith [abs_le_norm2 x j]
  cases f with
  | log f =>
    obtain ⟨K, hK, h⟩ := ermGrad_error f.A f.alpha (fun i z => sigmoid z - f.b i) (c := 0.25) (by norm_num) (fun i s t => by
      have := sigmoid_lipschitz s t
      rw [sub_sub_sub_cancel_right]; norm_num at this ⊢; exact this) (K0 := 200) (by norm_num)
    refine ⟨K, hK, ?_⟩
    intro rd u eta w hs hn hd hw fexp he x g hg j
    have := h rd u eta w _ (hsc x hs) hn hd (fun i p => flExpitB rd fexp (f.b i) p) (fun i p => by
      refine (flExpitB_error hs he hw (hf.2 i) p).trans ?_
      have := hs.w_nonneg
      have : 0 ≤ 200 * w * |p| := by positivity
      linarith) x g (hx x) hg j
    refine le_trans (le_of_eq ?_) this
    congr 2
    show matVecT f.A (LogLoss.expitB (f.decision x 0) f.b) j / n + f.alpha * x j = _
    have : LogLoss.expitB (f.decision x 0) f.b = fun i => sigmoid (dot (f.A i) x) - f.b i := by
      funext i; rw [expitB_apply, decision_eq]
    rw [this]
  | square f =>
    obtain ⟨Bb, hBb⟩ : ∃ Bb, Bb = ∑ i, |f.b i| := ⟨_, rfl⟩
    have hBb0 : 0 ≤ Bb := by rw [hBb]; exact Finset.sum_nonneg fun i _ => abs_nonneg _
    obtain ⟨K, hK, h⟩ := ermGrad_error f.A f.alpha (fun i z => z - f.b i) (c := 1) zero_le_one (fun i s t => by
      rw [sub_sub_sub_cancel_right, one_mul]) (K0 := 1 + Bb) (by positivity)
    refine ⟨K, hK, ?_⟩
    intro rd u eta w hs hn hd hw fexp he x g hg j
    have := h rd u eta w _ (hsc x hs) hn hd (fun i p => rd (p - f.b i)) (fun i p => by
      have h1 := hs.rnd.err (p - f.b i)
      have h2 : |p - f.b i| ≤ |p| + Bb := by
        have h3 := abs_sub p (f.b i)
        have h4 := Finset.single_le_sum (f := fun i => |f.b i|) (fun i _ => abs_nonneg _) (Finset.mem_univ i)
        rw [hBb]; exact h3.trans (by linarith)
      have h3 := mul_le_mul hs.u_le h2 (abs_nonneg _) hs.w_nonneg
      have h4 := hs.eta_le'
      have hw0 := hs.w_nonneg
      have h5 : 0 ≤ Bb * w * |p| := by positivity
      linarith) x g (hx x) hg j
    exact this
  | huber f =>
    obtain ⟨K, hK, h⟩ := huberGrad_error f hf.2
    refine ⟨K, hK, ?_⟩
    intro rd u eta w hs hn hd hw fexp he x g hg j
    have := h rd u eta w _ (hsc x hs) hn hd x g (hx x) hg j
    refine le_trans (le_of_eq ?_) this
    congr 2
    exact congrFun (huber_grad_eq f hf.2 x) j

theorem flNorm_error (hs : Scale rd u eta w 1) (hd : 4 * d * w ≤ 1) {v : Fin d → ℝ} {s : ℝ} (h : FlNorm rd v s) : |s - norm2 v| ≤ (12 * d + 2) * w * (1 + norm2 v) := by
  obtain ⟨q, hq, rfl⟩ := h
  have := hq.pos
  rw [List.length_ofFn] at this
  exact norm_error hs this hd hq

/-- `L1Norm.prox`. -/
theorem l1Prox_error (alpha s2 : ℝ) (h2 : 0 ≤ s2) : ∃ K, 0 ≤ K ∧ ∀ (rd : ℝ → ℝ) (u eta w r : ℝ), Scale rd u eta w r → ∀ (v : Fin d → ℝ) s, (∀ j, |v j| ≤ r) → 0 ≤ s → s ≤ s2 →
    ∀ j, |L1Norm.flProx rd alpha v s j - L1Norm.prox alpha v s j| ≤ K * w * r := by
  obtain ⟨T, hT⟩ : ∃ T, T = |alpha| * s2 := ⟨_, rfl⟩
  have hT0 : 0 ≤ T := by rw [hT]; positivity
  obtain ⟨C1, hC1⟩ : ∃ C1, C1 = 2 * (0 + (2 * 0 + T + 1)) + (1 + T) + 1 := ⟨_, rfl⟩
  have hC10 : 0 ≤ C1 := by rw [hC1]; positivity
  refine ⟨2 * (C1 + C1) + ((1 + T) + (1 + T)) + 1, by positivity, ?_⟩
  intro rd u eta w r hs v s hv hs0 hs2 j
  have ht : Close w r 0 T (alpha * s) (alpha * s) := (Close.const hs (alpha * s)).mono hs le_rfl (by
    rw [abs_mul, abs_of_nonneg hs0, hT]; exact mul_le_mul_of_nonneg_left hs2 (abs_nonneg _))
  have h1 := (((Close.self hs (hv j)).sub (ht.round hs)).round hs).max0 hs
  have h2 := (((Close.self hs (hv j)).neg.sub (ht.round hs)).round hs).max0 hs
  rw [← hC1] at h1 h2
  exact ((h1.sub h2).round hs).err

/-- `L2Ball.prox`. -/
theorem l2Prox_error {alpha : ℝ} (ha : 0 < alpha) (d : ℕ) : ∃ K, 0 ≤ K ∧ ∀ (rd : ℝ → ℝ) (u eta w : ℝ), Scale rd u eta w 1 → 4 * d * w ≤ 1 → ∀ (v : Fin d → ℝ) norm, FlNorm rd v norm →
    ∀ j, |L2Ball.flProx rd norm alpha v j - L2Ball.prox alpha v j| ≤ K * w * (1 + norm2 v) := by
  obtain ⟨M, hM⟩ : ∃ M : ℝ, M = 12 * d + 2 := ⟨_, rfl⟩
  have hM0 : 0 ≤ M := by rw [hM]; positivity
  obtain ⟨I, hI⟩ : ∃ I : ℝ, I = alpha⁻¹ := ⟨_, rfl⟩
  have hI0 : 0 ≤ I := by rw [hI]; positivity
  refine ⟨2 * (M + (1 + I)) + 1 + 1, by positivity, ?_⟩
  intro rd u eta w hs hd v F hF j
  have e1 := flNorm_error hs hd hF
  rw [← hM] at e1
  have hN : Real.sqrt (∑ i, v i ^ 2) = norm2 v := by unfold norm2 dot; congr 1; exact Finset.sum_congr rfl fun i _ => by ring
  have hN0 := norm2_nonneg' v
  have hvj := abs_le_norm2 v j
  have hw := hs.w_nonneg
  unfold L2Ball.flProx L2Ball.prox
  rw [hN]
  set N := norm2 v
  have hs' : Scale rd u eta w (1 + N) := ⟨hs.rnd, hs.u_le, hs.eta_le, hs.w_nonneg, hs.w_le, by linarith⟩
  have hle : M * w * (1 + N) ≤ (2 * (M + (1 + I)) + 1 + 1) * w * (1 + N) := by
    refine mul_le_mul_of_nonneg_right (mul_le_mul_of_nonneg_right ?_ hw) (by linarith)
    linarith
  by_cases hF1 : F ≤ alpha
  · rw [if_pos hF1]
    by_cases hN1 : N ≤ alpha
    · rw [if_pos hN1, sub_self, abs_zero]; positivity
    · rw [if_neg hN1]
      push Not at hN1
      have hNpos : 0 < N := by linarith
      refine le_trans ?_ (e1.trans hle)
      have : v j - alpha * v j / N = v j / N * (N - alpha) := by field_simp
      rw [this, abs_mul, abs_div, abs_of_pos hNpos, abs_of_pos (by linarith : 0 < N - alpha)]
      have h1 : |v j| / N ≤ 1 := by rw [div_le_one hNpos]; exact hvj
      have h2 := mul_le_mul_of_nonneg_right h1 (by linarith : 0 ≤ N - alpha)
      have h3 : N - F ≤ |F - N| := by rw [abs_sub_comm]; exact le_abs_self _
      linarith
  · rw [if_neg hF1]
    push Not at hF1
    have hFpos : 0 < F := by linarith
    -- the exact quotient
    have hq : |alpha * v j / F - (if N ≤ alpha then v else fun i => alpha * v i / N) j| ≤ M * w * (1 + N) := by
      refine le_trans ?_ e1
      by_cases hN1 : N ≤ alpha
      · rw [if_pos hN1]
        have : alpha * v j / F - v j = -(v j / F * (F - alpha)) := by field_simp; ring
        rw [this, abs_neg, abs_mul, abs_div, abs_of_pos hFpos, abs_of_pos (by linarith : 0 < F - alpha)]
        have h1 : |v j| / F ≤ 1 := by rw [div_le_one hFpos]; linarith
        have h2 := mul_le_mul_of_nonneg_right h1 (by linarith : 0 ≤ F - alpha)
        have h3 : F - N ≤ |F - N| := le_abs_self _
        linarith
      · rw [if_neg hN1]
        push Not at hN1
        have hNpos : 0 < N := by linarith
        have : alpha * v j / F - alpha * v j / N = (alpha / F) * (v j / N) * (N - F) := by field_simp
        rw [this, abs_mul, abs_mul, abs_div, abs_div, abs_of_pos hFpos, abs_of_pos hNpos, abs_of_pos ha, abs_sub_comm]
        have h1 : |v j| / N ≤ 1 := by rw [div_le_one hNpos]; exact hvj
        have h2 : alpha / F ≤ 1 := by rw [div_le_one hFpos]; linarith
        have h3 := mul_le_mul h2 h1 (by positivity) zero_le_one
        have h4 := mul_le_mul_of_nonneg_right h3 (abs_nonneg (F - N))
        linarith
    have hsize : |(if N ≤ alpha then v else fun i => alpha * v i / N) j| ≤ 1 * (1 + N) := by
      by_cases hN1 : N ≤ alpha
      · rw [if_pos hN1]; linarith
      · rw [if_neg hN1]
        push Not at hN1
        have hNpos : 0 < N := by linarith
        rw [abs_div, abs_mul, abs_of_pos ha, abs_of_pos hNpos, div_le_iff₀ hNpos]
        have h1 := mul_le_mul hN1.le hvj (abs_nonneg _) hN0
        nlinarith
    have c1 : Close w (1 + N) M 1 (alpha * v j / F) ((if N ≤ alpha then v else fun i => alpha * v i / N) j) := ⟨hq, hsize, hM0, zero_le_one⟩
    have c2 := c1.perturb hs' (v := rd (alpha * v j) / F) (K := 1 + I) (by positivity) (by
      rw [← sub_div, abs_div, abs_of_pos hFpos, div_le_iff₀ hFpos]
      have h1 := hs.rnd.err (alpha * v j)
      rw [abs_mul, abs_of_pos ha] at h1
      have h2 : u * (alpha * |v j|) ≤ w * (F * N) :=
        mul_le_mul hs.u_le (mul_le_mul hF1.le hvj (abs_nonneg _) hFpos.le) (by positivity) hw
      have h3 : eta ≤ I * w * F := by
        have h4 : 1 ≤ I * F := by
          rw [hI, inv_mul_eq_div, le_div_iff₀ ha]; linarith
        have h5 := mul_le_mul_of_nonneg_left h4 hw
        linarith [hs.eta_le']
      have h6 : 0 ≤ w * F := by positivity
      have h7 : 0 ≤ I * w * F * N := by positivity
      linarith)
    exact (c2.round hs').err

/-- Block soft-thresholding of one coordinate `y` of a group of norm `N`, with computed norm `F` and computed threshold `T`. -/
theorem softBlock_error {y N F T t : ℝ} (hy : |y| ≤ N) (ht : 0 ≤ t) (hT : 0 ≤ T) (hFT : T < F) : |y - T * y / F - (if N > t then y * (1 - t / N) else 0)| ≤ |F - N| + |T - t| := by
  have hF : 0 < F := by linarith
  have hy0 := abs_nonneg y
  by_cases hN : N > t
  · rw [if_pos hN]
    have hN0 : 0 < N := by linarith
    have e : y - T * y / F - y * (1 - t / N) = y / N * ((t - T) + T / F * (F - N)) := by field_simp; ring
    rw [e, abs_mul, abs_div, abs_of_pos hN0]
    have h1 : |y| / N ≤ 1 := by rw [div_le_one hN0]; exact hy
    have h2 : T / F ≤ 1 := by rw [div_le_one hF]; linarith
    have h3 : |(t - T) + T / F * (F - N)| ≤ |F - N| + |T - t| := by
      refine (abs_add_le _ _).trans ?_
      rw [abs_mul, abs_of_nonneg (by positivity : 0 ≤ T / F), abs_sub_comm t T]
      have := mul_le_mul_of_nonneg_right h2 (abs_nonneg (F - N))
      linarith
    calc |y| / N * |(t - T) + T / F * (F - N)| ≤ 1 * (|F - N| + |T - t|) := mul_le_mul h1 h3 (abs_nonneg _) zero_le_one
      _ = _ := one_mul _
  · rw [if_neg hN, sub_zero]
    push Not at hN
    have e : y - T * y / F = y / F * (F - T) := by field_simp
    rw [e, abs_mul, abs_div, abs_of_pos hF, abs_of_pos (by linarith : 0 < F - T)]
    have h1 : |y| / F * (F - T) ≤ N / F * (F - T) := mul_le_mul_of_nonneg_right (div_le_div_of_nonneg_right hy hF.le) (by linarith)
    refine h1.trans ?_
    have a1 := le_abs_self (F - N)
    have a2 := neg_abs_le (T - t)
    have a3 := abs_nonneg (F - N)
    rcases le_total N F with h | h
    · have h2 : N / F ≤ 1 := by rw [div_le_one hF]; exact h
      have h3 := mul_le_mul_of_nonneg_right h2 (by linarith : 0 ≤ F - T)
      linarith
    · have h2 : 1 ≤ N / F := by rw [le_div_iff₀ hF]; linarith
      have h3 : N / F * (F - T) = N - N / F * T := by field_simp
      have h4 := mul_le_mul_of_nonneg_right h2 hT
      rw [h3]
      linarith

/-- `np.linalg.norm(x[g])`. -/
theorem takeIdx_norm (x : Fin d → ℝ) : ∀ (g : List ℕ), g.Nodup → (∀ i ∈ g, i < d) → ∑ i, takeIdx x g i * takeIdx x g i = ∑ i ∈ featSet g, x i ^ 2
  | [], _, _ => by simp [featSet]
  | j :: g, hnd, hb => by
    have hj := hb j List.mem_cons_self
    have hnd' := List.nodup_cons.mp hnd
    have ih := takeIdx_norm x g hnd'.2 fun i hi => hb i (List.mem_cons_of_mem _ hi)
    rw [featSet_cons j hj, Finset.sum_insert (by simp [mem_featSet, hnd'.1]), ← ih]
    show ∑ i : Fin (g.length + 1), _ = _
    rw [Fin.sum_univ_succ]
    congr 1
    show (if h : j < d then x ⟨j, h⟩ else 0) * (if h : j < d then x ⟨j, h⟩ else 0) = _
    rw [dif_pos hj, sq]

theorem takeIdx_flNorm_error (hs : Scale rd u eta w 1) (hd : 4 * d * w ≤ 1) {x : Fin d → ℝ} {g : List ℕ} (hnd : g.Nodup) (hb : ∀ i ∈ g, i < d) {s : ℝ} (h : FlNorm rd (takeIdx x g) s) :
    |s - blockNorm (featSet g) x| ≤ (12 * d + 2) * w * (1 + blockNorm (featSet g) x) := by
  obtain ⟨q, hq, rfl⟩ := h
  have hpos := hq.pos
  rw [List.length_ofFn] at hpos
  have hlen : g.length ≤ d := by
    have h1 : g.toFinset ⊆ Finset.range d := fun i hi => Finset.mem_range.mpr (hb i (List.mem_toFinset.mp hi))
    have h2 := Finset.card_le_card h1
    rwa [List.toFinset_card_of_nodup hnd, Finset.card_range] at h2
  have hl : (g.length : ℝ) ≤ d := by exact_mod_cast hlen
  have hw := hs.w_nonneg
  have h1 := norm_error hs hpos (le_trans (mul_le_mul_of_nonneg_right (by linarith) hw) hd) hq
  rw [takeIdx_norm x g hnd hb] at h1
  refine h1.trans (mul_le_mul_of_nonneg_right (mul_le_mul_of_nonneg_right (by linarith) hw) ?_)
  linarith [Real.sqrt_nonneg (∑ i ∈ featSet g, x i ^ 2)]

theorem abs_le_blockNorm {b : Finset (Fin d)} {x : Fin d → ℝ} {i : Fin d} (hi : i ∈ b) : |x i| ≤ blockNorm b x :=
  Real.abs_le_sqrt (Finset.single_le_sum (f := fun i => x i ^ 2) (fun i _ => sq_nonneg _) hi)

theorem blockNorm_le_norm2 (b : Finset (Fin d)) (x : Fin d → ℝ) : blockNorm b x ≤ norm2 x := by
  refine Real.sqrt_le_sqrt ?_
  unfold dot
  calc ∑ i ∈ b, x i ^ 2 ≤ ∑ i, x i ^ 2 := Finset.sum_le_sum_of_subset_of_nonneg (Finset.subset_univ _) fun i _ _ => sq_nonneg _
    _ = _ := Finset.sum_congr rfl fun i _ => sq _

/-- The loop of `GroupL1.prox`. -/
theorem GroupL1.flProx_fold (rd : ℝ → ℝ) (alpha step : ℝ) (norm : List ℕ → ℝ) (x : Fin d → ℝ) : ∀ (gs : List (List ℕ)) (out : Fin d → ℝ), gs.Pairwise (fun g g' => ∀ i ∈ g, i ∉ g') →
    (∀ g ∈ gs, ∀ i : Fin d, i.val ∈ g → out i = x i) →
    (∀ g ∈ gs, ∀ i : Fin d, i.val ∈ g → gs.foldl (fun out g => GroupL1.flProxGroup rd alpha step (norm g) out g) out i =
      if norm g > rd (alpha * step) then rd (x i - rd (rd (rd (step * alpha) * x i) / norm g)) else 0) ∧
    ∀ i : Fin d, (∀ g ∈ gs, i.val ∉ g) → gs.foldl (fun out g => GroupL1.flProxGroup rd alpha step (norm g) out g) out i = out i
  | [], out, _, _ => ⟨by simp, by simp⟩
  | g :: gs, out, hd, ho => by
    have hd' := List.pairwise_cons.mp hd
    have h2 : ∀ i : Fin d, i.val ∈ g → GroupL1.flProxGroup rd alpha step (norm g) out g i = if norm g > rd (alpha * step) then rd (x i - rd (rd (rd (step * alpha) * x i) / norm g)) else 0 := by
      intro i hi
      unfold GroupL1.flProxGroup
      rw [← ho g List.mem_cons_self i hi]
      split_ifs <;> simp [hi]
    have h3 : ∀ i : Fin d, i.val ∉ g → GroupL1.flProxGroup rd alpha step (norm g) out g i = out i := by
      intro i hi
      unfold GroupL1.flProxGroup
      split_ifs <;> simp [hi]
    obtain ⟨p2, p3⟩ := GroupL1.flProx_fold rd alpha step norm x gs (GroupL1.flProxGroup rd alpha step (norm g) out g) hd'.2 (by
      intro k hk i hi
      rw [h3 i (fun hig => hd'.1 k hk _ hig hi)]
      exact ho k (List.mem_cons_of_mem _ hk) i hi)
    refine ⟨?_, ?_⟩
    · intro k hk i hi
      rw [List.foldl_cons]
      rcases List.mem_cons.mp hk with rfl | hk
      · rw [p3 i (fun k' hk' => hd'.1 k' hk' _ hi)]; exact h2 i hi
      · exact p2 k hk i hi
    · intro i hi
      rw [List.foldl_cons, p3 i (fun k hk => hi k (List.mem_cons_of_mem _ hk))]
      exact h3 i (hi g List.mem_cons_self)

/-- `GroupL1.prox`; the step size must be large compared to the underflow threshold. -/
theorem groupProx_error {alpha : ℝ} (ha : 0 ≤ alpha) {groups : List (List ℕ)} (hG : GoodGroups groups) (hb : ∀ g ∈ groups, ∀ i ∈ g, i < d) {s2 I' : ℝ} (h2 : 0 ≤ s2) (hI' : 0 ≤ I') :
    ∃ K, 0 ≤ K ∧ ∀ (rd : ℝ → ℝ) (u eta w : ℝ), Scale rd u eta w 1 → 4 * d * w ≤ 1 → K * w ≤ 1 → ∀ (v : Fin d → ℝ) (norm : List ℕ → ℝ) s p, 0 < s → s ≤ s2 → eta ≤ I' * w * s →
      (∀ g ∈ groups, FlNorm rd (takeIdx v g) (norm g)) → GroupL1.prox alpha groups v s = .ok p → ∀ j, |GroupL1.flProx rd alpha norm groups v s j - p j| ≤ K * w * (1 + norm2 v) := by
  obtain ⟨M, hM⟩ : ∃ M : ℝ, M = 12 * d + 2 := ⟨_, rfl⟩
  have hM0 : 0 ≤ M := by rw [hM]; positivity
  obtain ⟨I, hI⟩ : ∃ I : ℝ, I = I' / alpha := ⟨_, rfl⟩
  have hI0 : 0 ≤ I := by rw [hI]; positivity
  obtain ⟨T2, hT2⟩ : ∃ T2, T2 = alpha * s2 := ⟨_, rfl⟩
  have hT20 : 0 ≤ T2 := by rw [hT2]; exact mul_nonneg ha h2
  obtain ⟨K0, hK0⟩ : ∃ K0, K0 = M + T2 + 1 := ⟨_, rfl⟩
  have hK00 : 0 ≤ K0 := by rw [hK0]; positivity
  refine ⟨2 * (K0 + (8 * I + 8)) + 1 + 1, by positivity, ?_⟩
  intro rd u eta w hs hd hKw v norm s p hs0 hs2 heta hnorm hp j
  have hw := hs.w_nonneg
  have hKw1 : 0 ≤ K0 * w := by positivity
  have hKw2 : 0 ≤ I * w := by positivity
  have hIw : 4 * I * w ≤ 1 := by linarith
  have hw4 : 4 * w ≤ 1 := by linarith
  have hN2 := norm2_nonneg' v
  have hs' : Scale rd u eta w (1 + norm2 v) := ⟨hs.rnd, hs.u_le, hs.eta_le, hs.w_nonneg, hs.w_le, by linarith⟩
  obtain ⟨p', e, q1, q2⟩ := GroupL1.prox_fold alpha s v groups v (fun g hg => ⟨(hG.1 g hg).2.nodup, hb g hg⟩) hG.disjoint (fun _ _ _ _ => rfl)
  have hpp : p = p' := by
    have : GroupL1.prox alpha groups v s = .ok p' := e
    rw [hp] at this
    exact Except.ok.inj this
  obtain ⟨r1, r2⟩ := GroupL1.flProx_fold rd alpha s norm v groups v hG.disjoint fun _ _ _ _ => rfl
  rw [hpp]
  by_cases hj : ∃ g ∈ groups, j.val ∈ g
  · obtain ⟨g, hg, hjg⟩ := hj
    have e1 : GroupL1.flProx rd alpha norm groups v s j = _ := r1 g hg j hjg
    rw [e1, q1 g hg j hjg]
    unfold softVal
    have hF := takeIdx_flNorm_error hs hd (hG.1 g hg).2.nodup (hb g hg) (hnorm g hg)
    rw [← hM] at hF
    have hyN : |v j| ≤ blockNorm (featSet g) v := abs_le_blockNorm (mem_featSet.mpr hjg)
    have hNn : blockNorm (featSet g) v ≤ norm2 v := blockNorm_le_norm2 _ v
    have hN0 : 0 ≤ blockNorm (featSet g) v := Real.sqrt_nonneg _
    have hts : 0 ≤ s * alpha := mul_nonneg hs0.le ha
    have hT := hs.rnd.err (s * alpha)
    rw [abs_of_nonneg hts] at hT
    rw [mul_comm alpha s]
    have hTn : 0 ≤ rd (s * alpha) := hs.rnd.nonneg hts
    have hrz : rd 0 = 0 := hs.rnd.zero
    have hTz : alpha = 0 → rd (s * alpha) = 0 := fun h => by rw [h, mul_zero, hrz]
    have hst2 : s * alpha ≤ T2 := by rw [hT2, mul_comm]; exact mul_le_mul_of_nonneg_left hs2 ha
    have hTerr : |rd (s * alpha) - s * alpha| ≤ (T2 + 1) * w := by
      have h3 := mul_le_mul hs.u_le hst2 hts hw
      linarith [hs.eta_le']
    have hts1 : 0 < alpha → eta ≤ I * w * (s * alpha) := fun hap => by
      have e : I * w * (s * alpha) = I' * w * s := by rw [hI]; field_simp
      rw [e]; exact heta
    obtain ⟨N, hNd⟩ : ∃ N, N = blockNorm (featSet g) v := ⟨_, rfl⟩
    obtain ⟨F, hFd⟩ : ∃ F, F = norm g := ⟨_, rfl⟩
    obtain ⟨T, hTd⟩ : ∃ T, T = rd (s * alpha) := ⟨_, rfl⟩
    obtain ⟨t, htd⟩ : ∃ t, t = s * alpha := ⟨_, rfl⟩
    rw [← hNd, ← hFd] at hF
    rw [← hNd] at hyN hNn hN0 ⊢
    rw [← hTd] at hTz hTn hT hTerr ⊢
    rw [← htd] at hT hTerr hts hst2 hts1 ⊢
    rw [← hFd]
    have hNN : M * w * (1 + N) ≤ M * w * (1 + norm2 v) := mul_le_mul_of_nonneg_left (by linarith) (by positivity)
    have hTw : (T2 + 1) * w ≤ (T2 + 1) * w * (1 + norm2 v) := le_mul_of_one_le_right (by positivity) (by linarith)
    by_cases hFT : F > T
    · rw [if_pos hFT]
      have hF0 : 0 < F := by linarith
      have hq := softBlock_error (t := t) hyN hts hTn hFT
      have hq' : |v j - T * v j / F - (if N > t then v j * (1 - t / N) else 0)| ≤ K0 * w * (1 + norm2 v) := by
        have : K0 * w * (1 + norm2 v) = M * w * (1 + norm2 v) + (T2 + 1) * w * (1 + norm2 v) := by rw [hK0]; ring
        linarith
      have hsize : |(if N > t then v j * (1 - t / N) else 0)| ≤ 1 * (1 + norm2 v) := by
        split_ifs with h
        · have hNp : 0 < N := by linarith
          have h3 : t / N ≤ 1 := by rw [div_le_one hNp]; linarith
          have h4 : 0 ≤ t / N := by positivity
          rw [abs_mul, abs_of_nonneg (by linarith : 0 ≤ 1 - t / N)]
          have := mul_le_mul hyN (by linarith : 1 - t / N ≤ 1) (by linarith) hN0
          linarith
        · rw [abs_zero]; linarith
      have c1 : Close w (1 + norm2 v) K0 1 (v j - T * v j / F) (if N > t then v j * (1 - t / N) else 0) := ⟨hq', hsize, hK00, zero_le_one⟩
      -- rounding of the product and of the quotient
      have hprod : |rd (T * v j) / F - T * v j / F| ≤ (w + I * w * 2) * (1 + norm2 v) := by
        rw [← sub_div, abs_div, abs_of_pos hF0, div_le_iff₀ hF0]
        rcases ha.eq_or_lt with ha0 | hap
        · rw [hTz ha0.symm, zero_mul, hrz, sub_zero, abs_zero]; positivity
        · have h3 := hs.rnd.err (T * v j)
          rw [abs_mul, abs_of_nonneg hTn] at h3
          have h4 : u * (T * |v j|) ≤ w * (F * norm2 v) := mul_le_mul hs.u_le (mul_le_mul hFT.le (by linarith) (abs_nonneg _) hF0.le) (by positivity) hw
          have h5 := hts1 hap
          -- `T` is at least half of `t` or `t` is small
          have h6 : eta ≤ I * w * 2 * F := by
            have h7 : t ≤ T + u * t + eta := by linarith [(abs_le.mp hT).1]
            have h8 : u * t ≤ t / 4 := by
              have := mul_le_mul_of_nonneg_right (hs.u_le.trans (by linarith : w ≤ 1 / 4)) hts
              linarith
            have h9 : eta ≤ t / 4 := by
              have := mul_le_mul_of_nonneg_left hIw (show 0 ≤ t / 4 by positivity)
              linarith
            have h10 : t ≤ 2 * F := by linarith
            have h11 := mul_le_mul_of_nonneg_left h10 (show 0 ≤ I * w by positivity)
            linarith
          have h7 : 0 ≤ w * F := by positivity
          have h8 : 0 ≤ I * w * 2 * F * norm2 v := by positivity
          linarith
      have hq0 : |T * v j / F| ≤ norm2 v := by
        rw [abs_div, abs_mul, abs_of_nonneg hTn, abs_of_pos hF0, div_le_iff₀ hF0, mul_comm]
        exact mul_le_mul (by linarith) hFT.le hTn hN2
      have hq1 : |rd (rd (T * v j) / F) - T * v j / F| ≤ (8 * I + 8) * w * (1 + norm2 v) := by
        have h3 := hs.rnd.err (rd (T * v j) / F)
        have hI8 : (w + I * w * 2) * (1 + norm2 v) ≤ 1 * (1 + norm2 v) := mul_le_mul_of_nonneg_right (by linarith) (by linarith)
        have h4 : |rd (T * v j) / F| ≤ 2 * (1 + norm2 v) := by
          calc |rd (T * v j) / F| = |T * v j / F + (rd (T * v j) / F - T * v j / F)| := congrArg _ (by ring)
            _ ≤ _ := (abs_add_le _ _).trans (by linarith)
        have h5 := mul_le_mul hs.u_le h4 (abs_nonneg _) hw
        have h6 := abs_sub_le (rd (rd (T * v j) / F)) (rd (T * v j) / F) (T * v j / F)
        have h7 : 0 ≤ w * norm2 v := by positivity
        have h8 : 0 ≤ I * w * norm2 v := by positivity
        linarith [hs.eta_le']
      have c2 := c1.perturb hs' (v := v j - rd (rd (T * v j) / F)) (K := 8 * I + 8) (by positivity) (by
        rw [show v j - rd (rd (T * v j) / F) - (v j - T * v j / F) = -(rd (rd (T * v j) / F) - T * v j / F) by ring, abs_neg]
        exact hq1)
      exact (c2.round hs').err
    · rw [if_neg hFT, zero_sub, abs_neg]
      push Not at hFT
      have hKw : M * w * (1 + norm2 v) + (T2 + 1) * w * (1 + norm2 v) ≤ (2 * (K0 + (8 * I + 8)) + 1 + 1) * w * (1 + norm2 v) := by
        have : M * w * (1 + norm2 v) + (T2 + 1) * w * (1 + norm2 v) = K0 * w * (1 + norm2 v) := by rw [hK0]; ring
        rw [this]
        refine mul_le_mul_of_nonneg_right (mul_le_mul_of_nonneg_right ?_ hw) (by linarith)
        linarith
      split_ifs with h
      · have hNp : 0 < N := by linarith
        have h3 : v j * (1 - t / N) = v j / N * (N - t) := by field_simp
        rw [h3, abs_mul, abs_div, abs_of_pos hNp, abs_of_pos (by linarith : 0 < N - t)]
        have h4 : |v j| / N ≤ 1 := by rw [div_le_one hNp]; exact hyN
        have h5 := mul_le_mul_of_nonneg_right h4 (by linarith : 0 ≤ N - t)
        linarith [neg_abs_le (F - N), le_abs_self (T - t)]
      · rw [abs_zero]; positivity
  · push Not at hj
    have e1 : GroupL1.flProx rd alpha norm groups v s j = _ := r2 j hj
    rw [e1, q2 j hj, sub_self, abs_zero]
    positivity

/-- Penalties whose `prox` is modelled with rounding and for which the error is proportional to the precision. -/
def PenObj.FlGood : PenObj d → Prop
  | .l1Norm alpha => 0 ≤ alpha
  | .groupL1 alpha groups => 0 ≤ alpha ∧ GoodGroups groups ∧ ∀ g ∈ groups, ∀ i ∈ g, i < d
  | .linfBall alpha => 0 ≤ alpha
  | .l2Ball alpha => 0 < alpha
  | _ => False

theorem PenObj.FlGood.good {pen : PenObj d} (h : pen.FlGood) : pen.Good := by
  cases pen with
  | l1Norm alpha => exact h
  | groupL1 alpha groups => exact h
  | linfBall alpha => exact h
  | l2Ball alpha => exact (show 0 < alpha from h).le
  | _ => exact h.elim

/-- The step size must be large compared to the underflow threshold. -/
theorem PenObj.flProx_error' (pen : PenObj d) (hp : pen.FlGood) {s2 I : ℝ} (h2 : 0 ≤ s2) (hI : 0 ≤ I) : ∃ K, 0 ≤ K ∧ ∀ (rd : ℝ → ℝ) (u eta w : ℝ), Scale rd u eta w 1 → 4 * d * w ≤ 1 → K * w ≤ 1 →
    ∀ v s p, 0 < s → s ≤ s2 → eta ≤ I * w * s → pen.FlProx rd v s p → ∀ j, |p j - pen.proxE (WithLp.toLp 2 v) s j| ≤ K * w * (1 + norm2 v) := by
  cases pen with
  | l1Norm alpha =>
    obtain ⟨K, hK, h⟩ := l1Prox_error (d := d) alpha s2 h2
    refine ⟨K, hK, ?_⟩
    rintro rd u eta w hs hd - v s p hs1 hs2 - rfl j
    exact h rd u eta w (1 + norm2 v) ⟨hs.rnd, hs.u_le, hs.eta_le, hs.w_nonneg, hs.w_le, by linarith [norm2_nonneg' v]⟩ v s (fun j => by linarith [abs_le_norm2 v j]) (by linarith) hs2 j
  | groupL1 alpha groups =>
    obtain ⟨ha, hG, hb⟩ := hp
    obtain ⟨K, hK, h⟩ := groupProx_error ha hG hb h2 hI
    refine ⟨K, hK, ?_⟩
    rintro rd u eta w hs hd hKw v s p hs1 hs2 he ⟨-, norm, hnorm, rfl⟩ j
    obtain ⟨p', e, -, -⟩ := C13_group_prox_exact alpha s ha hs1.le groups hG hb v
    have : PenObj.proxE (.groupL1 alpha groups) (WithLp.toLp 2 v) s = WithLp.toLp 2 p' := PenObj.proxE_ok (pen := .groupL1 alpha groups) e
    rw [this]
    exact h rd u eta w hs hd hKw v norm s p' hs1 hs2 he hnorm e j
  | linfBall alpha =>
    refine ⟨0, le_rfl, ?_⟩
    rintro rd u eta w hs hd - v s p hs1 hs2 - rfl j
    show |LinfBall.prox alpha v j - LinfBall.prox alpha v j| ≤ _
    simp
  | l2Ball alpha =>
    obtain ⟨K, hK, h⟩ := l2Prox_error (show 0 < alpha from hp) d
    refine ⟨K, hK, ?_⟩
    rintro rd u eta w hs hd - v s p hs1 hs2 - ⟨F, hF, rfl⟩ j
    exact h rd u eta w hs hd v F hF j
  | _ => exact hp.elim

theorem PenObj.flProx_error (pen : PenObj d) (hp : pen.FlGood) {s1 s2 : ℝ} (h1 : 0 < s1) (h12 : s1 ≤ s2) : ∃ K, 0 ≤ K ∧ ∀ (rd : ℝ → ℝ) (u eta w : ℝ), Scale rd u eta w 1 → 4 * d * w ≤ 1 → K * w ≤ 1 →
    ∀ v s p, s1 ≤ s → s ≤ s2 → pen.FlProx rd v s p → ∀ j, |p j - pen.proxE (WithLp.toLp 2 v) s j| ≤ K * w * (1 + norm2 v) := by
  obtain ⟨K, hK, h⟩ := pen.flProx_error' hp (h1.le.trans h12) (show 0 ≤ s1⁻¹ by positivity)
  refine ⟨K, hK, fun rd u eta w hs hd hKw v s p hs1 hs2 => h rd u eta w hs hd hKw v s p (h1.trans_le hs1) hs2 ?_⟩
  have e : 1 ≤ s1⁻¹ * s := by rw [inv_mul_eq_div, le_div_iff₀ h1]; linarith
  have := mul_le_mul_of_nonneg_left e hs.w_nonneg
  linarith [hs.eta_le']

end Copt
