import Verif.Proof.Appr
import Verif.Model.FloatRandomized
import Verif.Props.PenalisedOrder
import Verif.Props.Nonexpansive

/-! # One step of SAGA and SVRG with rounded arithmetic, compared with the exact step -/

set_option linter.unusedSectionVars false

namespace Copt

open Spec

variable {ι : Type} {n p : ℕ} {fl : ι → ℝ → ℝ} {w : ι → ℝ}

theorem const_fam {α β : Type} {A : Option α} {B : ι → α → Option β} {r : ι → β} (h : ∀ i, (A >>= B i) = some (r i)) :
    (∃ a, A = some a ∧ ∀ i, B i a = some (r i)) ∨ ∀ _ : ι, False := by
  cases A with
  | none => exact .inr fun i => by have := h i; simp at this
  | some a => exact .inl ⟨a, rfl, h⟩

theorem Appr.of_empty {a b : ι → ℝ} (h : ∀ _ : ι, False) : Appr w a b := ⟨0, le_rfl, fun i => (h i).elim⟩

theorem Appr.wcongr {a b a' b' : ι → ℝ} (h : Appr w a b) (ha : ∀ i, a' i = a i) (hb : ∀ i, b' i = b i) : Appr w a' b' := by
  obtain ⟨C, h0, h⟩ := h
  exact ⟨C, h0, fun i => by rw [ha, hb]; exact h i⟩

theorem flRowDot_fam (hf : FlFam fl w) {x x' : ι → Fin p → ℝ} (hx : ApprV w x' x) {row : List (ℕ × ℝ)} {s : ι → ℝ} (h : ∀ i, rowDot (x i) row = some (s i)) :
    ∃ s' : ι → ℝ, (∀ i, flRowDot (fl i) (x' i) row = some (s' i)) ∧ Appr w s' s := by
  refine foldlM_fam (Appr w) _ _ row ?_ (fun _ => 0) (fun _ => 0) s (Appr.const hf.nonneg 0) h
  intro e _ a b b' hab hb
  obtain ⟨v, hv, hb'⟩ := bind_fam hb
  obtain ⟨v', hv', hvv⟩ := rd_fam (fun hj => hx ⟨e.1, hj⟩) hv
  refine ⟨fun i => fl i (a i + fl i (v' i * e.2)), fun i => by rw [hv' i]; rfl, ?_⟩
  exact ((hab.add ((hvv.mulc hf.nonneg hf.le e.2).round hf)).round hf).wcongr (fun _ => rfl) fun i => (Option.some.inj (hb' i)).symm

theorem flRowScatter_fam (hf : FlFam fl w) {g g' : ι → ℝ} (hg : Appr w g' g) : ∀ (row : List (ℕ × ℝ)) (T : Set ℕ) (tmp tmp' r : ι → Fin p → ℝ),
    (∀ c : Fin p, c.val ∈ T → Appr w (fun i => tmp' i c) (fun i => tmp i c)) → (∀ i, rowScatter (g i) row (tmp i) = some (r i)) →
    ∃ r' : ι → Fin p → ℝ, (∀ i, flRowScatter (fl i) (g' i) row (tmp' i) = some (r' i)) ∧
      (∀ c : Fin p, (c.val ∈ T ∨ ∃ e ∈ row, e.1 = c.val) → Appr w (fun i => r' i c) (fun i => r i c)) ∧
      ∀ c : Fin p, (∀ e ∈ row, e.1 ≠ c.val) → ∀ i, r' i c = tmp' i c ∧ r i c = tmp i c := by
  intro row
  induction row with
  | nil =>
    intro T tmp tmp' r hT h
    refine ⟨tmp', fun i => rfl, fun c hc => ?_, fun c _ i => ⟨rfl, ?_⟩⟩
    · rcases hc with hc | ⟨e, he, -⟩
      · exact (hT c hc).wcongr (fun _ => rfl) fun i => by rw [← Option.some.inj (h i)]
      · simp at he
    · rw [← Option.some.inj (h i)]
  | cons e row ih =>
    intro T tmp tmp' r hT h
    unfold rowScatter at h
    simp only [List.foldlM_cons] at h
    obtain ⟨t1, h1, h2⟩ := bind_fam h
    obtain ⟨t1', h1', h3⟩ := wr_fam (x' := tmp') ((hg.mulc hf.nonneg hf.le e.2).round hf) h1
    obtain ⟨r', hr', h4, h5⟩ := ih (insert e.1 T) t1 t1' r (fun c hc => by
      rcases hc with hc | hc
      · exact (h3 c).1 hc
      · exact (h3 c).2.1 (hT c hc)) h2
    refine ⟨r', fun i => ?_, fun c hc => h4 c ?_, fun c hc i => ?_⟩
    · unfold flRowScatter
      rw [List.foldlM_cons, h1' i]
      exact hr' i
    · rcases hc with hc | ⟨e', he', hee⟩
      · exact .inl (Or.inr hc)
      · rcases List.mem_cons.mp he' with rfl | he'
        · exact .inl (Or.inl hee.symm)
        · exact .inr ⟨e', he', hee⟩
    · have k1 := h5 c (fun e' he' => hc e' (List.mem_cons_of_mem _ he')) i
      have k2 := (h3 c).2.2 (Ne.symm (hc e List.mem_cons_self)) i
      exact ⟨k1.1.trans k2.1, k1.2.trans k2.2⟩

theorem flStepBody_fam (hf : FlFam fl w) {m : ℕ} {d : Fin m → ℝ} {d' : ι → Fin m → ℝ} (hd : ∀ h, Appr w (fun i => d' i h) (fun _ => d h)) {avg avg' tmp tmp' x x' y : ι → Fin p → ℝ}
    (ha : ApprV w avg' avg) (hx : ApprV w x' x) {h j : ℕ} (ht : ∀ hj : j < p, Appr w (fun i => tmp' i ⟨j, hj⟩) (fun i => tmp i ⟨j, hj⟩)) (alpha step : ℝ)
    (hy : ∀ i, stepBody d (avg i) (tmp i) alpha step h (x i) j = some (y i)) :
    ∃ y' : ι → Fin p → ℝ, (∀ i, flStepBody (fl i) (d' i) (avg' i) (tmp' i) alpha step h (x' i) j = some (y' i)) ∧ ApprV w y' y := by
  unfold stepBody at hy
  obtain ⟨dh, k1, hy⟩ := bind_fam hy
  obtain ⟨a, k2, hy⟩ := bind_fam hy
  obtain ⟨v, k3, hy⟩ := bind_fam hy
  obtain ⟨t, k4, hy⟩ := bind_fam hy
  obtain ⟨dh', j1, e1⟩ := rd_fam (x := fun _ => d) (x' := d') (fun hj => hd ⟨h, hj⟩) k1
  obtain ⟨a', j2, e2⟩ := rd_fam (fun hj => ha ⟨j, hj⟩) k2
  obtain ⟨v', j3, e3⟩ := rd_fam (fun hj => hx ⟨j, hj⟩) k3
  obtain ⟨t', j4, e4⟩ := rd_fam ht k4
  have e5 := (e2.add ((e3.cmul hf.nonneg hf.le alpha).round hf)).round hf
  have e6 := (e4.add ((e1.mul hf.nonneg hf.le e5).round hf)).round hf
  have e7 := (e3.sub ((e6.cmul hf.nonneg hf.le step).round hf)).round hf
  obtain ⟨y', j5, e8⟩ := wr_famV hx e7 hy
  refine ⟨y', fun i => ?_, e8⟩
  unfold flStepBody
  rw [j1 i, j2 i, j3 i, j4 i]
  exact j5 i

theorem forBlocks_fam (B : BlockMat) {f : ι → ℕ → (Fin p → ℝ) → ℕ → Option (Fin p → ℝ)} {g : ι → ℕ → (Fin p → ℝ) → ℕ → Option (Fin p → ℝ)} (hs : List ℕ)
    (hstep : ∀ h ∈ hs, ∀ lo hi, rd B.ptr h = some lo → rd B.ptr (h + 1) = some hi → ∀ j ∈ List.range' lo (hi - lo), ∀ x' x y : ι → Fin p → ℝ, ApprV w x' x →
      (∀ i, g i h (x i) j = some (y i)) → ∃ y' : ι → Fin p → ℝ, (∀ i, f i h (x' i) j = some (y' i)) ∧ ApprV w y' y)
    {x x' y : ι → Fin p → ℝ} (hx : ApprV w x' x) (hy : ∀ i, forBlocks B (g i) hs (x i) = some (y i)) :
    ∃ y' : ι → Fin p → ℝ, (∀ i, forBlocks B (f i) hs (x' i) = some (y' i)) ∧ ApprV w y' y := by
  refine foldlM_fam (ApprV w) (fun i s h => do
    let lo ← rd B.ptr h
    let hi ← rd B.ptr (h + 1)
    (List.range' lo (hi - lo)).foldlM (f i h) s) (fun i s h => do
    let lo ← rd B.ptr h
    let hi ← rd B.ptr (h + 1)
    (List.range' lo (hi - lo)).foldlM (g i h) s) hs ?_ x' x y hx hy
  intro h hh x' x y hx hy
  rcases const_fam hy with ⟨lo, hlo, hy⟩ | he
  swap
  · exact ⟨y, fun i => (he i).elim, fun c => Appr.of_empty he⟩
  rcases const_fam hy with ⟨hi, hhi, hy⟩ | he
  swap
  · exact ⟨y, fun i => (he i).elim, fun c => Appr.of_empty he⟩
  obtain ⟨y', h1, h2⟩ := foldlM_fam (ApprV w) (fun i => f i h) (fun i => g i h) (List.range' lo (hi - lo)) (fun j hj x' x y hx hy =>
    hstep h hh lo hi hlo hhi j hj x' x y hx hy) x' x y hx hy
  exact ⟨y', fun i => by rw [hlo, hhi]; exact h1 i, h2⟩

/-- The computed weights approximate the exact ones. -/
theorem flSupWeights_fam (hf : FlFam fl w) (n : ℕ) (bs : List ℕ) (h : Fin (supWidth bs)) : Appr w (fun i => flSupWeights (fl i) n bs h) (fun _ => supWeights n bs h) :=
  (Appr.const hf.nonneg _).round hf

/-- The arguments with computed oracles and other loop parameters. -/
@[reducible] def VRArgs.flWith (P : VRArgs ℝ n p) (fd : ℝ → ℝ → ℝ) (fp : SparseProx ℝ p) (order : ℕ → List ℕ) (tol : ℝ) (maxIter : ℕ) : VRArgs ℝ n p :=
  { P with deriv := fd, prox := fp, order := order, tol := tol, maxIter := maxIter }

/-- What is required of the computed derivative and proximal operator. -/
structure FlVROracles (P : VRArgs ℝ n p) (step : ℝ) (fl : ℝ → ℝ) (fd : ℝ → ℝ → ℝ) (fp : SparseProx ℝ p) (K w : ℝ) : Prop where
  deriv : ∀ i t, |fd t (P.b i) - P.deriv t (P.b i)| ≤ K * w * (1 + |t|)
  prox : ∀ (m : ℕ) (d : Fin m → ℝ) (hs : List ℕ) (v z : Fin p → ℝ), (∀ h, 0 ≤ d h ∧ d h ≤ n + 1) → hs.Nodup → P.prox m d step hs v = some z →
    ∃ z', fp m (fun h => fl (d h)) step hs v = some z' ∧ ∀ c, |z' c - z c| ≤ K * w * (1 + norm2 v)

theorem norm2_eq_sqrt (v : Fin p → ℝ) : norm2 v = √(∑ c, v c ^ 2) := by
  unfold norm2 dot
  simp only [sq]

theorem norm2_le_sum (v : Fin p → ℝ) : norm2 v ≤ ∑ c, |v c| := by
  rw [norm2_eq_sqrt, show ∑ c, |v c| = √((∑ c, |v c|) ^ 2) from (Real.sqrt_sq (Finset.sum_nonneg fun _ _ => abs_nonneg _)).symm]
  refine Real.sqrt_le_sqrt ?_
  simp only [← sq_abs (v _)]
  exact Finset.sum_sq_le_sq_sum_of_nonneg fun i _ => abs_nonneg _

theorem sqDist_coord {x y : Fin p → ℝ} (c : Fin p) : |x c - y c| ≤ √(sqDist x y) := by
  rw [← Real.sqrt_sq_eq_abs]
  exact Real.sqrt_le_sqrt (Finset.single_le_sum (f := fun c => (x c - y c) ^ 2) (fun _ _ => sq_nonneg _) (Finset.mem_univ c))

theorem sqrt_sqDist_le {x y : Fin p → ℝ} : √(sqDist x y) ≤ ∑ c, |x c - y c| := by
  have := norm2_le_sum fun c => x c - y c
  rwa [norm2_eq_sqrt] at this

theorem ApprV.uniform {a b : ι → Fin p → ℝ} (h : ApprV w a b) (hw : ∀ i, 0 ≤ w i) (hw1 : ∀ i, w i ≤ 1) : ∃ C, 0 ≤ C ∧ ∀ i, ∑ c, |a i c - b i c| ≤ C * w i ∧ ∑ c, |b i c| ≤ C ∧ ∑ c, |a i c| ≤ C := by
  choose C hC0 hC using h
  choose E hE0 hE using fun c => (Appr.bound hw1 ⟨C c, hC0 c, hC c⟩)
  have hE' : 0 ≤ ∑ c, E c := Finset.sum_nonneg fun c _ => hE0 c
  have hC' : 0 ≤ ∑ c, C c := Finset.sum_nonneg fun c _ => hC0 c
  refine ⟨∑ c, C c + ∑ c, E c, by positivity, fun i => ?_⟩
  have h1 : ∑ c, |a i c - b i c| ≤ (∑ c, C c) * w i := by
    rw [Finset.sum_mul]
    exact Finset.sum_le_sum fun c _ => (hC c i).1
  have h2 : ∑ c, |b i c| ≤ ∑ c, C c := Finset.sum_le_sum fun c _ => (hC c i).2
  have h3 : ∑ c, |a i c| ≤ ∑ c, E c := Finset.sum_le_sum fun c _ => hE c i
  exact ⟨h1.trans (mul_le_mul_of_nonneg_right (by linarith) (hw i)), by linarith, by linarith⟩

theorem supWeights_le_card (n : ℕ) (bs : List ℕ) (h : Fin (supWidth bs)) : (supWeights n bs h : ℝ) ≤ n + 1 := by
  unfold supWeights
  split
  · have : (0 : ℝ) ≤ n := Nat.cast_nonneg n
    linarith
  · rename_i hne
    have h1 : (1 : ℝ) ≤ bs.count h.val := by exact_mod_cast Nat.one_le_iff_ne_zero.mpr hne
    have h2 : (n : ℝ) / bs.count h.val ≤ n := div_le_self (Nat.cast_nonneg n) h1
    linarith

section Steps
variable {P : VRArgs ℝ n p} {pen : Fin P.blocks.nb → (Fin p → ℝ) → ℝ} {f : ℝ → ℝ → ℝ} {M R D K step : ℝ} {fd : ι → ℝ → ℝ → ℝ} {fp : ι → SparseProx ℝ p}

/-- The computed proximal operator at a perturbed point. -/
theorem prox_fam (hf : FlFam fl w) (hq : PenProblem P pen f M R D) (hP : P.Good) (hstep : 0 ≤ step) (hK : 0 ≤ K) (hO : ∀ i, FlVROracles P step (fl i) (fd i) (fp i) K (w i))
    {m : ℕ} {d : Fin m → ℝ} (hd : ∀ h, 0 ≤ d h ∧ d h ≤ n + 1) {hs : List ℕ} (hnd : hs.Nodup) (hlt : ∀ h ∈ hs, h < P.blocks.nb ∧ h < m) {x x' y : ι → Fin p → ℝ} (hx : ApprV w x' x)
    (hy : ∀ i, P.prox m d step hs (x i) = some (y i)) :
    ∃ y' : ι → Fin p → ℝ, (∀ i, fp i m (fun h => fl i (d h)) step hs (x' i) = some (y' i)) ∧ ApprV w y' y := by
  have hconv : ∀ x y : Fin p → ℝ, ∀ t : ℝ, 0 ≤ t → t ≤ 1 → listedPen pen (getD0 d) hs ((1 - t) • x + t • y) ≤ (1 - t) * listedPen pen (getD0 d) hs x + t * listedPen pen (getD0 d) hs y :=
    fun x y t => listedPen_conv hP.blocks hq.penalty (fun h hh => by rw [getD0_lt _ (hlt h hh).2]; exact (hd _).1) x y t
  have hpx : ∀ v, ∃ u, P.prox m d step hs v = some u ∧ IsProx (listedPen pen (getD0 d) hs) step v u := fun v => hq.prox m d step hs v (fun h => (hd h).1) hstep hnd hlt
  obtain ⟨C, hC, hCx⟩ := hx.uniform hf.nonneg hf.le
  obtain ⟨z0, hz0, hz0p⟩ := hpx 0
  choose u hu hup using fun i => hpx (x' i)
  choose y' hy' hye using fun i => (hO i).prox m d hs (x' i) (u i) hd hnd (hu i)
  have hyp : ∀ i, IsProx (listedPen pen (getD0 d) hs) step (x i) (y i) := fun i => by
    obtain ⟨y1, h1, h2⟩ := hpx (x i)
    rw [hy i] at h1
    rwa [Option.some.inj h1]
  refine ⟨y', hy', fun c => ⟨K * (1 + C) + C + |z0 c|, by positivity, fun i => ⟨?_, ?_⟩⟩⟩
  · have h1 := hye i c
    have h2 : |u i c - y i c| ≤ C * w i := (sqDist_coord c).trans ((Real.sqrt_le_sqrt (prox_nonexpansive hstep hconv (hup i) (hyp i))).trans (sqrt_sqDist_le.trans (hCx i).1))
    have h3 : K * w i * (1 + norm2 (x' i)) ≤ K * w i * (1 + C) := mul_le_mul_of_nonneg_left (by linarith [norm2_le_sum (x' i), (hCx i).2.2]) (mul_nonneg hK (hf.nonneg i))
    have h4 : 0 ≤ |z0 c| * w i := mul_nonneg (abs_nonneg _) (hf.nonneg i)
    calc |y' i c - y i c| = |(y' i c - u i c) + (u i c - y i c)| := by ring_nf
      _ ≤ |y' i c - u i c| + |u i c - y i c| := abs_add_le _ _
      _ ≤ _ := by linarith
  · have h2 : |y i c - z0 c| ≤ C := by
      refine (sqDist_coord c).trans ((Real.sqrt_le_sqrt (prox_nonexpansive hstep hconv (hyp i) hz0p)).trans (sqrt_sqDist_le.trans ?_))
      simpa using (hCx i).2.1
    have h3 : 0 ≤ K * (1 + C) := by positivity
    calc |y i c| = |(y i c - z0 c) + z0 c| := by ring_nf
      _ ≤ |y i c - z0 c| + |z0 c| := abs_add_le _ _
      _ ≤ _ := by linarith

theorem deriv_fam (hf : FlFam fl w) (hq : PenProblem P pen f M R D) (hK : 0 ≤ K) (hO : ∀ i, FlVROracles P step (fl i) (fd i) (fp i) K (w i)) (k : Fin n) {t t' : ι → ℝ} (h : Appr w t' t) :
    Appr w (fun i => fd i (t' i) (P.b k)) (fun i => P.deriv (t i) (P.b k)) :=
  h.map hf.nonneg hf.le (g := fun i t => fd i t (P.b k)) (f := fun t => P.deriv t (P.b k)) hK hq.nonneg (fun i t => (hO i).deriv k t) (fun s t => hq.lip s t _)

/-- The coefficient update and the proximal step of a sample. -/
theorem coef_fam (hf : FlFam fl w) (hq : PenProblem P pen f M R D) (hP : P.Good) (hstep : 0 ≤ step) (hK : 0 ≤ K) (hO : ∀ i, FlVROracles P step (fl i) (fd i) (fp i) K (w i))
    {S : Support n P.blocks.nb} (hok : SupportOk P.A hP.blocks S) (k : Fin n) {hs : List ℕ} (hr : S.row k = some hs) {avg avg' tmp tmp' x x' y z : ι → Fin p → ℝ}
    (ha : ApprV w avg' avg) (hx : ApprV w x' x) (ht : ∀ c : Fin p, Near P.A hP.blocks k c → Appr w (fun i => tmp' i c) (fun i => tmp i c))
    (hy : ∀ i, forBlocks P.blocks (stepBody (supWeights n S.bs) (avg i) (tmp i) P.alpha step) hs (x i) = some (y i))
    (hz : ∀ i, P.prox _ (supWeights n S.bs) step hs (y i) = some (z i)) :
    ∃ y' z' : ι → Fin p → ℝ, (∀ i, forBlocks P.blocks (flStepBody (fl i) (flSupWeights (fl i) n S.bs) (avg' i) (tmp' i) P.alpha step) hs (x' i) = some (y' i)) ∧
      (∀ i, fp i _ (flSupWeights (fl i) n S.bs) step hs (y' i) = some (z' i)) ∧ ApprV w z' z := by
  obtain ⟨hs', hr', hnd, hlt, hmemb⟩ := hok.row k
  rw [hr] at hr'
  obtain rfl := Option.some.inj hr'
  have hwd := listed_lt_width hok hlt hmemb
  obtain ⟨y', hy', hyy⟩ := forBlocks_fam (w := w) P.blocks (f := fun i => flStepBody (fl i) (flSupWeights (fl i) n S.bs) (avg' i) (tmp' i) P.alpha step)
    (g := fun i => stepBody (supWeights n S.bs) (avg i) (tmp i) P.alpha step) hs (by
      intro h hh lo hi hlo hhi j hj x' x y hx hy
      refine flStepBody_fam hf (flSupWeights_fam hf n S.bs) ha hx (fun hjp => ht ⟨j, hjp⟩ ?_) P.alpha step hy
      have hb := hlt h hh
      have hin : InBlock P.blocks.ptr ⟨h, hb⟩ j := by
        rw [rd_lt _ (by omega)] at hlo hhi
        rw [List.mem_range'_1] at hj
        refine ⟨?_, ?_⟩
        · have := Option.some.inj hlo
          show P.blocks.ptr ⟨h, _⟩ ≤ j
          rw [this]; exact hj.1
        · have := Option.some.inj hhi
          show j < P.blocks.ptr ⟨h + 1, _⟩
          rw [this]; omega
      show Touches _ _ _ _ _
      rw [hP.blocks.of_eq (c := ⟨j, hjp⟩) hin]
      exact (hmemb ⟨h, hb⟩).mp hh) hx hy
  obtain ⟨z', hz', hzz⟩ := prox_fam hf hq hP hstep hK hO (fun h => ⟨supWeights_nonneg n S.bs h, supWeights_le_card n S.bs h⟩) hnd (fun h hh => ⟨hlt h hh, hwd h hh⟩) hyy hz
  exact ⟨y', z', hy', hz', hzz⟩

/-- The stored columns of a row. -/
theorem mem_rowList (hP : P.Good) (k : Fin n) (c : ℕ) (h : StoresAt P.A.indptr P.A.indices k c) : ∃ e ∈ P.A.rowList k, e.1 = c := by
  obtain ⟨j, hj, hc⟩ := (mem_rowPos (A := P.A) hP.csr k c).mpr h
  exact ⟨_, List.mem_map.mpr ⟨j, hj, rfl⟩, hc⟩

/-- One inner iteration of SVRG. -/
theorem svrgStep_fam (hf : FlFam fl w) (hq : PenProblem P pen f M R D) (hP : P.Good) (hfull : FullBlocks P) (hstep : 0 ≤ step) (hK : 0 ≤ K)
    (hO : ∀ i, FlVROracles P step (fl i) (fd i) (fp i) K (w i)) {S : Support n P.blocks.nb} (hok : SupportOk P.A hP.blocks S) {order : ι → ℕ → List ℕ} {tol : ι → ℝ} {maxIter : ι → ℕ}
    (k : Fin n) {snap avg avg' : ι → Fin p → ℝ} (hsn : ApprV w snap snap) (ha : ApprV w avg' avg) (s s' t : ι → SvrgState ℝ p) (hx : ApprV w (fun i => (s' i).x) (fun i => (s i).x))
    (ht : ∀ i, svrgStep P S step (snap i) (avg i) (s i) k = some (t i)) :
    ∃ t' : ι → SvrgState ℝ p, (∀ i, flSvrgStep (fl i) (P.flWith (fd i) (fp i) (order i) (tol i) (maxIter i)) S step (snap i) (avg' i) (s' i) k = some (t' i)) ∧
      ApprV w (fun i => (t' i).x) (fun i => (t i).x) := by
  obtain ⟨hs, hr, -⟩ := hok.row k
  unfold svrgStep at ht
  rw [CsrMat.row_eq hP.csr, hr, rd_fin P.b] at ht
  simp only [Option.bind_eq_bind, Option.bind_some] at ht
  obtain ⟨a, h1, ht⟩ := bind_fam ht
  obtain ⟨b, h2, ht⟩ := bind_fam ht
  obtain ⟨tm, h3, ht⟩ := bind_fam ht
  obtain ⟨y, h4, ht⟩ := bind_fam ht
  obtain ⟨z, h5, ht⟩ := bind_fam ht
  obtain ⟨a', j1, e1⟩ := flRowDot_fam hf hx h1
  obtain ⟨b', j2, e2⟩ := flRowDot_fam hf hsn h2
  have e3 := ((deriv_fam hf hq hK hO k e1).sub (deriv_fam hf hq hK hO k e2)).round hf
  obtain ⟨tm', j3, e4, -⟩ := flRowScatter_fam hf e3 (P.A.rowList k) ∅ _ (fun i => (s' i).tmp) tm (fun c hc => absurd hc (Set.notMem_empty _)) h3
  obtain ⟨y', z', j4, j5, e5⟩ := coef_fam hf hq hP hstep hK hO hok k hr ha hx
    (fun c hc => e4 c (.inr (mem_rowList hP k c (hfull k _ c (hP.blocks.of_spec c) hc)))) h4 h5
  refine ⟨fun i => { x := z' i, tmp := tm' i }, fun i => ?_, fun c => (e5 c).wcongr (fun _ => rfl) fun i => ?_⟩
  · unfold flSvrgStep
    rw [CsrMat.row_eq hP.csr, hr, rd_fin P.b]
    simp only [Option.bind_eq_bind, Option.bind_some, j1 i, j2 i, j3 i, j4 i, j5 i]
    rfl
  · show (t i).x c = z i c
    rw [← Option.some.inj (ht i)]

/-- The full gradient. -/
theorem fullGrad_fam (hf : FlFam fl w) (hq : PenProblem P pen f M R D) (hP : P.Good) (hK : 0 ≤ K)
    (hO : ∀ i, FlVROracles P step (fl i) (fd i) (fp i) K (w i)) {order : ι → ℕ → List ℕ} {tol : ι → ℝ} {maxIter : ι → ℕ}
    {x g : ι → Fin p → ℝ} (hx : ApprV w x x) (hg : ∀ i, fullGrad P (x i) = some (g i)) :
    ∃ g' : ι → Fin p → ℝ, (∀ i, flFullGrad (fl i) (P.flWith (fd i) (fp i) (order i) (tol i) (maxIter i)) (x i) = some (g' i)) ∧ ApprV w g' g := by
  refine foldlM_fam (ApprV w) _ _ (List.range n) ?_ (fun _ _ => 0) (fun _ _ => 0) g (fun c => Appr.const hf.nonneg 0) hg
  intro j hj a' a b ha hb
  obtain ⟨k, rfl⟩ : ∃ k : Fin n, k.val = j := ⟨⟨j, List.mem_range.mp hj⟩, rfl⟩
  rw [CsrMat.row_eq hP.csr, rd_fin P.b] at hb
  simp only [Option.bind_eq_bind, Option.bind_some] at hb
  obtain ⟨d, h1, hb⟩ := bind_fam hb
  obtain ⟨d', j1, e1⟩ := flRowDot_fam hf hx h1
  have e2 := deriv_fam hf hq hK hO k e1
  obtain ⟨b', j2, e3⟩ := foldlM_fam (ApprV w) (fun i grad e => do
      let g ← rd grad e.1
      wr grad e.1 (fl i (g + fl i (fl i (fd i (d' i) (P.b k) * e.2) / (n : ℝ))))) (fun i grad e => do
      let g ← rd grad e.1
      wr grad e.1 (g + P.deriv (d i) (P.b k) * e.2 / (n : ℝ))) (P.A.rowList k) (by
    intro e _ s t t' hst ht
    obtain ⟨v, k1, ht⟩ := bind_fam ht
    obtain ⟨v', l1, m1⟩ := rd_fam (fun hj => hst ⟨e.1, hj⟩) k1
    obtain ⟨s', l2, m2⟩ := wr_famV hst ((m1.add ((((e2.mulc hf.nonneg hf.le e.2).round hf).divc hf.nonneg hf.le n).round hf)).round hf) ht
    exact ⟨s', fun i => by rw [l1 i]; exact l2 i, m2⟩) a' a b ha hb
  refine ⟨b', fun i => ?_, e3⟩
  rw [CsrMat.row_eq hP.csr, rd_fin P.b]
  simp only [Option.bind_eq_bind, Option.bind_some, j1 i]
  exact j2 i

/-- A pass of SVRG from the same point. -/
theorem svrgEpoch_fam (hf : FlFam fl w) (hq : PenProblem P pen f M R D) (hP : P.Good) (hfull : FullBlocks P) (hstep : 0 ≤ step) (hK : 0 ≤ K)
    (hO : ∀ i, FlVROracles P step (fl i) (fd i) (fp i) K (w i)) {S : Support n P.blocks.nb} (hok : SupportOk P.A hP.blocks S) {order : ι → ℕ → List ℕ} {tol : ι → ℝ} {maxIter : ι → ℕ}
    {idx : List ℕ} (hidx : ∀ k ∈ idx, k < n) {avg : ι → Fin p → ℝ} (s t : ι → SvrgState ℝ p) (hx : ApprV w (fun i => (s i).x) (fun i => (s i).x))
    (hg : ∀ i, fullGrad P (s i).x = some (avg i)) (ht : ∀ i, svrgEpoch P S step (s i).x (avg i) (s i) idx = some (t i)) :
    ∃ (avg' : ι → Fin p → ℝ) (t' : ι → SvrgState ℝ p), (∀ i, flFullGrad (fl i) (P.flWith (fd i) (fp i) (order i) (tol i) (maxIter i)) (s i).x = some (avg' i)) ∧
      (∀ i, flSvrgEpoch (fl i) (P.flWith (fd i) (fp i) (order i) (tol i) (maxIter i)) S step (s i).x (avg' i) (s i) idx = some (t' i)) ∧
      ApprV w (fun i => (t' i).x) (fun i => (t i).x) := by
  obtain ⟨avg', h1, e1⟩ := fullGrad_fam (order := order) (tol := tol) (maxIter := maxIter) hf hq hP hK hO hx hg
  obtain ⟨t', h2, e2⟩ := foldlM_fam (fun s t : ι → SvrgState ℝ p => ApprV w (fun i => (s i).x) (fun i => (t i).x))
    (fun i => flSvrgStep (fl i) (P.flWith (fd i) (fp i) (order i) (tol i) (maxIter i)) S step (s i).x (avg' i)) (fun i => svrgStep P S step (s i).x (avg i)) idx
    (fun k hk s' s t h h' => svrgStep_fam hf hq hP hfull hstep hK hO hok ⟨k, hidx k hk⟩ hx e1 s s' t h h') s s t hx ht
  exact ⟨avg', t', h1, h2, e2⟩

end Steps

end Copt
