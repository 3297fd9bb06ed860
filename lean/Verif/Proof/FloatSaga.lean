import Verif.Proof.FloatVR

/-! # Passes of SAGA with rounded arithmetic -/

set_option linter.unusedSectionVars false

namespace Copt

open Spec

variable {ι : Type} {n p : ℕ} {fl : ι → ℝ → ℝ} {w W : ι → ℝ}

theorem flRowMemory_fam (hf : FlFam fl w) (m : ℕ) {g g' : ι → ℝ} (hg : Appr w g' g) : ∀ (row : List (ℕ × ℝ)) (s s' t : ι → (Fin p → ℝ) × (Fin p → ℝ)),
    ApprV w (fun i => (s' i).1) (fun i => (s i).1) → (∀ i, rowMemory m (g i) row (s i) = some (t i)) →
    ∃ t' : ι → (Fin p → ℝ) × (Fin p → ℝ), (∀ i, flRowMemory (fl i) m (g' i) row (s' i) = some (t' i)) ∧ ApprV w (fun i => (t' i).1) (fun i => (t i).1) ∧
      ∀ (i : ι) (c : Fin p), (t' i).2 c = if ∃ e ∈ row, e.1 = c.val then 0 else (s' i).2 c := by
  intro row
  induction row with
  | nil =>
    intro s s' t hs h
    refine ⟨s', fun i => rfl, fun c => (hs c).wcongr (fun _ => rfl) fun i => ?_, fun i c => by simp⟩
    show (t i).1 c = (s i).1 c
    rw [← Option.some.inj (h i)]
  | cons e row ih =>
    intro s s' t hs h
    unfold rowMemory at h
    simp only [List.foldlM_cons] at h
    obtain ⟨t1, h1, h2⟩ := bind_fam h
    obtain ⟨a, k1, h1⟩ := bind_fam h1
    obtain ⟨av, k2, h1⟩ := bind_fam h1
    obtain ⟨tm, k3, h1⟩ := bind_fam h1
    obtain ⟨a', j1, e1⟩ := rd_fam (fun hj => hs ⟨e.1, hj⟩) k1
    obtain ⟨av', j2, e2⟩ := wr_famV hs ((e1.add ((((hg.mulc hf.nonneg hf.le e.2).round hf).divc hf.nonneg hf.le m).round hf)).round hf) k2
    have hp : ∀ _ : ι, e.1 < p := fun i => by
      by_contra hc
      have := k3 i
      simp [wr, hc] at this
    have hw : ∀ i, ∃ tm', wr (s' i).2 e.1 (0 : ℝ) = some tm' ∧ ∀ c : Fin p, tm' c = if e.1 = c.val then 0 else (s' i).2 c := fun i => by
      refine ⟨_, wr_lt _ (hp i) _, fun c => ?_⟩
      by_cases hc : e.1 = c.val
      · rw [if_pos hc, show c = ⟨e.1, hp i⟩ from Fin.ext hc.symm, Function.update_self]
      · rw [if_neg hc, Function.update_of_ne fun h => hc (by rw [h])]
    choose tm' j3 e3 using hw
    obtain ⟨t', l1, l2, l3⟩ := ih t1 (fun i => (av' i, tm' i)) t (fun c => (e2 c).wcongr (fun _ => rfl) fun i => by
      show (t1 i).1 c = av i c
      rw [← Option.some.inj (h1 i)]) h2
    refine ⟨t', fun i => ?_, l2, fun i c => ?_⟩
    · unfold flRowMemory
      rw [List.foldlM_cons, j1 i]
      simp only [Option.bind_eq_bind, Option.bind_some]
      have j2 := j2 i
      have j3 := j3 i
      rw [j2, Option.bind_some, j3]
      exact l1 i
    · rw [l3 i c]
      show (if _ then (0 : ℝ) else tm' i c) = _
      rw [e3 i c]
      by_cases h1 : ∃ e ∈ row, e.1 = c.val
      · obtain ⟨e', he', hee⟩ := h1
        rw [if_pos ⟨e', he', hee⟩, if_pos ⟨e', List.mem_cons_of_mem _ he', hee⟩]
      · rw [if_neg h1]
        by_cases h2 : e.1 = c.val
        · rw [if_pos h2, if_pos ⟨e, List.mem_cons_self, h2⟩]
        · rw [if_neg h2, if_neg]
          rintro ⟨e', he', hee⟩
          rcases List.mem_cons.mp he' with rfl | he'
          · exact h2 hee
          · exact h1 ⟨e', he', hee⟩

/-- The mean of the stored gradients. -/
noncomputable def memMean (P : VRArgs ℝ n p) (mem : Fin n → ℝ) (c : Fin p) : ℝ := (∑ j, mem j * P.A.ent j c) / (n : ℝ)

theorem memMean_update (P : VRArgs ℝ n p) (mem : Fin n → ℝ) (k : Fin n) (g : ℝ) (c : Fin p) :
    memMean P (Function.update mem k g) c = memMean P mem c + (g - mem k) * P.A.ent k c / (n : ℝ) := by
  classical
  unfold memMean
  rw [← add_div]
  congr 1
  rw [← Finset.add_sum_erase _ _ (Finset.mem_univ k), ← Finset.add_sum_erase Finset.univ (fun j => mem j * P.A.ent j c) (Finset.mem_univ k), Function.update_self]
  rw [Finset.sum_congr rfl fun j hj => by rw [Function.update_of_ne (Finset.ne_of_mem_erase hj)]]
  ring

section Steps
variable {P : VRArgs ℝ n p} {pen : Fin P.blocks.nb → (Fin p → ℝ) → ℝ} {f : ℝ → ℝ → ℝ} {M R D K step : ℝ} {fd : ι → ℝ → ℝ → ℝ} {fp : ι → SparseProx ℝ p}

/-- The rounded state `s'` compared with the exact state `s`: coarse precision `W`, and fine precision `w` for the drift of the average. -/
structure SagaRel (P : VRArgs ℝ n p) (w W : ι → ℝ) (e0 : ι → Fin p → ℝ) (s' s : ι → SagaState ℝ n p) : Prop where
  x : ApprV W (fun i => (s' i).x) (fun i => (s i).x)
  mem : ApprV W (fun i => (s' i).mem) (fun i => (s i).mem)
  avg : ApprV W (fun i => (s' i).avg) (fun i => (s i).avg)
  tmp' : ∀ i, (s' i).tmp = fun _ => 0
  tmp : ∀ i, (s i).tmp = fun _ => 0
  drift : ∀ c, Appr w (fun i => (s' i).avg c - memMean P (s' i).mem c - e0 i c) (fun _ => 0)

/-- One inner iteration of SAGA. -/
theorem sagaStep_fam (hf : FlFam fl w) (hF : FlFam fl W) (hq : PenProblem P pen f M R D) (hP : P.Good) (hstep : 0 ≤ step) (hK : 0 ≤ K)
    (hO : ∀ i, FlVROracles P step (fl i) (fd i) (fp i) K (W i)) {S : Support n P.blocks.nb} (hok : SupportOk P.A hP.blocks S) {order : ι → ℕ → List ℕ} {tol : ι → ℝ} {maxIter : ι → ℕ}
    (k : Fin n) {e0 : ι → Fin p → ℝ} (s s' t : ι → SagaState ℝ n p) (hR : SagaRel P w W e0 s' s) (ht : ∀ i, sagaStep P S step (s i) k = some (t i)) :
    ∃ t' : ι → SagaState ℝ n p, (∀ i, flSagaStep (fl i) (P.flWith (fd i) (fp i) (order i) (tol i) (maxIter i)) S step (s' i) k = some (t' i)) ∧ SagaRel P w W e0 t' t := by
  obtain ⟨hs, hr, -⟩ := hok.row k
  have htz : ∀ i, (t i).tmp = fun _ => 0 := fun i => by
    obtain ⟨hs', -, h2⟩ := sagaStep_spec P hP hok step (s i) (hR.tmp i) k
    rw [ht i] at h2
    obtain ⟨u, -, h3⟩ := Option.bind_eq_some_iff.mp h2.symm
    rw [← Option.some.inj h3]
  unfold sagaStep at ht
  rw [CsrMat.row_eq hP.csr, hr, rd_fin P.b] at ht
  simp only [Option.bind_eq_bind, Option.bind_some] at ht
  obtain ⟨a, h1, ht⟩ := bind_fam ht
  obtain ⟨mi, h2, ht⟩ := bind_fam ht
  obtain ⟨tm, h3, ht⟩ := bind_fam ht
  obtain ⟨y, h4, ht⟩ := bind_fam ht
  obtain ⟨z, h5, ht⟩ := bind_fam ht
  obtain ⟨av, h6, ht⟩ := bind_fam ht
  obtain ⟨me, h7, ht⟩ := bind_fam ht
  obtain ⟨a', j1, e1⟩ := flRowDot_fam hF hR.x h1
  obtain ⟨mi', j2, e2⟩ := rd_fam (fun hj => hR.mem ⟨k, hj⟩) h2
  have hmi' : ∀ i, mi' i = (s' i).mem k := fun i => by
    have := j2 i
    rw [rd_fin] at this
    exact (Option.some.inj this).symm
  have eg := deriv_fam hF hq hK hO k e1
  have e3 := (eg.sub e2).round hF
  obtain ⟨tm', j3, e4, e4'⟩ := flRowScatter_fam hF e3 (P.A.rowList k) Set.univ _ (fun i => (s' i).tmp) tm
    (fun c _ => (Appr.const hF.nonneg 0).wcongr (fun i => by rw [hR.tmp' i]) fun i => by rw [hR.tmp i]) h3
  obtain ⟨y', z', j4, j5, e5⟩ := coef_fam hF hq hP hstep hK hO hok k hr hR.avg hR.x (fun c _ => e4 c (.inl (Set.mem_univ _))) h4 h5
  obtain ⟨av', j6, e6, e6'⟩ := flRowMemory_fam hF n e3 (P.A.rowList k) (fun i => ((s i).avg, tm i)) (fun i => ((s' i).avg, tm' i)) av hR.avg h6
  obtain ⟨me', j7, e7⟩ := wr_famV hR.mem eg h7
  -- the fine comparison
  obtain ⟨Bg, -, hBg⟩ := eg.bound hF.le
  obtain ⟨Bm, -, hBm⟩ := e2.bound hF.le
  have hg1 := ((Appr.refl_of_le hf.nonneg hBg).sub (Appr.refl_of_le hf.nonneg hBm)).round hf
  choose sh hsh hsh1 hsh2 using fun i => rowMemory_spec hP.csr k n (fd i (a' i) (P.b k) - mi' i) ((s' i).avg, tm' i)
  obtain ⟨av'', j6', e8, -⟩ := flRowMemory_fam hf n hg1 (P.A.rowList k) (fun i => ((s' i).avg, tm' i)) (fun i => ((s' i).avg, tm' i)) sh
    (fun c => by
      obtain ⟨B, -, hB⟩ := (hR.avg c).bound hF.le
      exact Appr.refl_of_le hf.nonneg hB) hsh
  have hav : ∀ i, av'' i = av' i := fun i => Option.some.inj ((j6' i).symm.trans (j6 i))
  have hme : ∀ i, me' i = Function.update (s' i).mem k (fd i (a' i) (P.b k)) := fun i => by
    have := j7 i
    rw [wr_lt _ k.isLt] at this
    exact (Option.some.inj this).symm
  refine ⟨fun i => { x := z' i, mem := me' i, avg := (av' i).1, tmp := (av' i).2 }, fun i => ?_, ?_, ?_, ?_, ?_, htz, fun c => ?_⟩
  · have l1 := j1 i
    have l2 := j2 i
    have l3 := j3 i
    have l4 := j4 i
    have l5 := j5 i
    have l6 := j6 i
    have l7 := j7 i
    unfold flSagaStep
    rw [CsrMat.row_eq hP.csr, hr, rd_fin P.b]
    simp only [Option.bind_eq_bind, Option.bind_some, l1, l2, l3, l4, l5, l6, l7]
    rfl
  · exact fun c => (e5 c).wcongr (fun _ => rfl) fun i => by
      show (t i).x c = z i c
      rw [← Option.some.inj (ht i)]
  · exact fun c => (e7 c).wcongr (fun _ => rfl) fun i => by
      show (t i).mem c = me i c
      rw [← Option.some.inj (ht i)]
  · exact fun c => (e6 c).wcongr (fun _ => rfl) fun i => by
      show (t i).avg c = (av i).1 c
      rw [← Option.some.inj (ht i)]
  · intro i
    funext c
    show (av' i).2 c = 0
    rw [e6' i c]
    split
    · rfl
    · rename_i hno
      have := (e4' c (fun e he hee => hno ⟨e, he, hee⟩) i).1
      rw [hR.tmp' i] at this
      exact this
  · obtain ⟨C1, hC1, d1⟩ := e8 c
    obtain ⟨C2, hC2, d2⟩ := hR.drift c
    refine ⟨C1 + C2, by positivity, fun i => ⟨?_, by simp only [abs_zero]; positivity⟩⟩
    have k1 := (d1 i).1
    have k2 := (d2 i).1
    have k1 : |(av'' i).1 c - (sh i).1 c| ≤ C1 * w i := k1
    rw [hav i, hsh1 i c] at k1
    simp only [sub_zero] at k2 ⊢
    rw [hme i, memMean_update, ← hmi' i]
    have e : (av' i).1 c - (memMean P (s' i).mem c + (fd i (a' i) (P.b k) - mi' i) * P.A.ent k c / (n : ℝ)) - e0 i c =
        ((av' i).1 c - ((s' i).avg c + (fd i (a' i) (P.b k) - mi' i) * P.A.ent k c / (n : ℝ))) + ((s' i).avg c - memMean P (s' i).mem c - e0 i c) := by ring
    rw [e]
    refine (abs_add_le _ _).trans ?_
    linarith

/-- A pass of SAGA. -/
theorem sagaEpoch_fam (hf : FlFam fl w) (hF : FlFam fl W) (hq : PenProblem P pen f M R D) (hP : P.Good) (hstep : 0 ≤ step) (hK : 0 ≤ K)
    (hO : ∀ i, FlVROracles P step (fl i) (fd i) (fp i) K (W i)) {S : Support n P.blocks.nb} (hok : SupportOk P.A hP.blocks S) {order : ι → ℕ → List ℕ} {tol : ι → ℝ} {maxIter : ι → ℕ}
    {idx : List ℕ} (hidx : ∀ k ∈ idx, k < n) {e0 : ι → Fin p → ℝ} (s s' t : ι → SagaState ℝ n p) (hR : SagaRel P w W e0 s' s) (ht : ∀ i, sagaEpoch P S step (s i) idx = some (t i)) :
    ∃ t' : ι → SagaState ℝ n p, (∀ i, flSagaEpoch (fl i) (P.flWith (fd i) (fp i) (order i) (tol i) (maxIter i)) S step (s' i) idx = some (t' i)) ∧ SagaRel P w W e0 t' t :=
  foldlM_fam (fun s' s : ι → SagaState ℝ n p => SagaRel P w W e0 s' s)
    (fun i => flSagaStep (fl i) (P.flWith (fd i) (fp i) (order i) (tol i) (maxIter i)) S step) (fun i => sagaStep P S step) idx
    (fun k hk s' s t h h' => sagaStep_fam hf hF hq hP hstep hK hO hok ⟨k, hidx k hk⟩ s s' t h h') s' s t hR ht

end Steps

section Passes
variable {P : VRArgs ℝ n p} {pen : Fin P.blocks.nb → (Fin p → ℝ) → ℝ} {f : ℝ → ℝ → ℝ} {M R D step : ℝ}

theorem FlVROracles.mono {fl : ℝ → ℝ} {fd : ℝ → ℝ → ℝ} {fp : SparseProx ℝ p} {K w W : ℝ} (h : FlVROracles P step fl fd fp K w) (hK : 0 ≤ K) (hw : w ≤ W) : FlVROracles P step fl fd fp K W where
  deriv i t := (h.deriv i t).trans (mul_le_mul_of_nonneg_right (mul_le_mul_of_nonneg_left hw hK) (by positivity))
  prox m d hs v z h1 h2 h3 := by
    obtain ⟨z', k1, k2⟩ := h.prox m d hs v z h1 h2 h3
    exact ⟨z', k1, fun c => (k2 c).trans (mul_le_mul_of_nonneg_right (mul_le_mul_of_nonneg_left hw hK) (add_nonneg zero_le_one (Real.sqrt_nonneg _)))⟩

/-- The state with the average replaced by the mean of the stored gradients. -/
noncomputable def sagaFix (P : VRArgs ℝ n p) (st : SagaState ℝ n p) : SagaState ℝ n p := { st with avg := memMean P st.mem }

/-- The rounded pass of SAGA stays near the exact one. -/
theorem saga_pass_near (hq : PenProblem P pen f M R D) (hP : P.Good) (hstep : 0 ≤ step) {K : ℝ} (hK : 0 ≤ K)
    {S : Support n P.blocks.nb} (hok : SupportOk P.A hP.blocks S) (B : ℝ) : ∃ C, 0 ≤ C ∧ ∀ idx : List ℕ, idx.Perm (List.range n) →
    ∀ (r : FlPass (SagaState ℝ n p) n p) (W : ℝ), FlPrec r.fl r.w → r.w ≤ W → W ≤ 1 → FlVROracles P step r.fl r.fd r.fp K r.w → (∀ c, |r.st.x c| ≤ B) → (∀ j, |r.st.mem j| ≤ B) →
      (∀ c, |r.st.avg c - memMean P r.st.mem c| ≤ W) → r.st.tmp = (fun _ => 0) → ∀ t, sagaEpoch P S step (sagaFix P r.st) idx = some t →
      ∃ t', flSagaEpoch r.fl (P.flWith r.fd r.fp r.order r.tol r.maxIter) S step r.st idx = some t' ∧ (∀ c, |t'.x c - t.x c| ≤ C * W) ∧ (∀ j, |t'.mem j - t.mem j| ≤ C * W) ∧
        t'.tmp = (fun _ => 0) ∧ ∀ c, |(t'.avg c - memMean P t'.mem c) - (r.st.avg c - memMean P r.st.mem c)| ≤ C * r.w := by
  obtain ⟨C, hC, h⟩ := exists_max_const (Q := fun (idx : List ℕ) C => idx.Perm (List.range n) →
    ∀ (r : FlPass (SagaState ℝ n p) n p) (W : ℝ), FlPrec r.fl r.w → r.w ≤ W → W ≤ 1 → FlVROracles P step r.fl r.fd r.fp K r.w → (∀ c, |r.st.x c| ≤ B) → (∀ j, |r.st.mem j| ≤ B) →
      (∀ c, |r.st.avg c - memMean P r.st.mem c| ≤ W) → r.st.tmp = (fun _ => 0) → ∀ t, sagaEpoch P S step (sagaFix P r.st) idx = some t →
      ∃ t', flSagaEpoch r.fl (P.flWith r.fd r.fp r.order r.tol r.maxIter) S step r.st idx = some t' ∧ (∀ c, |t'.x c - t.x c| ≤ C * W) ∧ (∀ j, |t'.mem j - t.mem j| ≤ C * W) ∧
        t'.tmp = (fun _ => 0) ∧ ∀ c, |(t'.avg c - memMean P t'.mem c) - (r.st.avg c - memMean P r.st.mem c)| ≤ C * r.w)
    (fun idx C C' hCC h hi r W h1 h2 h3 h4 h5 h6 h7 h8 t h9 => by
      obtain ⟨t', k1, k2, k3, k4, k5⟩ := h hi r W h1 h2 h3 h4 h5 h6 h7 h8 t h9
      have hW : 0 ≤ W := h1.nonneg.trans h2
      exact ⟨t', k1, fun c => (k2 c).trans (mul_le_mul_of_nonneg_right hCC hW), fun j => (k3 j).trans (mul_le_mul_of_nonneg_right hCC hW), k4,
        fun c => (k5 c).trans (mul_le_mul_of_nonneg_right hCC h1.nonneg)⟩) (List.range n).permutations (by
    intro idx hidx
    have hperm := List.mem_permutations.mp hidx
    let ι := { r : FlPass (SagaState ℝ n p) n p × ℝ × SagaState ℝ n p // FlPrec r.1.fl r.1.w ∧ r.1.w ≤ r.2.1 ∧ r.2.1 ≤ 1 ∧ FlVROracles P step r.1.fl r.1.fd r.1.fp K r.1.w ∧
      (∀ c, |r.1.st.x c| ≤ B) ∧ (∀ j, |r.1.st.mem j| ≤ B) ∧ (∀ c, |r.1.st.avg c - memMean P r.1.st.mem c| ≤ r.2.1) ∧ r.1.st.tmp = (fun _ => 0) ∧
      sagaEpoch P S step (sagaFix P r.1.st) idx = some r.2.2 }
    have hf : FlFam (fun i : ι => i.1.1.fl) (fun i => i.1.1.w) := ⟨fun i => i.2.1.nonneg, fun i => i.2.1.le, fun i => i.2.1.round⟩
    have hF : FlFam (fun i : ι => i.1.1.fl) (fun i => i.1.2.1) := ⟨fun i => i.2.1.nonneg.trans i.2.2.1, fun i => i.2.2.2.1, fun i x => by
      have h1 := i.2.1.round x
      have h2 := i.2.2.1
      have h3 := mul_le_mul_of_nonneg_right h2 (abs_nonneg x)
      linarith⟩
    have hBm : ∀ (mem : Fin n → ℝ) (c : Fin p), (∀ j, |mem j| ≤ B) → |memMean P mem c| ≤ (∑ j, B * |P.A.ent j c|) / n := fun mem c hm => by
      unfold memMean
      rw [abs_div, Nat.abs_cast]
      refine div_le_div_of_nonneg_right ((Finset.abs_sum_le_sum_abs _ _).trans (Finset.sum_le_sum fun j _ => ?_)) (Nat.cast_nonneg n)
      rw [abs_mul]
      exact mul_le_mul_of_nonneg_right (hm j) (abs_nonneg _)
    obtain ⟨t', h1, h2⟩ := sagaEpoch_fam (order := fun i : ι => i.1.1.order) (tol := fun i => i.1.1.tol) (maxIter := fun i => i.1.1.maxIter) hf hF hq hP hstep hK
      (fun i => i.2.2.2.2.1.mono hK i.2.2.1) hok (idx := idx) (fun k hk => List.mem_range.mp (hperm.subset hk))
      (e0 := fun i c => i.1.1.st.avg c - memMean P i.1.1.st.mem c) (fun i => sagaFix P i.1.1.st) (fun i => i.1.1.st) (fun i => i.1.2.2)
      { x := fun c => Appr.refl_of_le hF.nonneg (C := B) fun i => i.2.2.2.2.2.1 c
        mem := fun j => Appr.refl_of_le hF.nonneg (C := B) fun i => i.2.2.2.2.2.2.1 j
        avg := fun c => ⟨1 + |(∑ j, B * |P.A.ent j c|) / n|, by positivity, fun i => ⟨by
          have h1 := i.2.2.2.2.2.2.2.1 c
          have h2 : 0 ≤ |(∑ j, B * |P.A.ent j c|) / (n : ℝ)| * i.1.2.1 := mul_nonneg (abs_nonneg _) (hF.nonneg i)
          refine h1.trans ?_
          simp only
          linarith, by
          have h1 := (hBm i.1.1.st.mem c i.2.2.2.2.2.2.1).trans (le_abs_self _)
          refine h1.trans ?_
          linarith⟩⟩
        tmp' := fun i => i.2.2.2.2.2.2.2.2.1
        tmp := fun i => i.2.2.2.2.2.2.2.2.1
        drift := fun c => ⟨0, le_rfl, fun i => by simp⟩ } (fun i => i.2.2.2.2.2.2.2.2.2)
    choose C1 hC1 hx using h2.x
    choose C2 hC2 hm using h2.mem
    choose C3 hC3 hd using h2.drift
    refine ⟨∑ c, C1 c + ∑ j, C2 j + ∑ c, C3 c, add_nonneg (add_nonneg (Finset.sum_nonneg fun c _ => hC1 c) (Finset.sum_nonneg fun c _ => hC2 c)) (Finset.sum_nonneg fun c _ => hC3 c),
      fun _ r W k1 k2 k3 k4 k5 k6 k7 k8 t k9 => ?_⟩
    have p1 : 0 ≤ ∑ c, C1 c := Finset.sum_nonneg fun c _ => hC1 c
    have p2 : 0 ≤ ∑ c, C2 c := Finset.sum_nonneg fun c _ => hC2 c
    have p3 : 0 ≤ ∑ c, C3 c := Finset.sum_nonneg fun c _ => hC3 c
    have hW : 0 ≤ W := k1.nonneg.trans k2
    let i : ι := ⟨(r, W, t), k1, k2, k3, k4, k5, k6, k7, k8, k9⟩
    refine ⟨t' i, h1 i, fun c => (hx c i).1.trans (mul_le_mul_of_nonneg_right ?_ hW), fun j => (hm j i).1.trans (mul_le_mul_of_nonneg_right ?_ hW), h2.tmp' i, fun c => ?_⟩
    · have := Finset.single_le_sum (f := C1) (fun c _ => hC1 c) (Finset.mem_univ c)
      linarith
    · have := Finset.single_le_sum (f := C2) (fun c _ => hC2 c) (Finset.mem_univ j)
      linarith
    · have e1 := (hd c i).1
      rw [sub_zero] at e1
      refine e1.trans (mul_le_mul_of_nonneg_right ?_ k1.nonneg)
      have := Finset.single_le_sum (f := C3) (fun c _ => hC3 c) (Finset.mem_univ c)
      linarith)
  exact ⟨C, hC, fun idx hidx => h idx (List.mem_permutations.mpr hidx) hidx⟩

/-- A pass of SAGA with exact arithmetic from a state whose memory is off by `m` more than the movements. -/
theorem saga_exact_pass (hp : 0 < p) (hP : P.Good) (hq : PenProblem P pen f M R D) {S : Support n P.blocks.nb} (hok : SupportOk P.A hP.blocks S)
    (hstep : 0 < step) (hs1 : 10 * n * (M * R + P.alpha) * (step * D) ≤ 1) {xs : Fin p → ℝ} {mu : ℝ} (hmu : 0 < mu) (hmuL : mu ≤ M * R + P.alpha)
    (hgrow : ∀ y, vrObj P pen f xs + mu / 2 * sqDist y xs ≤ vrObj P pen f y) (st : SagaState ℝ n p) (hcl : SagaClean P st) {Wp Qp m : ℝ} (hWp : 0 ≤ Wp) (hQp : 0 ≤ Qp)
    (hWQ : Wp ^ 2 ≤ n * Qp) (hm : 0 ≤ m) (hstale : ∀ j, |st.mem j - P.gi st.x j| * ‖rowV P j‖ ≤ M * R * Wp + m) {idx : List ℕ} (hidx : idx.Perm (List.range n)) :
    ∃ st', sagaEpoch P S step st idx = some st' ∧ ∃ W Q : ℝ, 0 ≤ W ∧ 0 ≤ Q ∧ W ^ 2 ≤ n * Q ∧ (∀ j, |st'.mem j - P.gi st'.x j| * ‖rowV P j‖ ≤ M * R * W) ∧
      (1 + mu * step / (40 * D)) * (vrObj P pen f st'.x - vrObj P pen f xs + 1 / (step * D) / 4 * Q) ≤
        vrObj P pen f st.x - vrObj P pen f xs + 1 / (step * D) / 4 * (√Qp + m / ((M * R + P.alpha) * √n)) ^ 2 ∧
      ∑ c, |st'.x c - st.x c| ≤ √(p * n * Q) := by
  have hD1 := hq.D_one hP hp
  have hn1 : (1 : ℝ) ≤ n := by exact_mod_cast hq.samples
  have hL0 : 0 < M * R + P.alpha := hmu.trans_le hmuL
  obtain ⟨L, hL⟩ : ∃ L, L = M * R + P.alpha := ⟨_, rfl⟩
  set Fs := vrObj P pen f xs with hFsdef
  have hFs : ∀ y, Fs ≤ vrObj P pen f y := fun y => by
    have := hgrow y
    have h0 : 0 ≤ sqDist y xs := Finset.sum_nonneg fun c _ => sq_nonneg _
    have := mul_nonneg (by linarith : 0 ≤ mu / 2) h0
    linarith
  have hmg : mu * step ≤ 8 * D := by
    have h1 : mu * step ≤ (M * R + P.alpha) * step := mul_le_mul_of_nonneg_right hmuL hstep.le
    have hLs : 0 ≤ (M * R + P.alpha) * step := mul_nonneg (hmu.le.trans hmuL) hstep.le
    have hnD : 1 ≤ n * D := by nlinarith
    have h2 : 10 * ((M * R + P.alpha) * step) * 1 ≤ 10 * ((M * R + P.alpha) * step) * (n * D) := mul_le_mul_of_nonneg_left hnD (by positivity)
    have h3 : 10 * ((M * R + P.alpha) * step) * (n * D) = 10 * n * (M * R + P.alpha) * (step * D) := by ring
    linarith
  obtain ⟨st', x, u, T, hrun, hcl', hx0, hxn, hB, hall, herr, hmem⟩ := saga_blockPass hq hP hok hstep st hcl hWp hstale hm hidx
  rw [← hL] at hB herr hL0 hs1 ⊢
  obtain ⟨Qq, hQq⟩ : ∃ Qq, Qq = (√Qp + m / (L * √n)) ^ 2 := ⟨_, rfl⟩
  have hQq0 : 0 ≤ Qq := by rw [hQq]; positivity
  have hsn : 0 < √(n : ℝ) := Real.sqrt_pos.mpr (by linarith)
  have hWQ2 : (Wp + m / L) ^ 2 ≤ n * Qq := by
    have h1 : Wp ≤ √n * √Qp := by
      rw [← Real.sqrt_mul (by linarith)]
      exact Real.le_sqrt_of_sq_le hWQ
    have h2 : Wp + m / L ≤ √n * (√Qp + m / (L * √n)) := by
      have e : √n * (√Qp + m / (L * √n)) = √n * √Qp + m / L := by field_simp
      rw [e]; linarith
    calc (Wp + m / L) ^ 2 ≤ (√n * (√Qp + m / (L * √n))) ^ 2 := pow_le_pow_left₀ (by positivity) h2 2
      _ = n * Qq := by rw [mul_pow, Real.sq_sqrt (by linarith), hQq]
  have herr2 : ∀ k < n, ‖euc (passErr hP.blocks.of (vrG P) x u T k)‖ ≤ 2 * L * (Wp + m / L + ∑ j ∈ Finset.range k, move x j) := fun k hk => by
    have e : 2 * L * (Wp + m / L + ∑ j ∈ Finset.range k, move x j) = 2 * L * (Wp + ∑ j ∈ Finset.range k, move x j) + 2 * m := by field_simp; ring
    rw [e]
    exact herr k hk
  have hdesc := hB.pass_descent hq.samples hL0.le hD1 hs1 (m := 0) hWQ2 (fun k hk => by have := herr2 k hk; simpa using this)
  obtain ⟨G, hG0, hG, hgap⟩ := hB.pass_gap hq.samples hL0.le hD1 hs1 hall hWQ2 herr2
  rw [hx0, hxn] at hdesc
  rw [hxn] at hgap
  have hQ := passSq_nonneg x n
  have hd : vrObj P pen f st'.x + 1 / (step * D) / 2 * passSq x n ≤ vrObj P pen f st.x + 1 / (step * D) / 8 * Qq := by
    unfold vrObj
    simp only [ne_eq, OfNat.ofNat_ne_zero, not_false_eq_true, zero_pow, mul_zero, add_zero] at hdesc
    linarith
  have hgx : vrObj P pen f st'.x ≤ Fs + G * ‖euc st'.x - euc xs‖ := hgap xs
  have hlin := saga_pass_linear hstep hD1 hmu hmg hQ hQq0 hd hG hgx
    (by
      have := hgrow st'.x
      have e : ‖euc st'.x - euc xs‖ ^ 2 = sqDist st'.x xs := norm_euc_sq fun c => st'.x c - xs c
      rw [e]; linarith) (hFs st'.x)
  rw [← hQq]
  exact ⟨st', hrun, _, passSq x n, Finset.sum_nonneg fun _ _ => norm_nonneg _, hQ, moves_sq x n, hmem, hlin, change_le x hx0 hxn le_rfl⟩

/-- Every stored value is the derivative at some point. -/
theorem sagaEpoch_mem (hP : P.Good) {S : Support n P.blocks.nb} (hok : SupportOk P.A hP.blocks S) : ∀ (idx : List ℕ) (st st' : SagaState ℝ n p), (∀ k ∈ idx, k < n) → st.tmp = (fun _ => 0) →
    sagaEpoch P S step st idx = some st' → ∀ j : Fin n, (j.val ∈ idx ∨ ∃ y, st.mem j = P.gi y j) → ∃ y, st'.mem j = P.gi y j
  | [], st, st', _, _, h, j, hj => by
    rcases hj with hj | hj
    · simp at hj
    · rw [← Option.some.inj h]; exact hj
  | k :: idx, st, st', hidx, ht, h, j, hj => by
    unfold sagaEpoch at h
    rw [List.foldlM_cons] at h
    obtain ⟨s1, h1, h2⟩ := Option.bind_eq_some_iff.mp h
    obtain ⟨hs, -, h3⟩ := sagaStep_spec P hP hok step st ht ⟨k, hidx k List.mem_cons_self⟩
    rw [h1] at h3
    obtain ⟨u, -, h4⟩ := Option.bind_eq_some_iff.mp h3.symm
    have h4 := Option.some.inj h4
    refine sagaEpoch_mem hP hok idx s1 st' (fun i hi => hidx i (List.mem_cons_of_mem _ hi)) (by rw [← h4]) h2 j ?_
    by_cases hjk : j = ⟨k, hidx k List.mem_cons_self⟩
    · refine .inr ⟨st.x, ?_⟩
      rw [← h4, ← hjk]
      exact Function.update_self ..
    · rcases hj with hj | ⟨y, hy⟩
      · rcases List.mem_cons.mp hj with hj | hj
        · exact absurd (Fin.ext hj) hjk
        · exact .inl hj
      · refine .inr ⟨y, ?_⟩
        rw [← h4, ← hy]
        exact Function.update_of_ne hjk _ _

/-- The memory after a pass is bounded by the movements of the pass. -/
theorem mem_bound (hq : PenProblem P pen f M R D) {B Wb : ℝ} (hWb : 0 ≤ Wb) : ∃ Bm, 0 ≤ Bm ∧ ∀ st : SagaState ℝ n p, (∀ c, |st.x c| ≤ B) → (∀ j, ∃ y, st.mem j = P.gi y j) →
    (∀ j, |st.mem j - P.gi st.x j| * ‖rowV P j‖ ≤ M * R * Wb) → ∀ j, |st.mem j| ≤ Bm := by
  have hMR : 0 ≤ M * R := mul_nonneg hq.nonneg hq.R_nonneg
  by_cases hB : 0 ≤ B
  · have hpos : ∀ j : Fin n, 0 ≤ |P.deriv 0 (P.b j)| + M * ∑ c : Fin p, |P.A.ent j c| * B + M * R * Wb / ‖rowV P j‖ := fun j =>
      add_nonneg (add_nonneg (abs_nonneg _) (mul_nonneg hq.nonneg (Finset.sum_nonneg fun c _ => mul_nonneg (abs_nonneg _) hB))) (div_nonneg (mul_nonneg hMR hWb) (norm_nonneg _))
    refine ⟨∑ j, (|P.deriv 0 (P.b j)| + M * ∑ c : Fin p, |P.A.ent j c| * B + M * R * Wb / ‖rowV P j‖), Finset.sum_nonneg fun j _ => hpos j, fun st hx hy hst j => ?_⟩
    refine le_trans ?_ (Finset.single_le_sum (f := fun j => |P.deriv 0 (P.b j)| + M * ∑ c : Fin p, |P.A.ent j c| * B + M * R * Wb / ‖rowV P j‖) (fun j _ => hpos j) (Finset.mem_univ j))
    have h1 : ∀ y : Fin p → ℝ, |P.gi y j| ≤ |P.deriv 0 (P.b j)| + M * |∑ c : Fin p, P.A.ent j c * y c| := fun y => by
      have h2 := hq.lip (∑ c : Fin p, P.A.ent j c * y c) 0 (P.b j)
      rw [sub_zero] at h2
      calc |P.gi y j| = |(P.gi y j - P.deriv 0 (P.b j)) + P.deriv 0 (P.b j)| := by ring_nf
        _ ≤ |P.gi y j - P.deriv 0 (P.b j)| + |P.deriv 0 (P.b j)| := abs_add_le _ _
        _ ≤ _ := by
          have : |P.gi y j - P.deriv 0 (P.b j)| ≤ M * |∑ c : Fin p, P.A.ent j c * y c| := h2
          linarith
    by_cases hr : ‖rowV P j‖ = 0
    · obtain ⟨y, hy⟩ := hy j
      have hz : ∀ c : Fin p, P.A.ent j c = 0 := fun c => by
        have := congrFun (congrArg WithLp.ofLp (norm_eq_zero.mp hr)) c
        exact this
      have := h1 y
      rw [hy]
      simp only [hz, zero_mul, Finset.sum_const_zero, abs_zero, mul_zero, add_zero, hr, div_zero] at this ⊢
      exact this
    · have hr0 : 0 < ‖rowV P j‖ := lt_of_le_of_ne (norm_nonneg _) (Ne.symm hr)
      have h2 := hst j
      rw [← le_div_iff₀ hr0] at h2
      have h3 := h1 st.x
      have h4 : |∑ c : Fin p, P.A.ent j c * st.x c| ≤ ∑ c : Fin p, |P.A.ent j c| * B := by
        refine (Finset.abs_sum_le_sum_abs _ _).trans (Finset.sum_le_sum fun c _ => ?_)
        rw [abs_mul]
        exact mul_le_mul_of_nonneg_left (hx c) (abs_nonneg _)
      have h5 := mul_le_mul_of_nonneg_left h4 hq.nonneg
      calc |st.mem j| = |(st.mem j - P.gi st.x j) + P.gi st.x j| := by ring_nf
        _ ≤ |st.mem j - P.gi st.x j| + |P.gi st.x j| := abs_add_le _ _
        _ ≤ _ := by linarith
  · by_cases hp : 0 < p
    · exact ⟨0, le_rfl, fun st hx => absurd ((abs_nonneg _).trans (hx ⟨0, hp⟩)) hB⟩
    · refine ⟨∑ j, |P.deriv 0 (P.b j)|, Finset.sum_nonneg fun j _ => abs_nonneg _, fun st _ hy _ j => ?_⟩
      obtain ⟨y, hy⟩ := hy j
      have h0 : p = 0 := by omega
      subst h0
      rw [hy]
      have : P.gi y j = P.deriv 0 (P.b j) := by simp [VRArgs.gi]
      rw [this]
      exact Finset.single_le_sum (f := fun j => |P.deriv 0 (P.b j)|) (fun j _ => abs_nonneg _) (Finset.mem_univ j)

/-- A pass of SAGA with rounded arithmetic, given the exact pass from the corrected state: with `Cd` for the drift and `E` for everything else. -/
theorem saga_pass_fl (hP : P.Good) (hq : PenProblem P pen f M R D) {S : Support n P.blocks.nb} (hok : SupportOk P.A hP.blocks S)
    (hstep : 0 < step) (hD : 0 < D) {xs : Fin p → ℝ} {mu : ℝ} (hmu : 0 < mu)
    (hgrow : ∀ y, vrObj P pen f xs + mu / 2 * sqDist y xs ≤ vrObj P pen f y) {K : ℝ} (hK : 0 ≤ K) {V : ℝ} (hV : 0 ≤ V) :
    ∃ Cd E Bm : ℝ, 0 ≤ Cd ∧ Cd ≤ E ∧ 0 ≤ Bm ∧ ∀ (fl : ℝ → ℝ) (u eta w : ℝ) (fd : ℝ → ℝ → ℝ) (fp : SparseProx ℝ p) (order : ℕ → List ℕ) (tol : ℝ) (maxIter : ℕ) (st t : SagaState ℝ n p) (idx : List ℕ)
      (k : ℕ) (W Q Z : ℝ), Scale fl u eta w 1 → E * (k + 1) * w ≤ 1 → FlVROracles P step fl fd fp K w → vrObj P pen f st.x - vrObj P pen f xs ≤ V → (∀ j, |st.mem j| ≤ Bm) →
      st.tmp = (fun _ => 0) → (∀ c, |st.avg c - memMean P st.mem c| ≤ Cd * k * w) → idx.Perm (List.range n) → sagaEpoch P S step (sagaFix P st) idx = some t → 0 ≤ W → 0 ≤ Q → W ^ 2 ≤ n * Q →
      (∀ j, |t.mem j - P.gi t.x j| * ‖rowV P j‖ ≤ M * R * W) → vrObj P pen f t.x - vrObj P pen f xs + 1 / (step * D) / 4 * Q ≤ V → ∑ c, |t.x c - st.x c| ≤ Z →
      ∃ t', flSagaEpoch fl (P.flWith fd fp order tol maxIter) S step st idx = some t' ∧ t'.tmp = (fun _ => 0) ∧ (∀ c, |t'.avg c - memMean P t'.mem c| ≤ Cd * (k + 1) * w) ∧ (∀ j, |t'.mem j| ≤ Bm) ∧
        (∀ j, |t'.mem j - P.gi t'.x j| * ‖rowV P j‖ ≤ M * R * W + E * (k + 1) * w) ∧ vrObj P pen f t'.x ≤ vrObj P pen f t.x + E * (k + 1) * w ∧
        ∑ c, |t'.x c - st.x c| ≤ Z + E * (k + 1) * w ∧
        ∀ s, FlSum fl (List.ofFn fun c => |fl (t'.x c - st.x c)|) s → abs (s - ∑ c, |t'.x c - st.x c|) ≤ E * (k + 1) * w := by
  have hp0 : (0 : ℝ) ≤ p := Nat.cast_nonneg p
  have hMR : 0 ≤ M * R := mul_nonneg hq.nonneg hq.R_nonneg
  obtain ⟨B1, hB1, hbox⟩ := grow_box (F := vrObj P pen f) (V := V) hmu hgrow
  obtain ⟨Bm0, hBm0, hmb⟩ := mem_bound (B := B1) hq (Real.sqrt_nonneg (n * (4 * (step * D) * V)))
  obtain ⟨B, hBd⟩ : ∃ B, B = B1 + Bm0 + 1 := ⟨_, rfl⟩
  obtain ⟨L, hL, hlip⟩ := convex_box_lip hq.obj_convex B
  obtain ⟨C, hC, hnear⟩ := saga_pass_near hq hP hstep.le hK hok B
  obtain ⟨C3, hC3⟩ : ∃ C3, C3 = p * (2 * B + 1) + 2 * p * (p * (4 * B + 1) + 1) := ⟨_, rfl⟩
  have hB0 : 0 ≤ B := by rw [hBd]; linarith
  have hC30 : 0 ≤ C3 := by rw [hC3]; positivity
  have hpC : 0 ≤ p * C := by positivity
  obtain ⟨Cg, hCg⟩ : ∃ Cg, Cg = C * √R + M * R * (p * C) := ⟨_, rfl⟩
  have hCg0 : 0 ≤ Cg := by rw [hCg]; exact add_nonneg (mul_nonneg hC (Real.sqrt_nonneg _)) (mul_nonneg hMR hpC)
  obtain ⟨E, hE⟩ : ∃ E, E = C + 1 + C * (C + 1) + Cg * (C + 1) + L * (p * C) * (C + 1) + p * C * (C + 1) + 2 * p + C3 := ⟨_, rfl⟩
  have n1 : 0 ≤ C * (C + 1) := by positivity
  have n2 : 0 ≤ Cg * (C + 1) := by positivity
  have n3 : 0 ≤ L * (p * C) * (C + 1) := by positivity
  have n4 : 0 ≤ p * C * (C + 1) := by positivity
  have hEge : C + 1 ≤ E ∧ C * (C + 1) ≤ E ∧ Cg * (C + 1) ≤ E ∧ L * (p * C) * (C + 1) ≤ E ∧ p * C * (C + 1) ≤ E ∧ 2 * p ≤ E ∧ C3 ≤ E := by
    rw [hE]; exact ⟨by linarith, by linarith, by linarith, by linarith, by linarith, by linarith, by linarith⟩
  refine ⟨C, E, Bm0 + 1, hC, by linarith [hEge.1], by linarith, ?_⟩
  intro fl u eta w fd fp order tol maxIter st t idx k W Q Z hs hw1 hO hVs hmem htmp hdr hidx hrun hW hQ hWQ hstale hVt hch
  have hw := hs.w_nonneg
  have hk0 : (0 : ℝ) ≤ k := Nat.cast_nonneg k
  obtain ⟨T, hT⟩ : ∃ T, T = (k + 1) * w := ⟨_, rfl⟩
  have hT0 : 0 ≤ T := by rw [hT]; positivity
  have hwT : w ≤ T := by rw [hT]; nlinarith
  have hm : ∀ {a : ℝ}, a ≤ E → a * T ≤ E * T := fun h => mul_le_mul_of_nonneg_right h hT0
  have hET : E * T ≤ 1 := by rw [hT, ← mul_assoc]; exact hw1
  have hw1' : w ≤ (C + 1) * T := by
    have := mul_nonneg hC hT0
    linarith
  have hQV : 1 / (step * D) / 4 * Q ≤ V := by
    have h1 := hgrow t.x
    have h0 : 0 ≤ sqDist t.x xs := Finset.sum_nonneg fun c _ => sq_nonneg _
    have := mul_nonneg (by linarith : 0 ≤ mu / 2) h0
    linarith
  have hVt' : vrObj P pen f t.x - vrObj P pen f xs ≤ V := by
    have : 0 ≤ 1 / (step * D) / 4 * Q := by positivity
    linarith
  have hQ4 : Q ≤ 4 * (step * D) * V := by
    have h2 : Q = 4 * (step * D) * (1 / (step * D) / 4 * Q) := by field_simp
    rw [h2]
    exact mul_le_mul_of_nonneg_left hQV (by positivity)
  have hWb : W ≤ √(n * (4 * (step * D) * V)) := Real.le_sqrt_of_sq_le (hWQ.trans (mul_le_mul_of_nonneg_left hQ4 (Nat.cast_nonneg n)))
  have hbs := hbox _ hVs
  have hbt := hbox _ hVt'
  obtain ⟨t', k1, k2, k3, k4, k5⟩ := hnear idx hidx ⟨fl, w, fd, fp, order, tol, maxIter, st⟩ ((C + 1) * T) (flPrec_of_scale hs) hw1' ((hm hEge.1).trans hET) hO
    (fun c => (hbs c).trans (by linarith)) (fun j => (hmem j).trans (by linarith)) (fun c => (hdr c).trans (by
      have h1 : C * k * w ≤ C * T := by rw [hT, mul_assoc]; exact mul_le_mul_of_nonneg_left (by nlinarith) hC
      linarith)) htmp t hrun
  have hCT : C * ((C + 1) * T) ≤ 1 := by
    have := (hm hEge.2.1).trans hET
    linarith
  have hbt' : ∀ c, |t'.x c| ≤ B := fun c => by
    calc |t'.x c| = |(t'.x c - t.x c) + t.x c| := by ring_nf
      _ ≤ |t'.x c - t.x c| + |t.x c| := abs_add_le _ _
      _ ≤ _ := by linarith [k2 c, hbt c]
  have hgi : ∀ j, ∃ y, t.mem j = P.gi y j := fun j => sagaEpoch_mem hP hok idx (sagaFix P st) t (fun k hk => List.mem_range.mp (hidx.subset hk)) htmp hrun j
    (.inl (hidx.symm.subset (List.mem_range.mpr j.isLt)))
  have hmt := hmb t hbt hgi (fun j => (hstale j).trans (mul_le_mul_of_nonneg_left hWb hMR))
  have hsd : ∑ c, |t'.x c - t.x c| ≤ p * C * (C + 1) * T := by
    refine (Finset.sum_le_sum fun c _ => k2 c).trans ?_
    rw [Finset.sum_const, Finset.card_univ, Fintype.card_fin, nsmul_eq_mul]
    linarith
  refine ⟨t', k1, k4, fun c => ?_, fun j => ?_, fun j => ?_, ?_, ?_, fun s hsum => ?_⟩
  · have h1 := k5 c
    have h2 := hdr c
    calc |t'.avg c - memMean P t'.mem c| = |((t'.avg c - memMean P t'.mem c) - (st.avg c - memMean P st.mem c)) + (st.avg c - memMean P st.mem c)| := by ring_nf
      _ ≤ |(t'.avg c - memMean P t'.mem c) - (st.avg c - memMean P st.mem c)| + |st.avg c - memMean P st.mem c| := abs_add_le _ _
      _ ≤ C * w + C * k * w := add_le_add h1 h2
      _ = _ := by ring
  · calc |t'.mem j| = |(t'.mem j - t.mem j) + t.mem j| := by ring_nf
      _ ≤ |t'.mem j - t.mem j| + |t.mem j| := abs_add_le _ _
      _ ≤ _ := by linarith [k3 j, hmt j]
  · have hrow : ‖rowV P j‖ ≤ √R := Real.le_sqrt_of_sq_le (hq.row_le j)
    have h1 : |t'.mem j - t.mem j| * ‖rowV P j‖ ≤ C * ((C + 1) * T) * √R := mul_le_mul (k3 j) hrow (norm_nonneg _) (by positivity)
    have h2 : |P.gi t.x j - P.gi t'.x j| * ‖rowV P j‖ ≤ M * R * (p * C * (C + 1) * T) := by
      refine (hq.gi_lip j _ _).trans (mul_le_mul_of_nonneg_left ?_ hMR)
      have e : ‖euc t.x - euc t'.x‖ = √(sqDist t.x t'.x) := by
        rw [← Real.sqrt_sq (norm_nonneg (euc t.x - euc t'.x))]
        exact congrArg _ (norm_euc_sq fun c => t.x c - t'.x c)
      rw [e]
      refine (sqrt_sqDist_le).trans ?_
      simp only [abs_sub_comm (t.x _)]
      exact hsd
    have h3 : |t'.mem j - P.gi t'.x j| ≤ |t'.mem j - t.mem j| + |t.mem j - P.gi t.x j| + |P.gi t.x j - P.gi t'.x j| := by
      have e : t'.mem j - P.gi t'.x j = ((t'.mem j - t.mem j) + (t.mem j - P.gi t.x j)) + (P.gi t.x j - P.gi t'.x j) := by ring
      rw [e]
      exact (abs_add_le _ _).trans (add_le_add (abs_add_le _ _) le_rfl)
    have h4 := mul_le_mul_of_nonneg_right h3 (norm_nonneg (rowV P j))
    have h5 := hm hEge.2.2.1
    have h6 := hstale j
    rw [hCg] at h5
    rw [mul_assoc E, ← hT]
    linarith
  · have h1 := (abs_le.mp (hlip t'.x t.x hbt' fun c => (hbt c).trans (by linarith))).2
    have h2 := mul_le_mul_of_nonneg_left hsd hL
    have h3 := hm hEge.2.2.2.1
    rw [mul_assoc E, ← hT]
    linarith
  · have h1 : ∑ c, |t'.x c - st.x c| ≤ ∑ c, |t'.x c - t.x c| + ∑ c, |t.x c - st.x c| := by
      rw [← Finset.sum_add_distrib]
      exact Finset.sum_le_sum fun c _ => abs_sub_le _ _ _
    have h3 := hm hEge.2.2.2.2.1
    rw [mul_assoc E, ← hT]
    linarith
  · have h1 := flChange_near hs (B := B) (by
      have := (hm hEge.2.2.2.2.2.1).trans hET
      have := mul_le_mul_of_nonneg_left hwT (by positivity : (0 : ℝ) ≤ 2 * p)
      linarith) hbt' (fun c => (hbs c).trans (by linarith)) hB0 hsum
    rw [← hC3] at h1
    have h2 := hm hEge.2.2.2.2.2.2
    have h3 := mul_le_mul_of_nonneg_left hwT hC30
    rw [mul_assoc E, ← hT]
    linarith

open Classical in
/-- The loop over passes with rounded arithmetic. -/
theorem flSagaLoop_inv {fl : ℝ → ℝ} {sum : ℕ → (Fin p → ℝ) → ℝ} {P : VRArgs ℝ n p} {S : Support n P.blocks.nb} {N : ℕ} (I : ℕ → SagaState ℝ n p → Prop)
    (J : ℕ → SagaState ℝ n p → SagaState ℝ n p → Prop)
    (hI : ∀ k ≤ N, ∀ st, I k st → ∃ st', flSagaEpoch fl P S step st (P.order k) = some st' ∧ I (k + 1) st' ∧ J k st st') :
    ∀ (rem it : ℕ) (st : SagaState ℝ n p), it + rem = N → I it st → ∃ r, flSagaLoop fl sum P S step rem it st = some r ∧ it ≤ r.nit ∧ r.nit ≤ N ∧ r.x = r.final.x ∧ I (r.nit + 1) r.final ∧
      ∃ prev, I r.nit prev ∧ J r.nit prev r.final ∧ (r.success = true → sum r.nit (fun c => |fl (r.final.x c - prev.x c)|) < P.tol) ∧
        (r.success = false → r.nit = N ∧ P.tol ≤ sum r.nit (fun c => |fl (r.final.x c - prev.x c)|)) := by
  intro rem
  induction rem with
  | zero =>
    intro it st hN hst
    obtain ⟨st', hst', hI', hJ⟩ := hI it (by omega) st hst
    by_cases ht : sum it (fun c => |fl (st'.x c - st.x c)|) < P.tol
    · exact ⟨⟨st'.x, true, it, st'⟩, by rw [flSagaLoop]; simp [hst', ht], le_rfl, by show it ≤ _; omega, rfl, hI', st, hst, hJ, fun _ => ht, by simp⟩
    · exact ⟨⟨st'.x, false, it, st'⟩, by rw [flSagaLoop]; simp [hst', ht], le_rfl, by show it ≤ _; omega, rfl, hI', st, hst, hJ, by simp, fun _ => ⟨by show it = _; omega, not_lt.mp ht⟩⟩
  | succ rem ih =>
    intro it st hN hst
    obtain ⟨st', hst', hI', hJ⟩ := hI it (by omega) st hst
    by_cases ht : sum it (fun c => |fl (st'.x c - st.x c)|) < P.tol
    · exact ⟨⟨st'.x, true, it, st'⟩, by rw [flSagaLoop]; simp [hst', ht], le_rfl, by show it ≤ _; omega, rfl, hI', st, hst, hJ, fun _ => ht, by simp⟩
    · obtain ⟨r, hr, h1, h2, h3, h4, prev, h5, h6, h7, h8⟩ := ih (it + 1) st' (by omega) hI'
      exact ⟨r, by rw [flSagaLoop]; simp [hst', ht, hr], by omega, h2, h3, h4, prev, h5, h6, h7, h8⟩

end Passes

end Copt
