import Verif.Proof.GroupBlocks

/-! # The in-place operator of `GroupL1.prox_factory` -/

set_option linter.unusedSectionVars false

namespace Copt

open Spec

variable {n m : ℕ}

theorem sumSqLoop_spec (x : Fin n → ℝ) : ∀ (js : List ℕ) (acc : ℝ), js.Nodup → (∀ j ∈ js, j < n) →
    sumSqLoop x js acc = some (acc + ∑ i ∈ featSet js, x i ^ 2)
  | [], acc, _, _ => by simp [sumSqLoop, featSet]
  | j :: js, acc, hnd, hb => by
    have hj := hb j List.mem_cons_self
    have hnd' := List.nodup_cons.mp hnd
    simp only [sumSqLoop, rd_lt x hj, Option.bind_eq_bind, Option.bind_some]
    rw [sumSqLoop_spec x js _ hnd'.2 (fun i hi => hb i (List.mem_cons_of_mem _ hi)),
      featSet_cons j hj, Finset.sum_insert (by simp [mem_featSet, hnd'.1]), add_assoc]

theorem mapLoop_spec (f : ℝ → ℝ) : ∀ (js : List ℕ) (x : Fin n → ℝ), js.Nodup → (∀ j ∈ js, j < n) →
    mapLoop f js x = some (fun i => if i.val ∈ js then f (x i) else x i)
  | [], x, _, _ => by simp [mapLoop]
  | j :: js, x, hnd, hb => by
    have hj := hb j List.mem_cons_self
    have hnd' := List.nodup_cons.mp hnd
    simp only [mapLoop, rd_lt x hj, wr_lt x hj, Option.bind_eq_bind, Option.bind_some]
    rw [mapLoop_spec f js _ hnd'.2 (fun i hi => hb i (List.mem_cons_of_mem _ hi))]
    congr 1
    funext i
    by_cases hi : i.val = j
    · have hi' : i = ⟨j, hj⟩ := Fin.ext hi
      subst hi'; simp [hnd'.1]
    · have hi' : i ≠ ⟨j, hj⟩ := fun h => hi (congrArg Fin.val h)
      simp [hi, hi']

theorem BlockState.mem_blk {st : BlockState n} {h j : ℕ} (hm : getD0 st.indptr h ≤ getD0 st.indptr (h + 1)) :
    j ∈ st.blk h ↔ getD0 st.indptr h ≤ j ∧ j < getD0 st.indptr (h + 1) := by
  unfold BlockState.blk
  rw [List.mem_range'_1]; omega

theorem BInv.blk_disjoint {G : List (List ℕ)} {B : BlockState n} (hI : BInv G G B) {h h' : ℕ}
    (hh : h < B.bp) (hh' : h' < B.bp) (hne : h ≠ h') : ∀ i ∈ B.blk h, i ∉ B.blk h' := by
  intro i hi hi'
  rw [BlockState.mem_blk (hI.hmono h hh).le] at hi
  rw [BlockState.mem_blk (hI.hmono h' hh').le] at hi'
  rcases Nat.lt_or_ge h h' with h1 | h1
  · have := ptr_le_of_mono _ B.bp hI.hmono h' (by omega) (h + 1) (by omega); omega
  · have := ptr_le_of_mono _ B.bp hI.hmono h (by omega) (h' + 1) (by omega); omega

theorem BInv.blk_lt {G : List (List ℕ)} {B : BlockState n} (hI : BInv G G B) {h : ℕ}
    (hh : h < B.bp) : ∀ i ∈ B.blk h, i < n := by
  intro i hi
  rw [BlockState.mem_blk (hI.hmono h hh).le] at hi
  have := hI.ptr_le (h := h + 1) (by omega)
  have := hI.hfp
  omega

theorem softVal_congr (w : ℝ) (x x' : Fin n → ℝ) (g : List ℕ)
    (h : ∀ i : Fin n, i.val ∈ g → x' i = x i) (i : Fin n) (hi : i.val ∈ g) :
    softVal w x' g i = softVal w x g i := by
  have : blockNorm (featSet g) x' = blockNorm (featSet g) x := by
    unfold blockNorm
    rw [Finset.sum_congr rfl fun j hj => by rw [h j (mem_featSet.mp hj)]]
  unfold softVal
  rw [this, h i hi]

/-- Whether block `h` is penalised. -/
def BlockState.pen (B : BlockState n) (h : ℕ) : Prop := 0 < getD0 B.data (getD0 B.indptr h)

theorem GroupL1.kernel_spec {G : List (List ℕ)} {B : BlockState n} (hI : BInv G G B)
    (alpha : ℝ) (d : Fin m → ℝ) (step : ℝ) :
    ∀ (row : List ℕ) (x : Fin n → ℝ), row.Nodup → (∀ h ∈ row, h < B.bp ∧ h < m) →
      ∃ x', GroupL1.kernel alpha B d step row x = some x' ∧
        (∀ h ∈ row, B.pen h → ∀ i : Fin n, i.val ∈ B.blk h →
          x' i = softVal (alpha * (step * getD0 d h)) x (B.blk h) i) ∧
        (∀ i : Fin n, (∀ h ∈ row, B.pen h → i.val ∉ B.blk h) → x' i = x i)
  | [], x, _, _ => ⟨x, rfl, by simp, by simp⟩
  | h :: row, x, hnd, hb => by
    obtain ⟨hbp, hm⟩ := hb h List.mem_cons_self
    have hnd' := List.nodup_cons.mp hnd
    have hbn : B.bp ≤ n := hI.hbp.trans hI.hfp
    have hr1 := rd_eq_getD0 B.indptr (i := h) (by omega)
    have hr2 := rd_eq_getD0 B.indptr (i := h + 1) (by omega)
    have hmono := hI.hmono h hbp
    have hptr := hI.ptr_le (h := h + 1) (by omega)
    have hr3 := rd_eq_getD0 B.data (i := getD0 B.indptr h) (by have := hI.hfp; omega)
    have hr4 := rd_eq_getD0 d (i := h) hm
    by_cases hpen : B.pen h
    · have hblt := hI.blk_lt hbp
      have hndb : (B.blk h).Nodup := List.nodup_range'
      -- the block is soft-thresholded
      have hstep : ∃ x1, GroupL1.kernel alpha B d step (h :: row) x = GroupL1.kernel alpha B d step row x1 ∧
          (∀ i : Fin n, i.val ∈ B.blk h → x1 i = softVal (alpha * (step * getD0 d h)) x (B.blk h) i) ∧
          (∀ i : Fin n, i.val ∉ B.blk h → x1 i = x i) := by
        have hflag : ¬ (getD0 B.data (getD0 B.indptr h) ≤ 0) := not_le.mpr hpen
        have hnorm : Real.sqrt (0 + ∑ i ∈ featSet (B.blk h), x i ^ 2) = blockNorm (featSet (B.blk h)) x := by
          rw [zero_add]; rfl
        have hunf : GroupL1.kernel alpha B d step (h :: row) x =
            ((if blockNorm (featSet (B.blk h)) x > alpha * (step * getD0 d h) then
                mapLoop (fun v => v * (1 - alpha * (step * getD0 d h) / blockNorm (featSet (B.blk h)) x)) (B.blk h) x
              else mapLoop (fun _ => 0) (B.blk h) x).bind fun x => GroupL1.kernel alpha B d step row x) := by
          have hs := sumSqLoop_spec x (B.blk h) 0 hndb hblt
          unfold BlockState.blk at hs hnorm ⊢
          simp only [GroupL1.kernel, hr1, hr2, hr3, hr4, if_neg hflag, Option.bind_eq_bind, Option.bind_some,
            if_neg (show ¬ B.bp < h by omega), if_neg (show ¬ B.bp < h + 1 by omega), hs, hnorm]
          split_ifs <;> rfl
        rw [hunf]
        by_cases hgt : blockNorm (featSet (B.blk h)) x > alpha * (step * getD0 d h)
        · rw [if_pos hgt, mapLoop_spec _ _ _ hndb hblt]
          refine ⟨_, rfl, ?_, ?_⟩
          · intro i hi; simp only [hi, if_true, softVal, if_pos hgt]
          · intro i hi; simp [hi]
        · rw [if_neg hgt, mapLoop_spec _ _ _ hndb hblt]
          refine ⟨_, rfl, ?_, ?_⟩
          · intro i hi; simp only [hi, if_true, softVal, if_neg hgt]
          · intro i hi; simp [hi]
      obtain ⟨x1, e1, s1, s2⟩ := hstep
      obtain ⟨x', e2, t1, t2⟩ := GroupL1.kernel_spec hI alpha d step row x1 hnd'.2
        (fun k hk => hb k (List.mem_cons_of_mem _ hk))
      have hdisj : ∀ k ∈ row, ∀ i ∈ B.blk h, i ∉ B.blk k := fun k hk =>
        hI.blk_disjoint hbp (hb k (List.mem_cons_of_mem _ hk)).1 (fun he => hnd'.1 (he ▸ hk))
      refine ⟨x', by rw [e1]; exact e2, ?_, ?_⟩
      · intro k hk hkp i hi
        rcases List.mem_cons.mp hk with rfl | hk
        · rw [t2 i (fun k' hk' _ => hdisj k' hk' _ hi)]
          exact s1 i hi
        · rw [t1 k hk hkp i hi]
          exact softVal_congr _ _ _ _ (fun j hj => s2 j (fun hjb => hdisj k hk _ hjb hj)) i hi
      · intro i hi
        rw [t2 i (fun k hk hkp => hi k (List.mem_cons_of_mem _ hk) hkp)]
        exact s2 i (hi h List.mem_cons_self hpen)
    · have hflag : getD0 B.data (getD0 B.indptr h) ≤ 0 := not_lt.mp hpen
      obtain ⟨x', e2, t1, t2⟩ := GroupL1.kernel_spec hI alpha d step row x hnd'.2
        (fun k hk => hb k (List.mem_cons_of_mem _ hk))
      refine ⟨x', ?_, ?_, ?_⟩
      · simp only [GroupL1.kernel, hr1, hr3, if_pos hflag, Option.bind_eq_bind, Option.bind_some,
          if_neg (show ¬ B.bp < h by omega)]
        exact e2
      · intro k hk hkp i hi
        rcases List.mem_cons.mp hk with rfl | hk
        · exact absurd hkp hpen
        · exact t1 k hk hkp i hi
      · intro i hi
        exact t2 i (fun k hk hkp => hi k (List.mem_cons_of_mem _ hk) hkp)

end Copt
