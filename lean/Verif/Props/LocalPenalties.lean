import Verif.Props.SagaPenalties

/-!
# C58 for the penalties of the library

`C58_local` and `C58_never_touched` ask that the in-place proximal routine writes only in the listed blocks. Here that is proved of the three routines
`prox_factory` returns, for every list of block numbers (repeated or out of range ones included) and every step size: whenever the routine returns, it has
changed no feature outside the listed blocks.
-/

set_option linter.unusedSectionVars false

namespace Copt
open Spec

theorem wr_other {q : ℕ} {α : Type} {a a' : Fin q → α} {i : ℕ} {v : α} (h : wr a i v = some a') (c : Fin q) (hc : c.val ≠ i) : a' c = a c := by
  unfold wr at h
  split at h
  · obtain rfl := Option.some.inj h
    exact Function.update_of_ne (fun e => hc (by rw [e])) _ _
  · simp at h

section L1
variable {K : Type} [Field K] [LinearOrder K] [IsStrictOrderedRing K] {p : ℕ}

theorem noProx_localProx (B : BlockMat) : LocalProx (K := K) (p := p) B noProx := fun _ _ _ _ _ _ h _ _ => by
  obtain rfl := Option.some.inj h; rfl

theorem L1Norm.kernel_other {m : ℕ} (alpha : K) (d : Fin m → K) (step : K) : ∀ (row : List ℕ) (x u : Fin p → K),
    L1Norm.kernel alpha d step row x = some u → ∀ c : Fin p, c.val ∉ row → u c = x c
  | [], x, u, h, c, _ => by obtain rfl := Option.some.inj h; rfl
  | j :: row, x, u, h, c, hc => by
    simp only [L1Norm.kernel, bind, Option.bind_eq_some_iff] at h
    obtain ⟨xj, -, dj, -, x', hw, h⟩ := h
    simp only [List.mem_cons, not_or] at hc
    rw [L1Norm.kernel_other alpha d step row x' u h c hc.2, wr_other hw c hc.1]

/-- **C58 (l1).** The in-place routine of `L1Norm.prox_factory` writes only the listed features. -/
theorem C58_l1_local (alpha : K) : LocalProx (p := p) (BlockMat.eye p) (L1Norm.sparse alpha) := by
  intro m d step hs v u hu c hc
  exact L1Norm.kernel_other alpha d step hs v u hu c fun hm => hc c ⟨le_refl _, Nat.lt_succ_self _⟩ hm

theorem FusedLasso.kernel_other {m : ℕ} (alpha : K) {B : PairBlocks p} (hI : PairInv B) (d : Fin m → K) (step : K) : ∀ (row : List ℕ) (x u : Fin p → K),
    FusedLasso.kernel alpha B d step row x = some u → ∀ c : Fin p, (∀ h : Fin B.mat.nb, InBlock B.mat.ptr h c → h.val ∉ row) → u c = x c
  | [], x, u, h, c, _ => by obtain rfl := Option.some.inj h; rfl
  | h :: row, x, u, hk, c, hc => by
    simp only [FusedLasso.kernel, bind, Option.bind_eq_some_iff] at hk
    obtain ⟨j, hj, flag, hflag, hk⟩ := hk
    have hrow : ∀ h' : Fin B.mat.nb, InBlock B.mat.ptr h' c → h'.val ∉ row := fun h' hin hm => hc h' hin (List.mem_cons_of_mem _ hm)
    split at hk
    · exact FusedLasso.kernel_other alpha hI d step row x u hk c hrow
    · rename_i hpos
      simp only [Option.bind_eq_some_iff] at hk
      obtain ⟨dh, -, a, -, b, -, hk⟩ := hk
      have hlen : h < B.nBlocks + 1 := by
        rw [← hI.len]; exact (List.getElem?_eq_some_iff.mp hj).1
      have hst : B.start h = j := by unfold PairBlocks.start; rw [hj]; rfl
      have hjp : j < p := by
        by_contra hge
        unfold rd at hflag
        rw [dif_neg hge] at hflag
        simp at hflag
      have hlt : h < B.nBlocks := by
        rcases Nat.lt_or_ge h B.nBlocks with h1 | h1
        · exact h1
        · have : h = B.nBlocks := by omega
          rw [this, hI.last] at hst
          omega
      have hact : B.active h = true := by
        unfold PairBlocks.active
        rw [rd_eq_getD0 _ hjp] at hflag
        rw [hst, Option.some.inj hflag]
        simpa using hpos
      have hsz := (hI.size h hlt).resolve_right (by simp [hact])
      have hout : c.val ≠ j ∧ c.val ≠ j + 1 := by
        have hnin := hc ⟨h, hlt⟩
        constructor
        · intro e
          exact hnin ⟨by show B.start h ≤ c.val; omega, by show c.val < B.start (h + 1); omega⟩ (by simp)
        · intro e
          exact hnin ⟨by show B.start h ≤ c.val; omega, by show c.val < B.start (h + 1); omega⟩ (by simp)
      have key : ∀ v w : K, ((wr x j v).bind fun y => (wr y (j + 1) w).bind fun z => FusedLasso.kernel alpha B d step row z) = some u → u c = x c := by
        intro v w hk
        simp only [Option.bind_eq_some_iff] at hk
        obtain ⟨y, hy, z, hz, hk⟩ := hk
        rw [FusedLasso.kernel_other alpha hI d step row z u hk c hrow, wr_other hz c hout.2, wr_other hy c hout.1]
      split at hk
      · exact key _ _ hk
      · split at hk
        · exact key _ _ hk
        · exact key _ _ hk

/-- **C58 (fused lasso).** Each of the two in-place routines of `FusedLasso` writes only in the listed pairs. -/
theorem C58_fused_local (alpha : K) (hp : 0 < p) (B : PairBlocks p) (hB : B = FusedLasso.blocks1 p ∨ B = FusedLasso.blocks2 p) :
    LocalProx B.mat (FusedLasso.sparse alpha B) := by
  have hI : PairInv B := by
    rcases hB with rfl | rfl
    · exact blocks1_inv p
    · exact blocks2_inv p hp
  intro m d step hs v u hu c hc
  exact FusedLasso.kernel_other alpha hI d step hs v u hu c hc

end L1

section Group
variable {p : ℕ}

theorem mapLoop_other (f : ℝ → ℝ) : ∀ (js : List ℕ) (x u : Fin p → ℝ), mapLoop f js x = some u → ∀ c : Fin p, c.val ∉ js → u c = x c
  | [], x, u, h, c, _ => by obtain rfl := Option.some.inj h; rfl
  | j :: js, x, u, h, c, hc => by
    simp only [mapLoop, bind, Option.bind_eq_some_iff] at h
    obtain ⟨v, -, x', hw, h⟩ := h
    simp only [List.mem_cons, not_or] at hc
    rw [mapLoop_other f js x' u h c hc.2, wr_other hw c hc.1]

theorem GroupL1.kernel_other {m : ℕ} (alpha : ℝ) (B : BlockState p) (d : Fin m → ℝ) (step : ℝ) : ∀ (row : List ℕ) (x u : Fin p → ℝ),
    GroupL1.kernel alpha B d step row x = some u → ∀ c : Fin p, (∀ h : Fin B.mat.nb, InBlock B.mat.ptr h c → h.val ∉ row) → u c = x c
  | [], x, u, h, c, _ => by simp only [GroupL1.kernel] at h; obtain rfl := Option.some.inj h; rfl
  | h :: row, x, u, hk, c, hc => by
    have hrow : ∀ h' : Fin B.mat.nb, InBlock B.mat.ptr h' c → h'.val ∉ row := fun h' hin hm => hc h' hin (List.mem_cons_of_mem _ hm)
    rw [GroupL1.kernel] at hk
    by_cases h0 : B.bp < h
    · simp [h0] at hk
    · simp only [h0, if_false, bind, Option.bind_eq_some_iff] at hk
      obtain ⟨start, hs, flag, hflag, hk⟩ := hk
      split at hk
      · exact GroupL1.kernel_other alpha B d step row x u hk c hrow
      · by_cases h1 : B.bp < h + 1
        · simp [h1] at hk
        · simp only [h1, if_false, Option.bind_eq_some_iff] at hk
          obtain ⟨stop, ht, dh, -, sq, -, hk⟩ := hk
          have hlt : h < B.mat.nb := by show h < B.bp; omega
          have hout : c.val ∉ List.range' start (stop - start) := by
            intro hm
            have hm := List.mem_range'_1.mp hm
            refine hc ⟨h, hlt⟩ ⟨?_, ?_⟩ (by simp)
            · show (rd B.indptr h).getD 0 ≤ c.val
              rw [hs]; exact hm.1
            · show c.val < (rd B.indptr (h + 1)).getD 0
              rw [ht]; simp only [Option.getD_some]; omega
          have key : ∀ f : ℝ → ℝ, ((mapLoop f (List.range' start (stop - start)) x).bind fun y => GroupL1.kernel alpha B d step row y) = some u → u c = x c := by
            intro f hk
            obtain ⟨y, hy, hk⟩ := Option.bind_eq_some_iff.mp hk
            rw [GroupL1.kernel_other alpha B d step row y u hk c hrow, mapLoop_other _ _ _ _ hy c hout]
          split at hk
          · exact key _ hk
          · exact key _ hk

/-- **C58 (group lasso).** The in-place routine of `GroupL1.prox_factory` writes only in the listed groups. -/
theorem C58_group_local (alpha : ℝ) (B : BlockState p) : LocalProx B.mat (GroupL1.sparse alpha B) := by
  intro m d step hs v u hu c hc
  exact GroupL1.kernel_other alpha B d step hs v u hu c hc

end Group

end Copt
