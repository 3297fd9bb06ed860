import Verif.Model.Randomized
import Verif.Proof.Utils

/-! # Lemmas about `_support_matrix` -/

set_option linter.unusedSectionVars false

namespace Copt

open Spec

/-- Entries in order of first occurrence. -/
def firstOcc (R : List ℕ) : List ℕ := R.foldl (fun acc g => if g ∈ acc then acc else acc ++ [g]) []

theorem firstOcc_snoc (R : List ℕ) (g : ℕ) : firstOcc (R ++ [g]) = if g ∈ firstOcc R then firstOcc R else firstOcc R ++ [g] := by
  unfold firstOcc; rw [List.foldl_append]; rfl

theorem mem_firstOcc (R : List ℕ) (g : ℕ) : g ∈ firstOcc R ↔ g ∈ R := by
  induction R using List.reverseRecOn with
  | nil => simp [firstOcc]
  | append_singleton R a ih =>
    rw [firstOcc_snoc]
    split
    · rename_i h
      rw [ih, List.mem_append, List.mem_singleton]
      constructor
      · exact Or.inl
      · rintro (h1 | rfl)
        · exact h1
        · exact ih.mp h
    · rw [List.mem_append, List.mem_append, ih]

theorem firstOcc_pairwise (R : List ℕ) : (firstOcc R).Pairwise fun g h => R.idxOf g < R.idxOf h := by
  induction R using List.reverseRecOn with
  | nil => simp [firstOcc]
  | append_singleton R a ih =>
    have hold : (firstOcc R).Pairwise fun g h => (R ++ [a]).idxOf g < (R ++ [a]).idxOf h := by
      refine ih.imp_of_mem fun {g h} hg hh hlt => ?_
      rw [List.idxOf_append_of_mem ((mem_firstOcc R g).mp hg), List.idxOf_append_of_mem ((mem_firstOcc R h).mp hh)]
      exact hlt
    rw [firstOcc_snoc]
    split
    · exact hold
    · rename_i hna
      rw [List.pairwise_append]
      refine ⟨hold, List.pairwise_singleton _ _, fun g hg h hh => ?_⟩
      rw [List.mem_singleton] at hh
      subst hh
      have hgR := (mem_firstOcc R g).mp hg
      have haR : h ∉ R := fun hc => hna ((mem_firstOcc R h).mpr hc)
      rw [List.idxOf_append_of_mem hgR, List.idxOf_append_of_notMem haR]
      have := List.idxOf_lt_length_iff.mpr hgR
      omega

theorem firstOcc_nodup (R : List ℕ) : (firstOcc R).Nodup :=
  (firstOcc_pairwise R).imp fun h hne => by subst hne; exact lt_irrefl _ h

variable {nnz m r nb d : ℕ}

/-- Block of the entry at position `j`. -/
def blkAt (indices : Fin nnz → ℕ) (rblocks : Fin r → ℕ) (j : ℕ) : ℕ := getD0 rblocks (getD0 indices j)

/-- The stored list between two positions. -/
def bsSlice (bs : Fin nnz → ℕ) (a b : ℕ) : List ℕ := (List.range' a (b - a)).map (getD0 bs)

theorem bsSlice_congr {bs bs' : Fin nnz → ℕ} {a b : ℕ} (h : ∀ k < b, getD0 bs' k = getD0 bs k) : bsSlice bs' a b = bsSlice bs a b := by
  refine List.map_congr_left fun k hk => h k ?_
  have := List.mem_range'_1.mp hk
  omega

theorem bsSlice_snoc {bs : Fin nnz → ℕ} {a b : ℕ} (hab : a ≤ b) : bsSlice bs a (b + 1) = bsSlice bs a b ++ [getD0 bs b] := by
  unfold bsSlice
  rw [show b + 1 - a = (b - a) + 1 by omega, List.range'_concat, List.map_append]
  simp only [List.map_cons, List.map_nil, one_mul]
  rw [show a + (b - a) = b by omega]

structure SupInv (c0 : ℕ) (R : List ℕ) (st : SupState nnz nb) : Prop where
  le : c0 ≤ st.counter
  list : bsSlice st.bs c0 st.counter = firstOcc R
  seen : ∀ g < nb, getD0 st.seen g = if g ∈ R then 1 else 0

theorem supEntry_spec {indices : Fin nnz → ℕ} {rblocks : Fin r → ℕ} (hc : ∀ j, indices j < r) (hb : ∀ k, rblocks k < nb) {c0 : ℕ}
    {R : List ℕ} {st : SupState nnz nb} (hI : SupInv c0 R st) {j : ℕ} (hj : j < nnz) (hroom : st.counter < nnz) :
    ∃ st', supEntry indices rblocks st j = some st' ∧ SupInv c0 (R ++ [blkAt indices rblocks j]) st' ∧
      (∀ k < st.counter, getD0 st'.bs k = getD0 st.bs k) ∧ st.counter ≤ st'.counter ∧ st'.counter ≤ st.counter + 1 := by
  have h1 : getD0 indices j < r := by rw [getD0_lt _ hj]; exact hc _
  set g := blkAt indices rblocks j with hg
  have h2 : g < nb := by rw [hg]; unfold blkAt; rw [getD0_lt _ h1]; exact hb _
  have hrg : rd rblocks (getD0 indices j) = some g := by rw [rd_eq_getD0 _ h1]; rfl
  have hsg := hI.seen g h2
  unfold supEntry
  simp only [rd_eq_getD0 _ hj, hrg, rd_eq_getD0 _ h2, hsg, Option.bind_eq_bind, Option.bind_some]
  by_cases hm : g ∈ R
  · rw [if_pos hm, if_neg one_ne_zero]
    refine ⟨st, rfl, ⟨hI.le, ?_, fun g' hg' => ?_⟩, fun _ _ => rfl, le_refl _, by omega⟩
    · rw [firstOcc_snoc, if_pos ((mem_firstOcc R g).mpr hm)]; exact hI.list
    · rw [hI.seen g' hg']
      have : g' ∈ R ++ [g] ↔ g' ∈ R := by
        rw [List.mem_append, List.mem_singleton]
        exact ⟨fun h => h.elim id (fun h => h ▸ hm), Or.inl⟩
      simp only [this]
  · rw [if_neg hm, if_pos rfl, wr_lt _ hroom, wr_lt _ h2]
    refine ⟨_, rfl, ⟨?_, ?_, fun g' hg' => ?_⟩, fun k hk => ?_, ?_, ?_⟩
    · show c0 ≤ st.counter + 1
      have := hI.le; omega
    · show bsSlice _ c0 (st.counter + 1) = _
      rw [bsSlice_snoc hI.le, getD0_update, if_pos rfl, firstOcc_snoc, if_neg (fun h => hm ((mem_firstOcc R g).mp h))]
      congr 1
      rw [← hI.list]
      exact bsSlice_congr fun k hk => by rw [getD0_update, if_neg (by omega)]
    · show getD0 (Function.update st.seen ⟨g, h2⟩ 1) g' = _
      rw [getD0_update, hI.seen g' hg']
      by_cases h : g' = g
      · subst h; simp
      · rw [if_neg h]; simp [h]
    · show getD0 (Function.update st.bs ⟨st.counter, hroom⟩ g) k = _
      rw [getD0_update, if_neg (by omega)]
    · show st.counter ≤ st.counter + 1
      omega
    · exact le_refl _

theorem supEntries_spec {indices : Fin nnz → ℕ} {rblocks : Fin r → ℕ} (hc : ∀ j, indices j < r) (hb : ∀ k, rblocks k < nb) {c0 : ℕ} :
    ∀ (L : List ℕ), (∀ j ∈ L, j < nnz) → ∀ {R : List ℕ} {st : SupState nnz nb}, SupInv c0 R st → st.counter + L.length ≤ nnz →
    ∃ st', L.foldlM (supEntry indices rblocks) st = some st' ∧ SupInv c0 (R ++ L.map (blkAt indices rblocks)) st' ∧
      (∀ k < st.counter, getD0 st'.bs k = getD0 st.bs k) ∧ st.counter ≤ st'.counter ∧ st'.counter ≤ st.counter + L.length := by
  intro L
  induction L with
  | nil => intro _ R st hI _; exact ⟨st, rfl, by simpa using hI, fun _ _ => rfl, le_refl _, by simp⟩
  | cons j L ih =>
    intro hL R st hI hroom
    rw [List.length_cons] at hroom
    obtain ⟨s1, he1, hI1, hk1, hc1, hc1'⟩ := supEntry_spec hc hb hI (hL j (by simp)) (by omega)
    obtain ⟨s2, he2, hI2, hk2, hc2, hc2'⟩ := ih (fun i hi => hL i (by simp [hi])) hI1 (by omega)
    refine ⟨s2, by rw [List.foldlM_cons, he1]; exact he2, by simpa using hI2, fun k hk => ?_, by omega, by rw [List.length_cons]; omega⟩
    rw [hk2 k (by omega), hk1 k hk]

theorem supClean_spec {bs : Fin nnz → ℕ} : ∀ (L : List ℕ), (∀ j ∈ L, j < nnz) → (∀ j ∈ L, getD0 bs j < nb) → ∀ seen : Fin nb → ℕ,
    ∃ seen', L.foldlM (supClean bs) seen = some seen' ∧
      ∀ g < nb, getD0 seen' g = if g ∈ L.map (getD0 bs) then 0 else getD0 seen g := by
  intro L
  induction L with
  | nil => intro _ _ seen; exact ⟨seen, rfl, by simp⟩
  | cons j L ih =>
    intro h1 h2 seen
    have hj := h1 j (by simp)
    have hg := h2 j (by simp)
    obtain ⟨s', he, hs⟩ := ih (fun i hi => h1 i (by simp [hi])) (fun i hi => h2 i (by simp [hi])) (Function.update seen ⟨getD0 bs j, hg⟩ 0)
    refine ⟨s', ?_, fun g hg' => ?_⟩
    · rw [List.foldlM_cons]
      have : supClean bs seen j = some (Function.update seen ⟨getD0 bs j, hg⟩ 0) := by
        unfold supClean
        rw [rd_eq_getD0 _ hj]
        simp only [Option.bind_eq_bind, Option.bind_some]
        rw [wr_lt _ hg]
      rw [this]; exact he
    · rw [hs g hg', getD0_update]
      by_cases hm : g ∈ L.map (getD0 bs)
      · rw [if_pos hm, if_pos (by simp only [List.map_cons, List.mem_cons]; exact Or.inr hm)]
      · rw [if_neg hm]
        by_cases hgj : g = getD0 bs j
        · rw [if_pos hgj, if_pos (by simp [hgj])]
        · rw [if_neg hgj, if_neg (by simp only [List.map_cons, List.mem_cons, not_or]; exact ⟨hgj, hm⟩)]

/-- Positions of the entries of row `i`. -/
def rowPos (indptr : Fin (m + 1) → ℕ) (i : ℕ) : List ℕ := List.range' (getD0 indptr i) (getD0 indptr (i + 1) - getD0 indptr i)

/-- The blocks of row `i`, with repetitions. -/
def rowBlocks (indices : Fin nnz → ℕ) (indptr : Fin (m + 1) → ℕ) (rblocks : Fin r → ℕ) (i : ℕ) : List ℕ :=
  (rowPos indptr i).map (blkAt indices rblocks)

structure SupRows (indices : Fin nnz → ℕ) (indptr : Fin (m + 1) → ℕ) (rblocks : Fin r → ℕ) (i : ℕ)
    (acc : SupState nnz nb × (Fin (m + 1) → ℕ)) : Prop where
  seen : ∀ g < nb, getD0 acc.1.seen g = 0
  counter : acc.1.counter = getD0 acc.2 i
  bound : acc.1.counter ≤ getD0 indptr i
  zero : getD0 acc.2 0 = 0
  mono : ∀ k < i, getD0 acc.2 k ≤ getD0 acc.2 (k + 1)
  rows : ∀ k < i, bsSlice acc.1.bs (getD0 acc.2 k) (getD0 acc.2 (k + 1)) = firstOcc (rowBlocks indices indptr rblocks k)

theorem supRow_spec {indices : Fin nnz → ℕ} {indptr : Fin (m + 1) → ℕ} {rblocks : Fin r → ℕ} (hG : GoodCsr r indptr indices)
    (hb : ∀ k, rblocks k < nb) {acc : SupState nnz nb × (Fin (m + 1) → ℕ)} {i : ℕ} (hi : i < m)
    (hI : SupRows indices indptr rblocks i acc) :
    ∃ acc', supRow indices indptr rblocks acc i = some acc' ∧ SupRows indices indptr rblocks (i + 1) acc' := by
  have hmono : getD0 indptr i ≤ getD0 indptr (i + 1) := by
    rw [getD0_lt _ (by omega : i < m + 1), getD0_lt _ (by omega : i + 1 < m + 1)]
    exact hG.mono ⟨i, hi⟩
  have hle : getD0 indptr (i + 1) ≤ nnz := by
    rw [getD0_lt _ (by omega : i + 1 < m + 1)]; exact hG.le_nnz _
  have hL : ∀ j ∈ rowPos indptr i, j < nnz := by
    intro j hj
    have := List.mem_range'_1.mp hj
    omega
  have hlen : (rowPos indptr i).length = getD0 indptr (i + 1) - getD0 indptr i := List.length_range' ..
  have hI0 : SupInv acc.1.counter [] acc.1 := ⟨le_refl _, by simp [bsSlice, firstOcc], fun g hg => by simp [hI.seen g hg]⟩
  obtain ⟨st, he, hS, hkeep, hc1, hc2⟩ := supEntries_spec hG.col_lt hb (rowPos indptr i) hL hI0
    (by rw [hlen]; have := hI.bound; omega)
  rw [List.nil_append] at hS
  rw [hlen] at hc2
  set ptr := Function.update acc.2 ⟨i + 1, by omega⟩ st.counter with hptr
  have hptr_i : getD0 ptr i = acc.1.counter := by rw [hptr, getD0_update, if_neg (by omega), ← hI.counter]
  have hptr_s : getD0 ptr (i + 1) = st.counter := by rw [hptr, getD0_update, if_pos rfl]
  have hptr_k : ∀ k ≤ i, getD0 ptr k = getD0 acc.2 k := fun k hk => by rw [hptr, getD0_update, if_neg (by omega)]
  have hslice : (List.range' acc.1.counter (st.counter - acc.1.counter)).map (getD0 st.bs) =
      firstOcc (rowBlocks indices indptr rblocks i) := hS.list
  have hmemb : ∀ g ∈ rowBlocks indices indptr rblocks i, g < nb := by
    intro g hg
    obtain ⟨j, hj, rfl⟩ := List.mem_map.mp hg
    unfold blkAt
    have h1 : getD0 indices j < r := by rw [getD0_lt _ (hL j hj)]; exact hG.col_lt _
    rw [getD0_lt _ h1]; exact hb _
  obtain ⟨seen, hse, hsn⟩ := supClean_spec (bs := st.bs) (nb := nb) (List.range' acc.1.counter (st.counter - acc.1.counter))
    (fun j hj => by have := List.mem_range'_1.mp hj; have := hI.bound; omega)
    (fun j hj => by
      have : getD0 st.bs j ∈ firstOcc (rowBlocks indices indptr rblocks i) := by rw [← hslice]; exact List.mem_map_of_mem hj
      exact hmemb _ ((mem_firstOcc _ _).mp this)) st.seen
  refine ⟨(⟨st.bs, seen, st.counter⟩, ptr), ?_, ?_⟩
  · unfold supRow
    rw [rd_eq_getD0 indptr (by omega : i < m + 1), rd_eq_getD0 indptr (by omega : i + 1 < m + 1)]
    simp only [Option.bind_eq_bind, Option.bind_some]
    rw [show (List.range' (getD0 indptr i) (getD0 indptr (i + 1) - getD0 indptr i)).foldlM (supEntry indices rblocks) acc.1 = some st from he]
    simp only [Option.bind_some]
    rw [wr_lt _ (by omega : i + 1 < m + 1)]
    simp only [Option.bind_some]
    rw [← hptr, rd_eq_getD0 ptr (by omega : i < m + 1), hptr_i]
    simp only [Option.bind_some]
    rw [hse]; rfl
  · refine ⟨fun g hg => ?_, hptr_s.symm, ?_, ?_, fun k hk => ?_, fun k hk => ?_⟩
    · show getD0 seen g = 0
      rw [hsn g hg, hslice, hS.seen g hg]
      simp only [mem_firstOcc]
      rw [show (rowPos indptr i).map (blkAt indices rblocks) = rowBlocks indices indptr rblocks i from rfl]
      split <;> rfl
    · show st.counter ≤ getD0 indptr (i + 1)
      have := hI.bound; omega
    · show getD0 ptr 0 = 0
      rw [hptr_k 0 (by omega), hI.zero]
    · show getD0 ptr k ≤ getD0 ptr (k + 1)
      rcases Nat.lt_or_ge k i with h | h
      · rw [hptr_k k (by omega), hptr_k (k + 1) (by omega)]; exact hI.mono k h
      · rw [show k = i by omega, hptr_i, hptr_s]; exact hc1
    · show bsSlice st.bs (getD0 ptr k) (getD0 ptr (k + 1)) = _
      rcases Nat.lt_or_ge k i with h | h
      · rw [hptr_k k (by omega), hptr_k (k + 1) (by omega), ← hI.rows k h]
        refine bsSlice_congr fun q hq => hkeep q ?_
        have hle' : ∀ t, k + 1 + t ≤ i → getD0 acc.2 (k + 1) ≤ getD0 acc.2 (k + 1 + t) := by
          intro t
          induction t with
          | zero => intro _; exact le_refl _
          | succ t ih => intro ht; exact (ih (by omega)).trans (hI.mono (k + 1 + t) (by omega))
        have := hle' (i - (k + 1)) (by omega)
        rw [show k + 1 + (i - (k + 1)) = i by omega, ← hI.counter] at this
        omega
      · rw [show k = i by omega, hptr_i, hptr_s]; exact hslice

theorem mapM_some_eq {α β : Type} {f : α → Option β} {g : α → β} : ∀ (L : List α), (∀ a ∈ L, f a = some (g a)) → L.mapM f = some (L.map g) := by
  intro L
  induction L with
  | nil => intro _; rfl
  | cons a L ih =>
    intro h
    rw [List.mapM_cons, h a (by simp), ih fun b hb => h b (by simp [hb])]
    rfl

/-- The support matrix: every row lists the blocks of the sample in order of first occurrence. -/
theorem supportMatrix_spec {indices : Fin nnz → ℕ} {indptr : Fin (m + 1) → ℕ} {rblocks : Fin r → ℕ} (hG : GoodCsr r indptr indices)
    (hb : ∀ k, rblocks k < nb) :
    ∃ S : Support m nb, supportMatrix indices indptr rblocks nb = some S ∧ (∀ g, S.seen g = 0) ∧
      (∀ i < m, S.row i = some (firstOcc (rowBlocks indices indptr rblocks i))) ∧
      S.bs = (List.range m).flatMap fun i => firstOcc (rowBlocks indices indptr rblocks i) := by
  have hmain : ∀ k ≤ m, ∃ acc : SupState nnz nb × (Fin (m + 1) → ℕ),
      (List.range k).foldlM (supRow indices indptr rblocks) (⟨fun _ => 0, fun _ => 0, 0⟩, fun _ => 0) = some acc ∧
      SupRows indices indptr rblocks k acc := by
    intro k
    induction k with
    | zero =>
      intro _
      have hz : ∀ {q : ℕ} (i : ℕ), getD0 (fun _ : Fin q => (0 : ℕ)) i = 0 := by
        intro q i; unfold getD0 rd; split <;> rfl
      exact ⟨_, rfl, ⟨fun g _ => hz g, (hz 0).symm, Nat.zero_le _, hz 0, fun k hk => absurd hk (by omega),
        fun k hk => absurd hk (by omega)⟩⟩
    | succ k ih =>
      intro hk
      obtain ⟨acc, he, hI⟩ := ih (by omega)
      obtain ⟨acc', he', hI'⟩ := supRow_spec hG hb (show k < m by omega) hI
      exact ⟨acc', by rw [List.range_succ, List.foldlM_append, he]; simpa using he', hI'⟩
  obtain ⟨acc, he, hI⟩ := hmain m (le_refl _)
  have hcn : acc.1.counter ≤ nnz := by
    have h1 := hI.bound
    have h2 := hG.le_nnz ⟨m, by omega⟩
    rw [getD0_lt _ (by omega : m < m + 1)] at h1
    omega
  have hbs : (List.ofFn acc.1.bs).take acc.1.counter = bsSlice acc.1.bs 0 acc.1.counter := by
    refine List.ext_getElem ?_ fun q h1 h2 => ?_
    · simp [bsSlice, hcn]
    · simp only [List.length_take, List.length_ofFn] at h1
      simp [bsSlice, getD0_lt _ (show q < nnz by omega)]
  have hmonoall : ∀ a b, a ≤ b → b ≤ m → getD0 acc.2 a ≤ getD0 acc.2 b := by
    intro a b hab
    induction b, hab using Nat.le_induction with
    | base => intro _; exact le_refl _
    | succ b hab ih => intro hb'; exact (ih (by omega)).trans (hI.mono b (by omega))
  refine ⟨⟨(List.ofFn acc.1.bs).take acc.1.counter, acc.2, acc.1.seen⟩, by unfold supportMatrix; rw [he]; rfl, fun g => ?_, fun i hi => ?_, ?_⟩
  · have := hI.seen g.val g.isLt
    rwa [getD0_lt _ g.isLt] at this
  · unfold Support.row
    simp only
    rw [rd_eq_getD0 acc.2 (by omega : i < m + 1), rd_eq_getD0 acc.2 (by omega : i + 1 < m + 1)]
    simp only [Option.bind_eq_bind, Option.bind_some]
    rw [← hI.rows i hi]
    refine mapM_some_eq _ fun j hj => ?_
    have hj' := List.mem_range'_1.mp hj
    have hlt : j < acc.1.counter := by
      have := hmonoall (i + 1) m (by omega) (le_refl _)
      rw [← hI.counter] at this
      omega
    rw [List.getElem?_take, if_pos hlt, List.getElem?_ofFn, dif_pos (by omega), getD0_lt]
  · show (List.ofFn acc.1.bs).take acc.1.counter = _
    rw [hbs, hI.counter]
    have hpre : ∀ k ≤ m, bsSlice acc.1.bs 0 (getD0 acc.2 k) = (List.range k).flatMap fun i => firstOcc (rowBlocks indices indptr rblocks i) := by
      intro k
      induction k with
      | zero => intro _; rw [hI.zero]; rfl
      | succ k ih =>
        intro hk
        rw [List.range_succ, List.flatMap_append, ← ih (by omega)]
        simp only [List.flatMap_cons, List.flatMap_nil, List.append_nil]
        rw [← hI.rows k (by omega)]
        unfold bsSlice
        rw [← List.map_append]
        congr 1
        have h1 := hI.mono k (by omega)
        rw [Nat.sub_zero, Nat.sub_zero]
        conv_rhs => rw [show getD0 acc.2 k = 0 + 1 * getD0 acc.2 k by omega]
        have := List.range'_append (s := 0) (m := getD0 acc.2 k) (n := getD0 acc.2 (k + 1) - getD0 acc.2 k) (step := 1)
        simp only [one_mul, zero_add] at this ⊢
        rw [this, show getD0 acc.2 k + (getD0 acc.2 (k + 1) - getD0 acc.2 k) = getD0 acc.2 (k + 1) by omega]
    exact hpre m (le_refl _)

end Copt
