import Verif.Proof.GroupProx

/-! # The block structure built by `GroupL1.prox_factory` -/

set_option linter.unusedSectionVars false

namespace Copt

open Spec

variable {n : ℕ}

/-- Total read of a buffer (0 out of range); only used in proofs. -/
def getD0 {α : Type} [Zero α] {m : ℕ} (a : Fin m → α) (i : ℕ) : α := (rd a i).getD 0

theorem getD0_lt {α : Type} [Zero α] {m : ℕ} (a : Fin m → α) {i : ℕ} (h : i < m) :
    getD0 a i = a ⟨i, h⟩ := by simp [getD0, rd_lt a h]

theorem rd_eq_getD0 {α : Type} [Zero α] {m : ℕ} (a : Fin m → α) {i : ℕ} (h : i < m) :
    rd a i = some (getD0 a i) := by rw [rd_lt a h, getD0_lt a h]

theorem getD0_update {α : Type} [Zero α] {m : ℕ} (a : Fin m → α) {k : ℕ} (hk : k < m) (v : α) (i : ℕ) :
    getD0 (Function.update a ⟨k, hk⟩ v) i = if i = k then v else getD0 a i := by
  by_cases hi : i < m
  · rw [getD0_lt _ hi, getD0_lt _ hi]
    by_cases h : i = k
    · subst h; simp
    · rw [Function.update_of_ne (by simpa [Fin.ext_iff] using h), if_neg h]
  · have hne : i ≠ k := fun h => hi (h ▸ hk)
    simp [getD0, rd, hi, hne]

/-- Features of block `h`. -/
def BlockState.blk (st : BlockState n) (h : ℕ) : List ℕ :=
  List.range' (getD0 st.indptr h) (getD0 st.indptr (h + 1) - getD0 st.indptr h)

structure BInv (G done : List (List ℕ)) (st : BlockState n) : Prop where
  hfp : st.fp ≤ n
  hbp : st.bp ≤ st.fp
  h0 : getD0 st.indptr 0 = 0
  hend : getD0 st.indptr st.bp = st.fp
  hmono : ∀ h < st.bp, getD0 st.indptr h < getD0 st.indptr (h + 1)
  hblk : ∀ h < st.bp, (st.blk h ∈ G ∧ ∀ j, getD0 st.indptr h ≤ j → j < getD0 st.indptr (h + 1) →
      getD0 st.data j = 1) ∨
    (getD0 st.indptr (h + 1) = getD0 st.indptr h + 1 ∧ (∀ g ∈ G, getD0 st.indptr h ∉ g) ∧
      getD0 st.data (getD0 st.indptr h) = -1)
  hdone : ∀ g ∈ done, ∃ h < st.bp, g = st.blk h

theorem ptr_le_of_mono (ptr : ℕ → ℕ) (N : ℕ) (h : ∀ k < N, ptr k < ptr (k + 1)) :
    ∀ b ≤ N, ∀ a ≤ b, ptr a ≤ ptr b := by
  intro b
  induction b with
  | zero => intro _ a ha; rw [Nat.le_zero.mp ha]
  | succ b ih =>
    intro hb a ha
    rcases Nat.lt_or_ge a (b + 1) with h1 | h1
    · have := ih (by omega) a (by omega); have := h b (by omega); omega
    · have : a = b + 1 := by omega
      rw [this]

theorem BInv.ptr_le {G done : List (List ℕ)} {st : BlockState n} (hI : BInv G done st) {h : ℕ}
    (hh : h ≤ st.bp) : getD0 st.indptr h ≤ st.fp := by
  rw [← hI.hend]; exact ptr_le_of_mono _ st.bp hI.hmono st.bp le_rfl h hh

/-- Extending the structure by one block `[fp, fp')`. -/
theorem BInv.extend {G done : List (List ℕ)} {st st' : BlockState n} (hI : BInv G done st)
    (hfp : st'.fp ≤ n) (hlt : st.fp < st'.fp) (hbp : st'.bp = st.bp + 1)
    (hold : ∀ h ≤ st.bp, getD0 st'.indptr h = getD0 st.indptr h)
    (hnew : getD0 st'.indptr (st.bp + 1) = st'.fp)
    (hdata : ∀ j < st.fp, getD0 st'.data j = getD0 st.data j)
    (hb : (List.range' st.fp (st'.fp - st.fp) ∈ G ∧ ∀ j, st.fp ≤ j → j < st'.fp → getD0 st'.data j = 1) ∨
      (st'.fp = st.fp + 1 ∧ (∀ g ∈ G, st.fp ∉ g) ∧ getD0 st'.data st.fp = -1)) :
    BInv G done st' := by
  have hblkold : ∀ h < st.bp, st'.blk h = st.blk h := by
    intro h hh; unfold BlockState.blk; rw [hold h (by omega), hold (h + 1) (by omega)]
  refine ⟨hfp, ?_, ?_, ?_, ?_, ?_, ?_⟩
  · have := hI.hbp; omega
  · rw [hold 0 (Nat.zero_le _)]; exact hI.h0
  · rw [hbp]; exact hnew
  · intro h hh
    rcases Nat.lt_or_ge h st.bp with h1 | h1
    · rw [hold h (by omega), hold (h + 1) (by omega)]; exact hI.hmono h h1
    · have : h = st.bp := by omega
      subst this
      rw [hold _ le_rfl, hnew, hI.hend]; exact hlt
  · intro h hh
    rcases Nat.lt_or_ge h st.bp with h1 | h1
    · rw [hblkold h h1, hold h (by omega), hold (h + 1) (by omega)]
      have hle := hI.ptr_le (h := h + 1) (by omega)
      have hm := hI.hmono h h1
      rcases hI.hblk h h1 with ⟨a, b⟩ | ⟨a, b, c⟩
      · left; exact ⟨a, fun j hj1 hj2 => by rw [hdata j (by omega)]; exact b j hj1 hj2⟩
      · right; exact ⟨a, b, by rw [hdata _ (by omega)]; exact c⟩
    · have : h = st.bp := by omega
      subst this
      unfold BlockState.blk
      rw [hold _ le_rfl, hnew, hI.hend]
      exact hb
  · intro g hg
    obtain ⟨h, hh, he⟩ := hI.hdone g hg
    exact ⟨h, by omega, by rw [hblkold h hh]; exact he⟩

theorem BlockState.single_inv {G done : List (List ℕ)} {st : BlockState n} (hI : BInv G done st)
    (hlt : st.fp < n) (hG : ∀ g ∈ G, st.fp ∉ g) :
    ∃ st', st.single = some st' ∧ BInv G done st' ∧ st'.fp = st.fp + 1 := by
  have h1 : st.bp < n + 1 := by have := hI.hbp; omega
  have h2 : st.bp + 1 < n + 1 := by have := hI.hbp; omega
  refine ⟨{ data := Function.update st.data ⟨st.fp, hlt⟩ (-1),
            indptr := Function.update st.indptr ⟨st.bp + 1, h2⟩ (getD0 st.indptr st.bp + 1),
            fp := st.fp + 1, bp := st.bp + 1 }, ?_, ?_, rfl⟩
  · simp [BlockState.single, wr_lt _ hlt, rd_eq_getD0 st.indptr h1, wr_lt _ h2]
  · refine hI.extend (by simpa using hlt) (by simp) rfl ?_ ?_ ?_ ?_
    · intro h hh; rw [getD0_update, if_neg (by omega)]
    · rw [getD0_update, if_pos rfl, hI.hend]
    · intro j hj; rw [getD0_update, if_neg (by omega)]
    · right; exact ⟨rfl, hG, by rw [getD0_update, if_pos rfl]⟩

theorem BlockState.singles_inv {G done : List (List ℕ)} : ∀ (k : ℕ) {st : BlockState n},
    BInv G done st → st.fp + k ≤ n → (∀ j, st.fp ≤ j → j < st.fp + k → ∀ g ∈ G, j ∉ g) →
    ∃ st', BlockState.singles k st = some st' ∧ BInv G done st' ∧ st'.fp = st.fp + k
  | 0, st, hI, _, _ => ⟨st, rfl, hI, rfl⟩
  | k + 1, st, hI, hk, hG => by
    obtain ⟨st1, e1, I1, f1⟩ := BlockState.single_inv hI (by omega) (hG st.fp le_rfl (by omega))
    obtain ⟨st2, e2, I2, f2⟩ := BlockState.singles_inv k I1 (by omega)
      (fun j h1 h2 => hG j (by omega) (by omega))
    refine ⟨st2, ?_, I2, by omega⟩
    simp only [BlockState.singles, e1, Option.bind_eq_bind, Option.bind_some]
    exact e2

theorem BlockState.fill_spec : ∀ (k : ℕ) (st : BlockState n), st.fp + k ≤ n → st.bp + 1 < n + 1 →
    ∃ st', BlockState.fill k st = some st' ∧ st'.fp = st.fp + k ∧ st'.bp = st.bp ∧
      (∀ h, getD0 st'.indptr h = if h = st.bp + 1 then getD0 st.indptr h + k else getD0 st.indptr h) ∧
      (∀ j, getD0 st'.data j = if st.fp ≤ j ∧ j < st.fp + k then 1 else getD0 st.data j)
  | 0, st, _, _ => ⟨st, rfl, rfl, rfl, by intro h; simp, by
      intro j; rw [if_neg (by omega)]⟩
  | k + 1, st, hk, hb => by
    have hlt : st.fp < n := by omega
    obtain ⟨st', e, f1, f2, f3, f4⟩ := BlockState.fill_spec k
      { data := Function.update st.data ⟨st.fp, hlt⟩ 1,
        indptr := Function.update st.indptr ⟨st.bp + 1, hb⟩ (getD0 st.indptr (st.bp + 1) + 1),
        fp := st.fp + 1, bp := st.bp } (by show st.fp + 1 + k ≤ n; omega) hb
    refine ⟨st', ?_, ?_, f2, ?_, ?_⟩
    · simp only [BlockState.fill, wr_lt _ hlt, rd_eq_getD0 st.indptr hb, wr_lt _ hb, Option.bind_eq_bind,
        Option.bind_some]
      exact e
    · rw [f1]; show st.fp + 1 + k = _; omega
    · intro h
      rw [f3 h]
      simp only [getD0_update]
      split_ifs with h1
      · rw [h1]; omega
      · rfl
    · intro j
      rw [f4 j]
      simp only [getD0_update]
      by_cases hj : j = st.fp
      · subst hj; rw [if_neg (by omega), if_pos rfl, if_pos (by omega)]
      · by_cases hj2 : st.fp + 1 ≤ j ∧ j < st.fp + 1 + k
        · rw [if_pos hj2, if_pos (by omega)]
        · rw [if_neg hj2, if_neg hj, if_neg (by omega)]

theorem BlockState.group_inv {G done : List (List ℕ)} {st : BlockState n} (hI : BInv G done st)
    (g : List ℕ) (hgG : g ∈ G) (a : ℕ) (hga : g = List.range' a g.length) (hpos : 0 < g.length)
    (hle : st.fp ≤ a) (hend : a + g.length ≤ n) (hgap : ∀ j, st.fp ≤ j → j < a → ∀ g' ∈ G, j ∉ g') :
    ∃ st', st.group g = some st' ∧ BInv G (done ++ [g]) st' ∧ st'.fp = a + g.length := by
  have hhead : g.head? = some a := by
    cases g with
    | nil => simp at hpos
    | cons b l =>
      rw [List.length_cons, List.range'_succ] at hga
      rw [(List.cons.inj hga).1]; rfl
  obtain ⟨st1, e1, I1, f1⟩ := BlockState.singles_inv (a - st.fp) hI (by omega)
    (fun j h1 h2 => hgap j h1 (by omega))
  have hfa : st1.fp = a := by omega
  have hb1 : st1.bp < n + 1 := by have := I1.hbp; omega
  have hb2 : st1.bp + 1 < n + 1 := by have := I1.hbp; omega
  obtain ⟨st2, e2, f2, b2, p2, d2⟩ := BlockState.fill_spec g.length
    { st1 with indptr := Function.update st1.indptr ⟨st1.bp + 1, hb2⟩ (getD0 st1.indptr st1.bp) }
    (by show st1.fp + g.length ≤ n; omega) hb2
  simp only [getD0_update] at p2
  simp only at f2 b2 d2
  have hblock : st2.fp = a + g.length := by omega
  refine ⟨{ st2 with bp := st2.bp + 1 }, ?_, ?_, hblock⟩
  · simp only [BlockState.group, hhead, e1, rd_eq_getD0 st1.indptr hb1, wr_lt _ hb2, Option.bind_eq_bind,
      Option.bind_some, e2]
    rfl
  · have hext : BInv G done ({ st2 with bp := st2.bp + 1 } : BlockState n) := by
      refine I1.extend (by show st2.fp ≤ n; omega) (by show st1.fp < st2.fp; omega)
        (by show st2.bp + 1 = _; omega) ?_ ?_ ?_ ?_
      · intro h hh
        show getD0 st2.indptr h = _
        rw [p2 h, if_neg (by omega), if_neg (by omega)]
      · show getD0 st2.indptr (st1.bp + 1) = st2.fp
        rw [p2, if_pos rfl, if_pos rfl, I1.hend]; omega
      · intro j hj
        show getD0 st2.data j = _
        rw [d2 j, if_neg (by omega)]
      · left
        refine ⟨?_, ?_⟩
        · show List.range' st1.fp (st2.fp - st1.fp) ∈ G
          have : List.range' st1.fp (st2.fp - st1.fp) = g := by
            rw [hga]; congr 1; omega
          rw [this]; exact hgG
        · intro j h1 h2
          show getD0 st2.data j = 1
          have h2' : j < st2.fp := h2
          rw [d2 j, if_pos (by omega)]
    refine { hext with hdone := ?_ }
    intro g' hg'
    rcases List.mem_append.mp hg' with hg' | hg'
    · exact hext.hdone g' hg'
    · rw [List.mem_singleton] at hg'
      subst hg'
      refine ⟨st1.bp, by show st1.bp < st2.bp + 1; omega, ?_⟩
      show g' = List.range' (getD0 st2.indptr st1.bp) (getD0 st2.indptr (st1.bp + 1) - getD0 st2.indptr st1.bp)
      rw [p2 st1.bp, p2 (st1.bp + 1), if_neg (by omega), if_neg (by omega), if_pos rfl, if_pos rfl, I1.hend, hfa]
      rw [Nat.add_sub_cancel_left]; exact hga

theorem GroupL1.blocks_fold {G : List (List ℕ)} (hG : GoodGroups G) (hn : ∀ g ∈ G, ∀ i ∈ g, i < n) :
    ∀ (gs done : List (List ℕ)) (st : BlockState n), G = done ++ gs → BInv G done st →
      (∀ g ∈ done, ∀ i ∈ g, i < st.fp) → (∀ g ∈ gs, ∀ i ∈ g, st.fp ≤ i) →
      ∃ st', gs.foldlM BlockState.group st = some st' ∧ BInv G G st' ∧ ∀ g ∈ G, ∀ i ∈ g, i < st'.fp
  | [], done, st, he, hI, hdone, _ => by
    rw [List.append_nil] at he
    subst he
    exact ⟨st, rfl, hI, hdone⟩
  | g :: gs, done, st, he, hI, hdone, hrest => by
    have hgG : g ∈ G := by rw [he]; simp
    obtain ⟨hgne, hgr⟩ := hG.1 g hgG
    obtain ⟨a, ha, hl, -, -, hmem⟩ := isRun_mem_bounds hgne hgr
    have hpw := hG.pairwise
    rw [he] at hpw
    have hpw2 := (List.pairwise_append.mp hpw).2.1
    have hle : st.fp ≤ a := hrest g List.mem_cons_self a ((hmem a).mpr ⟨le_rfl, by omega⟩)
    have hlast : a + g.length - 1 < n := hn g hgG _ ((hmem _).mpr ⟨by omega, by omega⟩)
    obtain ⟨st1, e1, I1, f1⟩ := BlockState.group_inv hI g hgG a ha hl hle (by omega) (by
      intro j h1 h2 g' hg' hj
      rw [he] at hg'
      rcases List.mem_append.mp hg' with h | h
      · have := hdone g' h j hj; omega
      · rcases List.mem_cons.mp h with rfl | h
        · have := (hmem j).mp hj; omega
        · have := (List.pairwise_cons.mp hpw2).1 g' h a ((hmem a).mpr ⟨le_rfl, by omega⟩) j hj; omega)
    obtain ⟨st2, e2, I2, f2⟩ := GroupL1.blocks_fold hG hn gs (done ++ [g]) st1 (by rw [he]; simp) I1
      (by
        intro g' hg' i hi
        rcases List.mem_append.mp hg' with h | h
        · have := hdone g' h i hi; omega
        · rw [List.mem_singleton] at h; subst h
          have := (hmem i).mp hi; omega)
      (by
        intro g' hg' i hi
        have := (List.pairwise_cons.mp hpw2).1 g' hg' (a + g.length - 1)
          ((hmem _).mpr ⟨by omega, by omega⟩) i hi
        omega)
    refine ⟨st2, ?_, I2, f2⟩
    rw [List.foldlM_cons, e1]; exact e2

theorem GroupL1.blocks_inv {G : List (List ℕ)} (hG : GoodGroups G) (hn : ∀ g ∈ G, ∀ i ∈ g, i < n) :
    ∃ B : BlockState n, GroupL1.blocks G n = some B ∧ BInv G G B ∧ B.fp = n := by
  have h0 : BInv G [] ({ data := fun _ => 0, indptr := fun _ => 0, fp := 0, bp := 0 } : BlockState n) :=
    ⟨Nat.zero_le _, le_rfl, by simp [getD0, rd], by simp [getD0, rd], by simp, by simp, by simp⟩
  obtain ⟨st, e, I, hlt⟩ := GroupL1.blocks_fold hG hn G [] _ rfl h0 (by simp) (by simp)
  obtain ⟨st', e', I', f'⟩ := BlockState.singles_inv (n - st.fp) I (by have := I.hfp; omega)
    (fun j h1 _ g hg hj => by have := hlt g hg j hj; omega)
  refine ⟨st', ?_, I', by have := I.hfp; omega⟩
  unfold GroupL1.blocks
  rw [e]; exact e'

end Copt
