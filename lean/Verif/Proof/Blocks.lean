import Verif.Proof.Support

/-! # Lemmas about blocks and rows used by the variance-reduced methods -/

set_option linter.unusedSectionVars false

namespace Copt

open Spec

variable {K : Type} [Field K] {n p nb : ℕ}

/-! ### Blocks -/

theorem Spec.CutsInto.le {ptr : Fin (nb + 1) → ℕ} (h : CutsInto p ptr) : ∀ a b : ℕ, (ha : a ≤ b) → (hb : b < nb + 1) →
    ptr ⟨a, by omega⟩ ≤ ptr ⟨b, hb⟩ := by
  intro a b hab
  induction b, hab using Nat.le_induction with
  | base => intro _; exact le_refl _
  | succ b hab ih =>
    intro hb
    exact (ih (by omega)).trans (h.mono ⟨b, by omega⟩)

theorem Spec.CutsInto.exists_block {ptr : Fin (nb + 1) → ℕ} (h : CutsInto p ptr) {c : ℕ} (hc : c < p) : ∃ b : Fin nb, InBlock ptr b c := by
  by_contra hno
  push Not at hno
  have key : ∀ k : ℕ, (hk : k < nb + 1) → ptr ⟨k, hk⟩ ≤ c := by
    intro k
    induction k with
    | zero => intro _; rw [show (⟨0, by omega⟩ : Fin (nb + 1)) = 0 from rfl, h.zero]; omega
    | succ k ih =>
      intro hk
      have h1 := ih (by omega)
      by_contra h2
      push Not at h2
      exact hno ⟨k, by omega⟩ ⟨h1, h2⟩
  have := key nb (by omega)
  rw [show (⟨nb, by omega⟩ : Fin (nb + 1)) = Fin.last nb from rfl, h.last] at this
  omega

theorem Spec.CutsInto.unique {ptr : Fin (nb + 1) → ℕ} (h : CutsInto p ptr) {a b : Fin nb} {c : ℕ} (ha : InBlock ptr a c) (hb : InBlock ptr b c) :
    a = b := by
  rcases lt_trichotomy a.val b.val with hlt | heq | hlt
  · have := h.le (a.val + 1) b.val (by omega) (by omega)
    have h1 : c < ptr ⟨a.val + 1, by omega⟩ := ha.2
    have h2 : ptr ⟨b.val, by omega⟩ ≤ c := hb.1
    omega
  · exact Fin.ext heq
  · have := h.le (b.val + 1) a.val (by omega) (by omega)
    have h1 : c < ptr ⟨b.val + 1, by omega⟩ := hb.2
    have h2 : ptr ⟨a.val, by omega⟩ ≤ c := ha.1
    omega

theorem Spec.CutsInto.lt {ptr : Fin (nb + 1) → ℕ} (h : CutsInto p ptr) {a : Fin nb} {c : ℕ} (ha : InBlock ptr a c) : c < p := by
  have := h.le (a.val + 1) nb (by omega) (by omega)
  have h1 : c < ptr ⟨a.val + 1, by omega⟩ := ha.2
  rw [show (⟨nb, by omega⟩ : Fin (nb + 1)) = Fin.last nb from rfl, h.last] at this
  omega

/-- The block matrices built by the penalties: consecutive blocks, `indices = arange(p)`. -/
structure GoodBlocks (B : BlockMat) (p : ℕ) : Prop where
  cuts : CutsInto p B.ptr
  nz : B.nz = p
  idx : ∀ k, B.idx k = k.val

/-- The block of a feature. -/
noncomputable def GoodBlocks.of {B : BlockMat} (h : GoodBlocks B p) (c : Fin p) : Fin B.nb := (h.cuts.exists_block c.isLt).choose

theorem GoodBlocks.of_spec {B : BlockMat} (h : GoodBlocks B p) (c : Fin p) : InBlock B.ptr (h.of c) c := (h.cuts.exists_block c.isLt).choose_spec

theorem GoodBlocks.of_eq {B : BlockMat} (h : GoodBlocks B p) {c : Fin p} {b : Fin B.nb} (hb : InBlock B.ptr b c) : h.of c = b :=
  h.cuts.unique (h.of_spec c) hb

theorem goodBlocks_eye (p : ℕ) : GoodBlocks (BlockMat.eye p) p :=
  ⟨⟨rfl, rfl, fun h => Nat.le_succ _⟩, rfl, fun _ => rfl⟩

theorem eye_of (p : ℕ) (c : Fin p) : (goodBlocks_eye p).of c = c :=
  (goodBlocks_eye p).of_eq (b := c) ⟨by simp [BlockMat.eye], by simp [BlockMat.eye]⟩

theorem flatMap_single {q : ℕ} (a : Fin q) : ((List.finRange q).flatMap fun h => List.replicate (if h = a then 1 else 0) h.val) = [a.val] := by
  have h1 : ∀ l : List (Fin q), (l.flatMap fun h => List.replicate (if h = a then 1 else 0) h.val) = (l.filter (· == a)).map Fin.val := by
    intro l
    induction l with
    | nil => rfl
    | cons h l ih =>
      rw [List.flatMap_cons, ih]
      by_cases hh : h = a
      · simp [hh]
      · simp [hh]
  rw [h1, List.filter_beq, List.count_eq_one_of_mem (List.nodup_finRange q) (List.mem_finRange a)]
  rfl

theorem GoodBlocks.rblocks_eq {B : BlockMat} (hB : GoodBlocks B p) : B.rblocks p = List.ofFn fun c : Fin p => (hB.of c).val := by
  unfold BlockMat.rblocks
  have h1 : ∀ j ∈ List.range p, ((List.finRange B.nb).flatMap fun h => List.replicate (B.count h j) h.val) =
      [if hj : j < p then (hB.of ⟨j, hj⟩).val else 0] := by
    intro j hj
    have hj' := List.mem_range.mp hj
    rw [dif_pos hj', ← flatMap_single]
    refine List.flatMap_congr fun h _ => ?_
    congr 1
    unfold BlockMat.count
    have hjz : j < B.nz := by rw [hB.nz]; exact hj'
    have e : ∀ k ∈ List.finRange B.nz, (decide (B.ptr h.castSucc ≤ k.val ∧ k.val < B.ptr h.succ ∧ B.idx k = j) = true ↔
        (if h = hB.of ⟨j, hj'⟩ then (k == (⟨j, hjz⟩ : Fin B.nz)) else false) = true) := by
      intro k _
      rw [decide_eq_true_iff, hB.idx]
      split
      · rename_i hh
        have := hB.of_spec ⟨j, hj'⟩
        rw [← hh] at this
        rw [beq_iff_eq, Fin.ext_iff]
        constructor
        · exact fun h => h.2.2
        · intro h; simp only at h; rw [h]; exact ⟨this.1, this.2, rfl⟩
      · rename_i hh
        simp only [Bool.false_eq_true, iff_false]
        rintro ⟨h1, h2, h3⟩
        exact hh (hB.of_eq (c := ⟨j, hj'⟩) ⟨by simpa [← h3] using h1, by simpa [← h3] using h2⟩).symm
    rw [List.countP_congr e]
    split
    · show List.count (⟨j, hjz⟩ : Fin B.nz) (List.finRange B.nz) = 1
      exact List.count_eq_one_of_mem (List.nodup_finRange _) (List.mem_finRange _)
    · simp
  rw [List.flatMap_congr h1, ← List.map_eq_flatMap]
  refine List.ext_getElem (by simp) fun k h2 h3 => ?_
  simp only [List.length_ofFn] at h3
  simp [h3]

/-! ### Writing feature by feature inside blocks -/

theorem block_fold {F : ℕ → K → K} {body : (Fin p → K) → ℕ → Option (Fin p → K)} : ∀ (len s : ℕ) (x : Fin p → K), s + len ≤ p →
    (∀ j, (hj : j < p) → s ≤ j → j < s + len → ∀ x : Fin p → K, body x j = some (Function.update x ⟨j, hj⟩ (F j (x ⟨j, hj⟩)))) →
    ∃ x', (List.range' s len).foldlM body x = some x' ∧ ∀ c : Fin p, x' c = if s ≤ c.val ∧ c.val < s + len then F c (x c) else x c := by
  intro len
  induction len with
  | zero => intro s x _ _; exact ⟨x, rfl, fun c => by rw [if_neg (by omega)]⟩
  | succ len ih =>
    intro s x hle hb
    have hs : s < p := by omega
    obtain ⟨x', he, hx⟩ := ih (s + 1) (Function.update x ⟨s, hs⟩ (F s (x ⟨s, hs⟩))) (by omega)
      (fun j hj h1 h2 => hb j hj (by omega) (by omega))
    refine ⟨x', ?_, fun c => ?_⟩
    · rw [List.range'_succ, List.foldlM_cons, hb s hs (le_refl _) (by omega)]; exact he
    · rw [hx c]
      by_cases hc : c.val = s
      · rw [if_neg (by omega), if_pos (by omega), show c = ⟨s, hs⟩ from Fin.ext hc, Function.update_self]
      · rw [Function.update_of_ne (fun h => hc (by rw [h]))]
        by_cases h1 : s + 1 ≤ c.val ∧ c.val < s + 1 + len
        · rw [if_pos h1, if_pos (by omega)]
        · rw [if_neg h1, if_neg (by omega)]

theorem forBlocks_spec {B : BlockMat} (hB : GoodBlocks B p) {F : ℕ → ℕ → K → K} {body : ℕ → (Fin p → K) → ℕ → Option (Fin p → K)} :
    ∀ (hs : List ℕ), hs.Nodup → (∀ h ∈ hs, h < B.nb) →
    (∀ h ∈ hs, ∀ j, (hj : j < p) → (hB.of ⟨j, hj⟩).val = h → ∀ x : Fin p → K, body h x j = some (Function.update x ⟨j, hj⟩ (F h j (x ⟨j, hj⟩)))) →
    ∀ x : Fin p → K, ∃ x', forBlocks B body hs x = some x' ∧ ∀ c : Fin p, x' c = if (hB.of c).val ∈ hs then F (hB.of c).val c (x c) else x c := by
  intro hs
  induction hs with
  | nil => intro _ _ _ x; exact ⟨x, rfl, by simp⟩
  | cons h hs ih =>
    intro hnd hlt hbody x
    have hh := hlt h (by simp)
    have hin : ∀ c : ℕ, InBlock B.ptr ⟨h, hh⟩ c ↔ B.ptr ⟨h, by omega⟩ ≤ c ∧ c < B.ptr ⟨h + 1, by omega⟩ := fun c => Iff.rfl
    have hmono : B.ptr ⟨h, by omega⟩ ≤ B.ptr ⟨h + 1, by omega⟩ := hB.cuts.mono ⟨h, hh⟩
    have hlast : B.ptr ⟨h + 1, by omega⟩ ≤ p := by
      have := hB.cuts.le (h + 1) B.nb (by omega) (by omega)
      rwa [show (⟨B.nb, by omega⟩ : Fin (B.nb + 1)) = Fin.last B.nb from rfl, hB.cuts.last] at this
    obtain ⟨x1, he1, hx1⟩ := block_fold (F := F h) (body := body h) (B.ptr ⟨h + 1, by omega⟩ - B.ptr ⟨h, by omega⟩) (B.ptr ⟨h, by omega⟩) x
      (by omega) (fun j hj h1 h2 => hbody h (by simp) j hj (by
        rw [hB.of_eq (c := ⟨j, hj⟩) (b := ⟨h, hh⟩) ⟨h1, by show j < B.ptr ⟨h + 1, _⟩; omega⟩]))
    obtain ⟨x2, he2, hx2⟩ := ih (List.nodup_cons.mp hnd).2 (fun k hk => hlt k (by simp [hk])) (fun k hk => hbody k (by simp [hk])) x1
    refine ⟨x2, ?_, fun c => ?_⟩
    · unfold forBlocks at he2 ⊢
      rw [List.foldlM_cons, rd_lt B.ptr (by omega : h < B.nb + 1), rd_lt B.ptr (by omega : h + 1 < B.nb + 1)]
      simp only [Option.bind_eq_bind, Option.bind_some]
      rw [he1]; exact he2
    · rw [hx2 c, hx1 c]
      have hiff : (B.ptr ⟨h, by omega⟩ ≤ c.val ∧ c.val < B.ptr ⟨h, by omega⟩ + (B.ptr ⟨h + 1, by omega⟩ - B.ptr ⟨h, by omega⟩)) ↔ (hB.of c).val = h := by
        constructor
        · intro hc
          rw [hB.of_eq (c := c) (b := ⟨h, hh⟩) ⟨hc.1, by show c.val < B.ptr ⟨h + 1, _⟩; omega⟩]
        · intro hc
          have := hB.of_spec c
          rw [show hB.of c = ⟨h, hh⟩ from Fin.ext hc] at this
          have h1 : B.ptr ⟨h, by omega⟩ ≤ c.val := this.1
          have h2 : c.val < B.ptr ⟨h + 1, by omega⟩ := this.2
          omega
      by_cases hc : (hB.of c).val = h
      · have hnin : (hB.of c).val ∉ hs := by rw [hc]; exact (List.nodup_cons.mp hnd).1
        rw [if_neg hnin, if_pos (hiff.mpr hc), if_pos (by rw [hc]; simp), hc]
      · rw [if_neg (fun h => hc (hiff.mp h))]
        by_cases hm : (hB.of c).val ∈ hs
        · rw [if_pos hm, if_pos (by simp [hm])]
        · rw [if_neg hm, if_neg (by simp [hm, hc])]

/-! ### Rows of the data matrix -/

/-- Entry `(i, c)` of the data matrix. -/
abbrev CsrMat.ent (A : CsrMat K n p) (i : Fin n) (c : ℕ) : K := csrEntry A.data A.indptr A.indices i c

/-- Row `i` as a list. -/
def CsrMat.rowList (A : CsrMat K n p) (i : ℕ) : List (ℕ × K) := (rowPos A.indptr i).map fun j => (getD0 A.indices j, getD0 A.data j)

theorem rowPos_lt {A : CsrMat K n p} (hG : GoodCsr p A.indptr A.indices) (i : Fin n) : ∀ j ∈ rowPos A.indptr i, j < A.nnz := by
  have := row_lt hG i
  unfold rowPos
  rwa [getD0_lt _ (by omega : i.val < n + 1), getD0_lt _ (by omega : i.val + 1 < n + 1)]

theorem CsrMat.row_eq {A : CsrMat K n p} (hG : GoodCsr p A.indptr A.indices) (i : Fin n) : A.row i = some (A.rowList i) := by
  unfold CsrMat.row
  rw [rd_eq_getD0 _ (by omega : i.val < n + 1), rd_eq_getD0 _ (by omega : i.val + 1 < n + 1)]
  simp only [Option.bind_eq_bind, Option.bind_some]
  refine mapM_some_eq _ fun j hj => ?_
  have hj' := rowPos_lt hG i j hj
  rw [rd_eq_getD0 _ hj', rd_eq_getD0 _ hj']; rfl

theorem mem_rowPos {A : CsrMat K n p} (hG : GoodCsr p A.indptr A.indices) (i : Fin n) (c : ℕ) :
    (∃ j ∈ rowPos A.indptr i, getD0 A.indices j = c) ↔ StoresAt A.indptr A.indices i c := by
  have e1 : getD0 A.indptr i = A.indptr i.castSucc := getD0_lt _ (by omega : i.val < n + 1)
  have e2 : getD0 A.indptr (i + 1) = A.indptr i.succ := getD0_lt _ (by omega : i.val + 1 < n + 1)
  constructor
  · rintro ⟨j, hj, hc⟩
    have hlt := rowPos_lt hG i j hj
    have := List.mem_range'_1.mp hj
    rw [e1, e2] at this
    rw [getD0_lt _ hlt] at hc
    exact ⟨⟨j, hlt⟩, this.1, by show j < _; omega, hc⟩
  · rintro ⟨j, h1, h2, h3⟩
    refine ⟨j.val, List.mem_range'_1.mpr ?_, by rw [getD0_lt _ j.isLt]; exact h3⟩
    rw [e1, e2]; omega

theorem rowList_col_lt {A : CsrMat K n p} (hG : GoodCsr p A.indptr A.indices) (i : Fin n) : ∀ e ∈ A.rowList i, e.1 < p := by
  intro e he
  obtain ⟨j, hj, rfl⟩ := List.mem_map.mp he
  show getD0 A.indices j < p
  rw [getD0_lt _ (rowPos_lt hG i j hj)]; exact hG.col_lt _

theorem rowDot_fold (x : Fin p → K) : ∀ (L : List (ℕ × K)), (∀ e ∈ L, e.1 < p) → ∀ acc,
    L.foldlM (fun acc e => do
      let v ← rd x e.1
      return acc + v * e.2) acc = some (acc + (L.map fun e => getD0 x e.1 * e.2).sum) := by
  intro L
  induction L with
  | nil => intro _ acc; simp
  | cons e L ih =>
    intro h acc
    rw [List.foldlM_cons, rd_eq_getD0 _ (h e (by simp))]
    simp only [Option.bind_eq_bind, Option.bind_some, Option.pure_def, List.map_cons, List.sum_cons]
    have := ih (fun e' he' => h e' (by simp [he'])) (acc + getD0 x e.1 * e.2)
    simp only [Option.bind_eq_bind, Option.pure_def] at this
    rw [this, add_assoc]

theorem rowDot_spec {A : CsrMat K n p} (hG : GoodCsr p A.indptr A.indices) (i : Fin n) (x : Fin p → K) :
    rowDot x (A.rowList i) = some (∑ c : Fin p, A.ent i c * x c) := by
  unfold rowDot
  rw [rowDot_fold x _ (rowList_col_lt hG i), zero_add]
  congr 1
  have := mv_row_sum hG x A.data i
  rw [← this]
  unfold CsrMat.rowList rowPos
  rw [List.map_map, getD0_lt _ (by omega : i.val < n + 1), getD0_lt _ (by omega : i.val + 1 < n + 1)]
  rfl

/-- Row sums by column. -/
theorem rowList_ent {A : CsrMat K n p} (hG : GoodCsr p A.indptr A.indices) (i : Fin n) (c : ℕ) :
    ((A.rowList i).map fun e => if e.1 = c then e.2 else 0).sum = A.ent i c := by
  unfold CsrMat.rowList rowPos CsrMat.ent
  rw [List.map_map, getD0_lt _ (by omega : i.val < n + 1), getD0_lt _ (by omega : i.val + 1 < n + 1)]
  have h := sum_slice (nnz := A.nnz) (fun j => if getD0 A.indices j = c then getD0 A.data j else 0) (hG.mono i) (hG.le_nnz i.succ)
  refine Eq.trans h ?_
  unfold csrEntry
  refine Finset.sum_congr rfl fun j _ => ?_
  rw [getD0_lt _ j.isLt, getD0_lt _ j.isLt]
  simp only [Fin.eta]
  by_cases h1 : A.indptr i.castSucc ≤ j.val ∧ j.val < A.indptr i.succ
  · rw [if_pos h1]
    by_cases h2 : A.indices j = c
    · rw [if_pos h2, if_pos ⟨h1.1, h1.2, h2⟩]
    · rw [if_neg h2, if_neg fun h => h2 h.2.2]
  · rw [if_neg h1, if_neg fun h => h1 ⟨h.1, h.2.1⟩]

theorem ent_eq_zero {A : CsrMat K n p} {i : Fin n} {c : ℕ} (h : ¬StoresAt A.indptr A.indices i c) : A.ent i c = 0 := by
  unfold CsrMat.ent csrEntry
  refine Finset.sum_eq_zero fun j _ => ?_
  rw [if_neg]
  exact fun hh => h ⟨j, hh⟩

theorem rowMemory_fold (n : ℕ) (g : K) : ∀ (L : List (ℕ × K)), (∀ e ∈ L, e.1 < p) → ∀ s : (Fin p → K) × (Fin p → K),
    ∃ s', rowMemory n g L s = some s' ∧ (∀ c : Fin p, s'.1 c = s.1 c + (L.map fun e => if e.1 = c.val then g * e.2 / (n : K) else 0).sum) ∧
      ∀ c : Fin p, s'.2 c = if c.val ∈ L.map Prod.fst then 0 else s.2 c := by
  intro L
  induction L with
  | nil => intro _ s; exact ⟨s, rfl, by simp, by simp⟩
  | cons e L ih =>
    intro h s
    have he := h e (by simp)
    obtain ⟨s', hs', h1, h2⟩ := ih (fun e' he' => h e' (by simp [he']))
      (Function.update s.1 ⟨e.1, he⟩ (s.1 ⟨e.1, he⟩ + g * e.2 / (n : K)), Function.update s.2 ⟨e.1, he⟩ 0)
    refine ⟨s', ?_, fun c => ?_, fun c => ?_⟩
    · unfold rowMemory at hs' ⊢
      rw [List.foldlM_cons, rd_lt s.1 he, wr_lt s.2 he]
      simp only [Option.bind_eq_bind, Option.bind_some, wr_lt s.1 he]
      exact hs'
    · rw [h1 c, List.map_cons, List.sum_cons]
      by_cases hc : e.1 = c.val
      · rw [if_pos hc, show c = ⟨e.1, he⟩ from Fin.ext hc.symm]
        simp only [Function.update_self]
        ring
      · rw [if_neg hc, zero_add]
        simp only
        rw [Function.update_of_ne (fun hh => hc (by rw [hh]))]
    · rw [h2 c]
      by_cases hm : c.val ∈ L.map Prod.fst
      · rw [if_pos hm, if_pos (by rw [List.map_cons]; exact List.mem_cons_of_mem _ hm)]
      · rw [if_neg hm]
        simp only
        by_cases hc : e.1 = c.val
        · rw [show c = ⟨e.1, he⟩ from Fin.ext hc.symm, Function.update_self, if_pos (by simp)]
        · rw [Function.update_of_ne (fun hh => hc (by rw [hh])), if_neg]
          rw [List.map_cons, List.mem_cons, not_or]
          exact ⟨fun h => hc h.symm, hm⟩

theorem mem_cols {A : CsrMat K n p} (hG : GoodCsr p A.indptr A.indices) (i : Fin n) (c : ℕ) :
    c ∈ (A.rowList i).map Prod.fst ↔ StoresAt A.indptr A.indices i c := by
  rw [← mem_rowPos hG i c]
  unfold CsrMat.rowList
  simp

open Classical in
theorem rowMemory_spec {A : CsrMat K n p} (hG : GoodCsr p A.indptr A.indices) (i : Fin n) (m : ℕ) (g : K) (s : (Fin p → K) × (Fin p → K)) :
    ∃ s', rowMemory m g (A.rowList i) s = some s' ∧ (∀ c : Fin p, s'.1 c = s.1 c + g * A.ent i c / (m : K)) ∧
      ∀ c : Fin p, s'.2 c = if StoresAt A.indptr A.indices i c then 0 else s.2 c := by
  obtain ⟨s', h1, h2, h3⟩ := rowMemory_fold m g (A.rowList i) (rowList_col_lt hG i) s
  refine ⟨s', h1, fun c => ?_, fun c => ?_⟩
  · rw [h2 c, ← rowList_ent hG i c]
    congr 1
    rw [mul_div_right_comm, ← List.sum_map_mul_left]
    congr 1
    refine List.map_congr_left fun e _ => ?_
    split
    · ring
    · ring
  · rw [h3 c]
    simp only [mem_cols hG i]

theorem rowScatter_fold (g : K) : ∀ (L : List (ℕ × K)), (∀ e ∈ L, e.1 < p) → (L.map Prod.fst).Nodup → ∀ tmp : Fin p → K,
    ∃ tmp', rowScatter g L tmp = some tmp' ∧ ∀ c : Fin p, tmp' c = if c.val ∈ L.map Prod.fst then
      g * (L.map fun e => if e.1 = c.val then e.2 else 0).sum else tmp c := by
  intro L
  induction L with
  | nil => intro _ _ tmp; exact ⟨tmp, rfl, by simp⟩
  | cons e L ih =>
    intro h hnd tmp
    have he := h e (by simp)
    rw [List.map_cons, List.nodup_cons] at hnd
    obtain ⟨tmp', ht, hs⟩ := ih (fun e' he' => h e' (by simp [he'])) hnd.2 (Function.update tmp ⟨e.1, he⟩ (g * e.2))
    refine ⟨tmp', ?_, fun c => ?_⟩
    · unfold rowScatter at ht ⊢
      rw [List.foldlM_cons, wr_lt _ he]; exact ht
    · rw [hs c, List.map_cons, List.map_cons, List.sum_cons]
      by_cases hc : e.1 = c.val
      · have hz : (L.map fun e => if e.1 = c.val then e.2 else 0).sum = 0 := by
          refine List.sum_eq_zero fun v hv => ?_
          obtain ⟨e', he', rfl⟩ := List.mem_map.mp hv
          rw [if_neg]
          intro hh
          exact hnd.1 (by rw [hc, ← hh]; exact List.mem_map_of_mem he')
        rw [if_neg (by rw [← hc]; exact hnd.1), if_pos (by rw [hc]; simp), if_pos hc, hz, add_zero,
          show c = ⟨e.1, he⟩ from Fin.ext hc.symm, Function.update_self]
      · rw [if_neg hc, zero_add, Function.update_of_ne (fun hh => hc (by rw [hh]))]
        by_cases hm : c.val ∈ L.map Prod.fst
        · rw [if_pos hm, if_pos (List.mem_cons_of_mem _ hm)]
        · rw [if_neg hm, if_neg]
          rw [List.mem_cons, not_or]; exact ⟨fun h => hc h.symm, hm⟩

theorem cols_nodup {A : CsrMat K n p} (hG : GoodCsr p A.indptr A.indices) (hN : NoDuplicates A.indptr A.indices) (i : Fin n) :
    ((A.rowList i).map Prod.fst).Nodup := by
  unfold CsrMat.rowList
  rw [List.map_map]
  refine List.Nodup.map_on ?_ List.nodup_range'
  intro j hj k hk hjk
  have h1 := rowPos_lt hG i j hj
  have h2 := rowPos_lt hG i k hk
  have h3 := List.mem_range'_1.mp hj
  have h4 := List.mem_range'_1.mp hk
  have e1 : getD0 A.indptr i = A.indptr i.castSucc := getD0_lt _ (by omega : i.val < n + 1)
  have e2 : getD0 A.indptr (i + 1) = A.indptr i.succ := getD0_lt _ (by omega : i.val + 1 < n + 1)
  rw [e1, e2] at h3 h4
  have hjk' : getD0 A.indices j = getD0 A.indices k := hjk
  rw [getD0_lt _ h1, getD0_lt _ h2] at hjk'
  have := hN i ⟨j, h1⟩ ⟨k, h2⟩ h3.1 (by show j < _; omega) h4.1 (by show k < _; omega) hjk'
  exact congrArg Fin.val this

open Classical in
theorem rowScatter_spec {A : CsrMat K n p} (hG : GoodCsr p A.indptr A.indices) (hN : NoDuplicates A.indptr A.indices) (i : Fin n) (g : K)
    (tmp : Fin p → K) : ∃ tmp', rowScatter g (A.rowList i) tmp = some tmp' ∧
      ∀ c : Fin p, tmp' c = if StoresAt A.indptr A.indices i c then g * A.ent i c else tmp c := by
  obtain ⟨t, h1, h2⟩ := rowScatter_fold g (A.rowList i) (rowList_col_lt hG i) (cols_nodup hG hN i) tmp
  refine ⟨t, h1, fun c => ?_⟩
  rw [h2 c, rowList_ent hG i c]
  simp only [mem_cols hG i]

/-! ### Weights -/

theorem lt_supWidth {bs : List ℕ} {h : ℕ} (hm : h ∈ bs) : h < supWidth bs := by
  induction bs with
  | nil => simp at hm
  | cons a bs ih =>
    unfold supWidth at ih ⊢
    rw [List.foldr_cons]
    rcases List.mem_cons.mp hm with rfl | hm
    · exact lt_of_lt_of_le (Nat.lt_succ_self _) (le_max_left _ _)
    · exact lt_of_lt_of_le (ih hm) (le_max_right _ _)

/-- The number of samples that touch block `h`. -/
noncomputable def touchCount (A : CsrMat K n p) {nb : ℕ} (ptr : Fin (nb + 1) → ℕ) (h : Fin nb) : ℕ := by
  classical exact (Finset.univ.filter fun i : Fin n => Touches A.indptr A.indices ptr i h).card

/-- The support matrix of data `A` with blocks `B`: what the methods use of it. -/
structure SupportOk (A : CsrMat K n p) {B : BlockMat} (hB : GoodBlocks B p) (S : Support n B.nb) : Prop where
  row : ∀ i : Fin n, ∃ hs : List ℕ, S.row i = some hs ∧ hs.Nodup ∧ (∀ h ∈ hs, h < B.nb) ∧
    ∀ h : Fin B.nb, h.val ∈ hs ↔ Touches A.indptr A.indices B.ptr i h
  count : ∀ h : Fin B.nb, S.bs.count h.val = touchCount A B.ptr h
  mem : ∀ h ∈ S.bs, h < B.nb

theorem sum_map_ite_one {α : Type} (P : α → Prop) [DecidablePred P] (l : List α) :
    (l.map fun a => if P a then 1 else 0).sum = l.countP fun a => decide (P a) := by
  induction l with
  | nil => rfl
  | cons a l ih =>
    rw [List.map_cons, List.sum_cons, ih, List.countP_cons]
    by_cases h : P a <;> simp [h, add_comm]

theorem countP_finRange {q : ℕ} (P : Fin q → Prop) [DecidablePred P] :
    (List.finRange q).countP (fun i => decide (P i)) = (Finset.univ.filter P).card := by
  rw [List.countP_eq_length_filter, Finset.card_def]
  rfl

open Classical in
theorem supportOk {A : CsrMat K n p} {B : BlockMat} (hG : GoodCsr p A.indptr A.indices) (hB : GoodBlocks B p) :
    ∃ S, supportMatrix A.indices A.indptr (fun k : Fin (B.rblocks p).length => (B.rblocks p).get k) B.nb = some S ∧ SupportOk A hB S := by
  have hlen : (B.rblocks p).length = p := by rw [hB.rblocks_eq, List.length_ofFn]
  have hget : ∀ (k : ℕ) (hk : k < (B.rblocks p).length), (B.rblocks p)[k] = (hB.of ⟨k, by omega⟩).val := by
    intro k hk
    simp only [hB.rblocks_eq, List.getElem_ofFn]
  have hG' : GoodCsr (B.rblocks p).length A.indptr A.indices := by rw [hlen]; exact hG
  have hb : ∀ k : Fin (B.rblocks p).length, (B.rblocks p).get k < B.nb := by
    intro k
    rw [List.get_eq_getElem, hget]; exact (hB.of _).isLt
  obtain ⟨S, hS, -, hrow, hbs⟩ := supportMatrix_spec (nb := B.nb) hG' hb
  set rb := fun k : Fin (B.rblocks p).length => (B.rblocks p).get k with hrb
  have hmem : ∀ (i : Fin n) (h : ℕ), h ∈ firstOcc (rowBlocks A.indices A.indptr rb i) ↔
      ∃ hh : h < B.nb, Touches A.indptr A.indices B.ptr i ⟨h, hh⟩ := by
    intro i h
    rw [mem_firstOcc]
    unfold rowBlocks
    rw [List.mem_map]
    have hblk : ∀ j ∈ rowPos A.indptr i, ∃ hc : getD0 A.indices j < p, blkAt A.indices rb j = (hB.of ⟨getD0 A.indices j, hc⟩).val := by
      intro j hj
      have h1 : getD0 A.indices j < p := by rw [getD0_lt _ (rowPos_lt hG i j hj)]; exact hG.col_lt _
      refine ⟨h1, ?_⟩
      unfold blkAt
      rw [getD0_lt rb (by omega : getD0 A.indices j < (B.rblocks p).length)]
      exact hget _ _
    constructor
    · rintro ⟨j, hj, rfl⟩
      obtain ⟨hc, he⟩ := hblk j hj
      refine ⟨by rw [he]; exact (hB.of _).isLt, getD0 A.indices j, (mem_rowPos hG i _).mp ⟨j, hj, rfl⟩, ?_⟩
      have := hB.of_spec ⟨getD0 A.indices j, hc⟩
      rwa [show (⟨blkAt A.indices rb j, by rw [he]; exact (hB.of _).isLt⟩ : Fin B.nb) = hB.of ⟨getD0 A.indices j, hc⟩ from Fin.ext he]
    · rintro ⟨hh, c, hst, hin⟩
      obtain ⟨j, hj, rfl⟩ := (mem_rowPos hG i c).mpr hst
      obtain ⟨hc, he⟩ := hblk j hj
      refine ⟨j, hj, ?_⟩
      rw [he, hB.of_eq (c := ⟨getD0 A.indices j, hc⟩) hin]
  have hflat : S.bs = (List.finRange n).flatMap fun i => firstOcc (rowBlocks A.indices A.indptr rb i.val) := by
    rw [hbs, ← List.map_coe_finRange_eq_range, List.flatMap_map]
  refine ⟨S, hS, ⟨fun i => ⟨_, hrow i i.isLt, firstOcc_nodup _, fun h hh => ((hmem i h).mp hh).1, fun h => ?_⟩, fun h => ?_, fun h hh => ?_⟩⟩
  · rw [hmem i h.val]
    exact ⟨fun ⟨_, h⟩ => h, fun h' => ⟨h.isLt, h'⟩⟩
  · rw [hflat, List.count_flatMap]
    unfold touchCount
    rw [← countP_finRange, ← sum_map_ite_one]
    congr 1
    refine List.map_congr_left fun i _ => ?_
    simp only [Function.comp]
    have := hmem i h.val
    by_cases ht : Touches A.indptr A.indices B.ptr i h
    · rw [List.count_eq_one_of_mem (firstOcc_nodup _) (this.mpr ⟨h.isLt, ht⟩)]
      simp [ht]
    · rw [List.count_eq_zero_of_not_mem (fun hc => ht (this.mp hc).2)]
      simp [ht]
  · rw [hflat] at hh
    obtain ⟨i, -, hi⟩ := List.mem_flatMap.mp hh
    exact ((hmem i h).mp hi).1

/-- The weight of a touched block is readable: `n / (number of samples touching it)`. -/
theorem SupportOk.weight {A : CsrMat K n p} {B : BlockMat} {hB : GoodBlocks B p} {S : Support n B.nb} (hS : SupportOk A hB S) {h : Fin B.nb}
    {i : Fin n} (ht : Touches A.indptr A.indices B.ptr i h) :
    0 < touchCount A B.ptr h ∧ rd (supWeights n S.bs : Fin (supWidth S.bs) → K) h.val = some ((n : K) / (touchCount A B.ptr h : K)) := by
  classical
  have hpos : 0 < touchCount A B.ptr h := by
    unfold touchCount
    exact Finset.card_pos.mpr ⟨i, by simp [ht]⟩
  have hin : h.val ∈ S.bs := List.count_pos_iff.mp (by rw [hS.count h]; exact hpos)
  refine ⟨hpos, ?_⟩
  rw [rd_lt _ (lt_supWidth hin)]
  unfold supWeights
  simp only [hS.count h]
  rw [if_neg hpos.ne']

end Copt
