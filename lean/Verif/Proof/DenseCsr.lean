import Mathlib.Data.List.NodupEquivFin
import Verif.Model.VRObjects
import Verif.Proof.Blocks

/-! # The CSR arrays of a dense array describe it -/

set_option linter.unusedSectionVars false

namespace Copt

open Spec

variable {n p : ℕ} {K : Type} [Field K] [DecidableEq K]

theorem denseUpTo_succ (A : Fin n → Fin p → K) (i : Fin n) : denseUpTo A (i.val + 1) = denseUpTo A i.val ++ denseRow A i := by
  unfold denseUpTo
  rw [List.take_add_one, List.flatMap_append]
  congr 1
  simp

theorem denseUpTo_prefix (A : Fin n → Fin p → K) {i j : ℕ} (h : i ≤ j) : denseUpTo A i <+: denseUpTo A j := by
  unfold denseUpTo
  have h1 := List.take_prefix_take_left (l := List.finRange n) h
  obtain ⟨t, ht⟩ := h1
  rw [← ht, List.flatMap_append]
  exact List.prefix_append _ _

/-- The positions of row `i` hold that row. -/
theorem denseUpTo_get (A : Fin n → Fin p → K) (i : Fin n) (j : Fin (denseUpTo A n).length) (h1 : (denseUpTo A i.val).length ≤ j.val)
    (h2 : j.val < (denseUpTo A (i.val + 1)).length) : ∃ h : j.val - (denseUpTo A i.val).length < (denseRow A i).length,
      (denseUpTo A n).get j = (denseRow A i)[j.val - (denseUpTo A i.val).length] := by
  have hlen : j.val - (denseUpTo A i.val).length < (denseRow A i).length := by
    rw [denseUpTo_succ, List.length_append] at h2; omega
  refine ⟨hlen, ?_⟩
  have hp := denseUpTo_prefix A (i := i.val + 1) (j := n) (by omega)
  have h3 := hp.getElem h2
  have h4 : (denseUpTo A n).get j = (denseUpTo A (i.val + 1))[j.val] := by rw [h3]; rfl
  rw [h4]
  have h5 : (denseUpTo A (i.val + 1))[j.val] = (denseUpTo A i.val ++ denseRow A i)[j.val]'(by rw [← denseUpTo_succ]; exact h2) := by
    congr 1
    exact denseUpTo_succ A i
  rw [h5, List.getElem_append_right h1]

theorem mem_denseRow {A : Fin n → Fin p → K} {i : Fin n} {e : ℕ × K} : e ∈ denseRow A i ↔ ∃ c : Fin p, A i c ≠ 0 ∧ e = (c.val, A i c) := by
  unfold denseRow
  simp only [List.mem_map, List.mem_filter, List.mem_finRange, true_and, decide_eq_true_eq]
  exact ⟨fun ⟨c, h1, h2⟩ => ⟨c, h1, h2.symm⟩, fun ⟨c, h1, h2⟩ => ⟨c, h1, h2.symm⟩⟩

theorem denseRow_nodup (A : Fin n → Fin p → K) (i : Fin n) : ((denseRow A i).map Prod.fst).Nodup := by
  unfold denseRow
  rw [List.map_map]
  refine List.Nodup.map (f := Prod.fst ∘ fun c : Fin p => (c.val, A i c)) (fun a b h => Fin.ext h) ((List.nodup_finRange p).filter _)

theorem csrOfDense_good (A : Fin n → Fin p → K) : GoodCsr p (csrOfDense A).indptr (csrOfDense A).indices := by
  refine ⟨fun i => (denseUpTo_prefix A (Nat.le_succ _)).length_le, fun i => (denseUpTo_prefix A (by omega)).length_le, fun j => ?_⟩
  have : (denseUpTo A n).get j ∈ denseUpTo A n := List.get_mem _ _
  unfold denseUpTo at this
  obtain ⟨i, -, hi⟩ := List.mem_flatMap.mp this
  obtain ⟨c, -, hc⟩ := mem_denseRow.mp hi
  show ((denseUpTo A n).get j).1 < p
  unfold denseUpTo
  rw [hc]
  exact c.isLt

theorem csrOfDense_nodup (A : Fin n → Fin p → K) : NoDuplicates (csrOfDense A).indptr (csrOfDense A).indices := by
  intro i j k hj1 hj2 hk1 hk2 he
  obtain ⟨a1, a2⟩ := denseUpTo_get A i j hj1 hj2
  obtain ⟨b1, b2⟩ := denseUpTo_get A i k hk1 hk2
  have he : ((denseUpTo A n).get j).1 = ((denseUpTo A n).get k).1 := he
  rw [a2, b2] at he
  have h := (List.Nodup.getElem_inj_iff (denseRow_nodup A i) (i := j.val - (denseUpTo A i.val).length) (j := k.val - (denseUpTo A i.val).length)
    (hi := by simpa using a1) (hj := by simpa using b1)).mp (by simpa using he)
  have hj1 : (denseUpTo A i.val).length ≤ j.val := hj1
  have hk1 : (denseUpTo A i.val).length ≤ k.val := hk1
  exact Fin.ext (by omega)

theorem csrOfDense_stores {A : Fin n → Fin p → K} {i : Fin n} {c : Fin p} : StoresAt (csrOfDense A).indptr (csrOfDense A).indices i c ↔ A i c ≠ 0 := by
  constructor
  · rintro ⟨j, h1, h2, h3⟩
    obtain ⟨a1, a2⟩ := denseUpTo_get A i j h1 h2
    have h3 : ((denseUpTo A n).get j).1 = c.val := h3
    rw [a2] at h3
    obtain ⟨c', hc, he⟩ := mem_denseRow.mp (List.getElem_mem a1)
    rw [he] at h3
    have : c' = c := Fin.ext h3
    rwa [← this]
  · intro h
    have hm : (c.val, A i c) ∈ denseRow A i := mem_denseRow.mpr ⟨c, h, rfl⟩
    obtain ⟨k, hk, he⟩ := List.getElem_of_mem hm
    have hlt : (denseUpTo A i.val).length + k < (denseUpTo A (i.val + 1)).length := by rw [denseUpTo_succ, List.length_append]; omega
    have hlt' := hlt.trans_le (denseUpTo_prefix A (i := i.val + 1) (j := n) (by omega)).length_le
    refine ⟨⟨(denseUpTo A i.val).length + k, hlt'⟩, Nat.le_add_right _ _, hlt, ?_⟩
    obtain ⟨a1, a2⟩ := denseUpTo_get A i ⟨(denseUpTo A i.val).length + k, hlt'⟩ (Nat.le_add_right _ _) hlt
    show ((denseUpTo A n).get ⟨(denseUpTo A i.val).length + k, hlt'⟩).1 = c.val
    rw [a2]
    simp [he]

theorem csrOfDense_ent (A : Fin n → Fin p → K) (i : Fin n) (c : Fin p) : (csrOfDense A).ent i c = A i c := by
  by_cases h : StoresAt (csrOfDense A).indptr (csrOfDense A).indices i c
  · obtain ⟨j, h1, h2, h3⟩ := h
    unfold CsrMat.ent csrEntry
    rw [Finset.sum_eq_single j]
    · rw [if_pos ⟨h1, h2, h3⟩]
      obtain ⟨a1, a2⟩ := denseUpTo_get A i j h1 h2
      have h3 : ((denseUpTo A n).get j).1 = c.val := h3
      show ((denseUpTo A n).get j).2 = _
      rw [a2] at h3 ⊢
      obtain ⟨c', hc, he⟩ := mem_denseRow.mp (List.getElem_mem a1)
      rw [he] at h3 ⊢
      have : c' = c := Fin.ext h3
      rw [this]
    · intro k _ hne
      rw [if_neg]
      rintro ⟨k1, k2, k3⟩
      exact hne (csrOfDense_nodup A i k j k1 k2 h1 h2 (k3.trans h3.symm))
    · intro hj; exact absurd (Finset.mem_univ _) hj
  · rw [ent_eq_zero h]
    by_contra hne
    exact h (csrOfDense_stores.mpr fun h0 => hne h0.symm)

end Copt
