import Verif.Props.VrtosMean
import Verif.Props.VrtosBias
import Verif.Props.LocalPenalties
import Verif.Props.DatasetMatrix
import Verif.Examples.Saga

/-!
Instances of the conditional theorems about variance-reduced three-operator splitting (C61 to C63, C80, C91, C112) and about loading data sets (C110): each
`example` discharges every hypothesis of one theorem on a concrete problem and reads off the conclusion.
-/

set_option linter.unusedSectionVars false

namespace Copt
open Spec

/-- The state that no step of `exVrtos 1` moves. -/
def exVrtosFixed : VrtosState ℚ 1 1 := { y1 := ![1], y2 := ![1], x1 := ![1], x2 := ![1], z := ![1], mem := ![0], avg := ![0], tmp := ![0] }

theorem exVrtosFixed_step (S1 : Support 1 (exVrtos 1).blocks1.nb) (S2 : Support 1 (exVrtos 1).blocks2.nb) (hS1 : (exVrtos 1).support1 = some S1)
    (hS2 : (exVrtos 1).support2 = some S2) (i : Fin 1) : vrtosStep (exVrtos 1) S1 S2 exVrtosFixed i = some exVrtosFixed := by
  rw [Subsingleton.elim i 0]
  have h : ((exVrtos 1).support1.bind fun S1 => (exVrtos 1).support2.bind fun S2 => (vrtosStep (exVrtos 1) S1 S2 exVrtosFixed 0).map fun s =>
      decide (s.y1 = ![1] ∧ s.y2 = ![1] ∧ s.x1 = ![1] ∧ s.x2 = ![1] ∧ s.z = ![1] ∧ s.mem = ![0] ∧ s.avg = ![0] ∧ s.tmp = ![0])) = some true := by
    decide +kernel
  rw [hS1, hS2] at h
  simp only [Option.bind_some] at h
  obtain ⟨s, hs, hd⟩ := Option.map_eq_some_iff.mp h
  rw [decide_eq_true_eq] at hd
  obtain ⟨e1, e2, e3, e4, e5, e6, e7, e8⟩ := hd
  rw [show ((0 : Fin 1).val) = 0 from rfl, hs]
  congr 1
  cases s
  simp only at e1 e2 e3 e4 e5 e6 e7 e8
  subst e1 e2 e3 e4 e5 e6 e7 e8
  rfl

theorem exVrtos_touches (c : Fin 1) : ∃ (i : Fin 1) (h : Fin (exVrtos 1).blocks1.nb), InBlock (exVrtos 1).blocks1.ptr h c ∧
    Touches (exVrtos 1).A.indptr (exVrtos 1).A.indices (exVrtos 1).blocks1.ptr i h := by
  rw [Subsingleton.elim c 0]
  exact ⟨0, (0 : Fin 1), ⟨le_refl _, Nat.lt_succ_self _⟩, 0, ⟨⟨0, by decide⟩, by decide, by decide, rfl⟩, le_refl _, Nat.lt_succ_self _⟩

theorem exVrtos_total (t : ℚ) : TotalProx (exVrtos t).blocks1.nb (exVrtos t).prox1 ∧ TotalProx (exVrtos t).blocks2.nb (exVrtos t).prox2 :=
  ⟨fun _ _ _ _ v _ _ _ _ => ⟨v, rfl⟩, fun _ _ _ _ v _ _ _ _ => ⟨v, rfl⟩⟩

/-- C63, C61: the steps on the only sample of `exVrtos 1` succeed and the stored gradient is the one of the last visit. -/
example : ∃ S1 S2 st s, (exVrtos 1).support1 = some S1 ∧ (exVrtos 1).support2 = some S2 ∧
    vrtosEpoch (exVrtos 1) S1 S2 (vrtosInit (exVrtos 1)) [0, 0, 0] = some st ∧ vrtosEpoch (exVrtos 1) S1 S2 (vrtosInit (exVrtos 1)) [0, 0] = some s ∧
    st.mem 0 = (exVrtos 1).deriv (∑ c : Fin 1, (exVrtos 1).A.ent 0 c * s.z c) ((exVrtos 1).b (0 : Fin 1)) := by
  obtain ⟨S1, hS1, -⟩ := (exVrtos_good 1).support1
  obtain ⟨S2, hS2, -⟩ := (exVrtos_good 1).support2
  obtain ⟨st, hst⟩ := C63_full_columns_partial (exVrtos 1) (exVrtos_good 1) S1 S2 hS1 hS2 (by norm_num [exVrtos]) (exVrtos_total 1).1 (exVrtos_total 1).2
    (fun c => by rw [Subsingleton.elim c 0]; exact ⟨0, ⟨0, by decide⟩, by decide, by decide, rfl⟩) [0, 0, 0] (vrtosInit (exVrtos 1)) (by simp)
  obtain ⟨-, -, -, h⟩ := C61_vrtos_memory (exVrtos 1) (exVrtos_good 1) S1 S2 hS1 hS2 _ _ hst
  obtain ⟨s, h1, h2⟩ := h 0 [0, 0] [] rfl (by simp)
  exact ⟨S1, S2, st, s, hS1, hS2, hst, h1, h2⟩

/-- C61, C62, C91: the call returns after its three epochs without success, and the average gradient is the mean of the stored ones. -/
example : ∃ r, minimizeVrtos (exVrtos 1) = .ok r ∧ r.x = r.final.z ∧ (∀ c : Fin 1, r.final.avg c = (∑ i, r.final.mem i * (exVrtos 1).A.ent i c) / (1 : ℕ)) ∧
    r.success = false ∧ r.nit = 2 ∧ minimizeVrtos { exVrtos 1 with tol := 1000 } = .ok r ∧ r.nit + 1 = 3 := by
  obtain ⟨⟨r, hr, -⟩, -⟩ := C62_refuted
  obtain ⟨h1, h2, -, -⟩ := C61_minimize_vrtos (exVrtos 1) (exVrtos_good 1) r hr
  obtain ⟨h3, h4, h5⟩ := C62_never_success (exVrtos 1) r hr
  obtain ⟨-, -, S1, S2, states, -, -, -, -, -, -, -, -, h6⟩ := C91_vrtos (exVrtos 1) r hr
  exact ⟨r, hr, h1, h2, h3, h4, h5 1000, h6⟩

/-- C61, C80: the fixed state is a minimiser of `(z - 1)²/2`. -/
example (y : Fin 1 → ℚ) : (1 - 1 : ℚ) ^ 2 / 2 ≤ (y 0 - 1) ^ 2 / 2 := by
  obtain ⟨S1, hS1, -⟩ := (exVrtos_good 1).support1
  obtain ⟨S2, hS2, -⟩ := (exVrtos_good 1).support2
  have h := C61_fixed_minimiser (exVrtos 1) (exVrtos_good 1) S1 S2 hS1 hS2 (fun _ _ => 0) (noPen _) (noProx_isBlockProx _) (fun _ _ => 0) (noPen _)
    (noProx_isBlockProx _) (by norm_num [exVrtos]) (fun t b => (t - b) ^ 2 / 2)
    (fun s t b => by show (t - b) ^ 2 / 2 + (t - b) * (s - t) ≤ _; nlinarith [sq_nonneg (s - t)]) (le_refl _)
    (fun c => ⟨exVrtos_touches c, exVrtos_touches c⟩) exVrtosFixed (fun c => by rw [Subsingleton.elim c 0]; simp [exVrtosFixed])
    (fun c => by rw [Subsingleton.elim c 0]; rfl) (exVrtosFixed_step S1 S2 hS1 hS2) y
  have e : ∀ i c : Fin 1, (exVrtos 1).A.ent i c = 1 := by
    intro i c; rw [Subsingleton.elim i 0, Subsingleton.elim c 0]; decide +kernel
  unfold finiteSum at h
  simp only [e, Fin.sum_univ_one] at h
  simpa [exVrtos, exVrtosFixed] using h

/-- C61, C80: the optimality inequality at the fixed state, by both theorems. -/
example (y : Fin 1 → ℚ) : (0 : ℚ) + 0 ≤ 0 + 0 + dot (finiteSumGrad (fun i c => (exVrtos 1).A.ent i c) (fun i => (exVrtos 1).b (i.cast (exVrtos_good 1).size))
    (exVrtos 1).deriv (exVrtos 1).alpha exVrtosFixed.z) (y - exVrtosFixed.z) := by
  obtain ⟨S1, hS1, -⟩ := (exVrtos_good 1).support1
  obtain ⟨S2, hS2, -⟩ := (exVrtos_good 1).support2
  have h := C61_fixed_optimal (exVrtos 1) (exVrtos_good 1) S1 S2 hS1 hS2 (fun _ _ => 0) (noPen _) (noProx_isBlockProx _) (fun _ _ => 0) (noPen _)
    (noProx_isBlockProx _) (by norm_num [exVrtos]) exVrtosFixed (fun c => by rw [Subsingleton.elim c 0]; simp [exVrtosFixed])
    (fun c => by rw [Subsingleton.elim c 0]; rfl) (exVrtosFixed_step S1 S2 hS1 hS2) y (fun c _ => ⟨exVrtos_touches c, exVrtos_touches c⟩)
  have h' := C80_fixed_optimal_partial (exVrtos 1) (exVrtos_good 1) S1 S2 hS1 hS2 (fun _ _ => 0) (noPen _) (noProx_isBlockProx _) (fun _ _ => 0) (noPen _)
    (noProx_isBlockProx _) (by norm_num [exVrtos]) exVrtosFixed (fun c => by rw [Subsingleton.elim c 0]; simp [exVrtosFixed])
    (fun c => by rw [Subsingleton.elim c 0]; rfl) (exVrtosFixed_step S1 S2 hS1 hS2) (fun c => Iff.rfl) y (fun c _ => Or.inl (exVrtos_touches c))
  simpa using h

/-- C63: the sample of `exVrtosBad` is not covered and the step faults. -/
example : ∃ S1 S2, exVrtosBad.support1 = some S1 ∧ exVrtosBad.support2 = some S2 ∧ vrtosStep exVrtosBad S1 S2 (vrtosInit exVrtosBad) (0 : Fin 1) = none := by
  obtain ⟨S1, hS1, hok1⟩ := exVrtosBad_good.support1
  obtain ⟨S2, hS2, hok2⟩ := exVrtosBad_good.support2
  refine ⟨S1, S2, hS1, hS2, C63_out_of_bounds exVrtosBad exVrtosBad_good S1 S2 hS1 hS2 0 ?_ _ fun _ => rfl⟩
  intro hcov
  have h : (exVrtosBad.support1.bind fun S1 => exVrtosBad.support2.bind fun S2 => some (vrtosStep exVrtosBad S1 S2 (vrtosInit exVrtosBad) 0).isNone) = some true := by
    decide +kernel
  rw [hS1, hS2] at h
  obtain ⟨st, hst⟩ := C63_in_bounds_partial exVrtosBad exVrtosBad_good S1 S2 hS1 hS2 (by norm_num [exVrtosBad]) (fun _ _ _ _ v _ _ _ _ => ⟨v, rfl⟩)
    (fun _ _ _ _ v _ _ _ _ => ⟨v, rfl⟩) [0] (vrtosInit exVrtosBad) (fun k hk => by
      obtain rfl := List.mem_singleton.mp hk
      exact ⟨by decide, hcov⟩)
  simp only [Option.bind_some, Option.some.injEq, Option.isNone_iff_eq_none] at h
  unfold vrtosEpoch at hst
  rw [List.foldlM_cons, h] at hst
  simp at hst

/-- One sample storing feature 0 of two. -/
def exVrtosTwo : VrtosArgs ℚ 1 2 :=
  { A := { nnz := 1, data := ![1], indices := ![0], indptr := ![0, 1] }, bSize := 1, b := ![1], deriv := fun t b => t - b, alpha := 0, x0 := ![0, 5],
    stepSize := 1 / 2, blocks1 := BlockMat.eye 2, blocks2 := BlockMat.eye 2, prox1 := L1Norm.sparse (1 / 4), prox2 := noProx, maxIter := 3, tol := 1 / 1000,
    order := fun _ => [0] }

theorem exVrtosTwo_good : exVrtosTwo.Good := by
  refine ⟨⟨?_, ?_, ?_⟩, ?_, goodBlocks_eye 2, goodBlocks_eye 2, rfl⟩
  · intro i; fin_cases i; simp [exVrtosTwo]
  · intro i; fin_cases i <;> simp [exVrtosTwo]
  · intro i; change Fin 1 at i; fin_cases i; simp [exVrtosTwo]
  · intro i j k _ _ _ _ h
    exact Subsingleton.elim (α := Fin 1) j k

/-- C62: the caller's entry 1, which no sample stores, is not modified; the call with a penalty returns. -/
example : ∃ r, minimizeVrtos exVrtosTwo = .ok r ∧ r.callerX0 1 = 5 ∧ r.callerX0 0 ≠ 0 := by
  have h : (match minimizeVrtos exVrtosTwo with | .ok r => decide (r.callerX0 0 ≠ 0) | _ => false) = true := by decide +kernel
  split at h
  · rename_i r hr
    refine ⟨r, hr, ?_, of_decide_eq_true h⟩
    refine C62_untouched_partial exVrtosTwo exVrtosTwo_good (C58_l1_local (1 / 4)) r hr 1 ?_
    rintro i h ⟨h1, h2⟩ ⟨c, ⟨j, -, -, h5⟩, h3, h4⟩
    have e1 : h.val = 1 := by
      have a : h.val ≤ 1 := h1
      have b : 1 < h.val + 1 := h2
      omega
    have e2 : c = 1 := by
      have a : h.val ≤ c := h3
      have b : c < h.val + 1 := h4
      omega
    subst e2
    change Fin 1 at j
    fin_cases j
    simp [exVrtosTwo] at h5
  · simp at h

/-- C91: wrong sizes and negative steps are rejected. -/
example : minimizeVrtos { exVrtos 1 with stepSize := -1 } = .error .valueError := C91_vrtos_step _ rfl (by norm_num)

example : minimizeVrtos { exVrtos 1 with bSize := 2, b := ![1, 1] } = .error .assertionError := C91_vrtos_shape _ (by decide)

/-- C112: the constants of the rate for `exVMean` are finite and the bound holds for some split of the optimality condition. -/
example : ∃ S1 S2 C, exVMean.support1 = some S1 ∧ exVMean.support2 = some S2 ∧ ∃ s : ∀ T, (Fin T → Fin 2) → VrtosState ℝ 2 2,
    (∀ T js, vrtosEpoch exVMean S1 S2 (vrtosInit exVMean) (List.ofFn fun k => (js k).val) = some (s T js)) ∧
      ∀ T, 1 / 9 * (0 + 1 / 2) * ∑ t ∈ Finset.range T, uniformMean (fun js : Fin t → Fin 2 => sqDist (s t js).z ![2, 0]) ≤ C := by
  obtain ⟨S1, hS1, -⟩ := exVMean_good.support1
  obtain ⟨S2, hS2, -⟩ := exVMean_good.support2
  obtain ⟨s1, s2, hd⟩ := exVMean_regular.dual
  obtain ⟨s, h1, h2⟩ := C112_rate exVMean exVMean_good S1 S2 hS1 hS2 _ _ _ _ _ _ _ _ s1 s2 exVMean_regular hd
  exact ⟨S1, S2, _, hS1, hS2, s, h1, h2⟩

/-! ### C110 -/

/-- C110: the two parts of the example disk. -/
example : (∃ M, dsMatrix exDecodeArr exDisk "train" = .ok (M, [1]) ∧ M.cols ≠ 2) ∧ ∃ M, dsMatrix exDecodeArr exDisk "test" = .ok (M, [0]) ∧ M.cols = 2 := by
  obtain ⟨⟨M, h1, -, -, h2⟩, ⟨M', h1', -, -, h2'⟩⟩ := C110_parts_partial exDiskHolds (by decide) (by decide)
  exact ⟨⟨M, h1, fun h => absurd (h2.mp h) (by decide)⟩, ⟨M', h1', h2'.mpr (by decide)⟩⟩

example : dsMatrix exDecodeArr exDisk "all" = .error .valueError := C110_unknown exDiskHolds "all" (by decide) (by decide) (by decide)

/-- Arrays of a disk with the train part `[[5, 3]]` and the test part `[[0, 7], [1, 2]]`. -/
def exArrays2 : List (NpArr ℚ) :=
  [.floats [5, 3], .ints [0, 1], .ints [0, 2], .floats [1], .floats [7, 1, 2], .ints [1, 0, 1], .ints [0, 1, 3], .floats [0, 1]]

def exDecodeArr2 : List UInt8 → Option (NpArr ℚ)
  | [b] => exArrays2[b.toNat]?
  | _ => none

def exTrainM2 : Fin 1 → Fin 2 → ℚ := ![![5, 3]]
def exTestM2 : Fin 2 → Fin 2 → ℚ := ![![0, 7], ![1, 2]]

def exDiskHolds2 : DiskHolds exTrainM2 exTestM2 [1] [0, 1] exDecodeArr2 exDisk where
  data := [5, 3]
  indices := [0, 1]
  indptr := [0, 2]
  data' := [7, 1, 2]
  indices' := [1, 0, 1]
  indptr' := [0, 1, 3]
  train := ⟨rfl, rfl, by decide, rfl, rfl, by decide, by decide +kernel, rfl⟩
  test := ⟨rfl, rfl, by decide, rfl, rfl, by decide, by decide +kernel, rfl⟩
  arrays := fun f => (exArrays2[((filesTrain ++ filesTest).idxOf? f).getD 0]?).getD (.floats [])
  files := by
    intro f hf
    simp only [filesTrain, filesTest, List.cons_append, List.nil_append, List.mem_cons, List.not_mem_nil, or_false] at hf
    rcases hf with rfl | rfl | rfl | rfl | rfl | rfl | rfl | rfl <;> exact ⟨_, rfl, rfl⟩
  trainArrays := rfl
  testArrays := rfl

/-- C110: the whole of that disk is the 3 by 2 matrix. -/
example : ∃ M, dsMatrix exDecodeArr2 exDisk "full" = .ok (M, [1, 0, 1]) ∧ M.rows = 3 ∧ M.cols = 2 ∧ csrVal M.data M.indices M.indptr 1 1 = 7 := by
  obtain ⟨M, h1, h2, h3, -, -, h4⟩ := C110_full_partial exDiskHolds2 (by decide) (by decide)
  exact ⟨M, h1, h2, h3, h4 0 1⟩

end Copt
