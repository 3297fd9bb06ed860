import Verif.Props.Datasets
import Verif.Model.DatasetMatrix
import Mathlib.Data.Fin.VecNotation
import Mathlib.Data.Rat.Init
import Mathlib.Algebra.Field.Rat
import Mathlib.Tactic.Linarith

/-! # C110: the matrices returned by the dataset loaders -/

set_option linter.unusedSectionVars false

namespace Copt

variable {K : Type} [Field K]

/-- Entry `(i, j)` of the matrix with the given CSR arrays. -/
def csrVal (data : List K) (indices indptr : List ℕ) (i j : ℕ) : K :=
  ((List.range' (indptr.getD i 0) (indptr.getD (i + 1) 0 - indptr.getD i 0)).map fun k => if indices.getD k 0 = j then data.getD k 0 else 0).sum

/-- The arrays store the `m x d` matrix `A` (with a bound `d` on the column indices that the arrays do not record) and the target `y`. -/
structure Stores {m d : ℕ} (A : Fin m → Fin d → K) (y : List K) (data : List K) (indices indptr : List ℕ) : Prop where
  len : indptr.length = m + 1
  start : indptr.getD 0 1 = 0
  mono : ∀ i < m, indptr.getD i 0 ≤ indptr.getD (i + 1) 0
  last : indptr.getD m 0 = indices.length
  dlen : data.length = indices.length
  col : ∀ c ∈ indices, c < d
  val : ∀ (i : Fin m) (j : Fin d), csrVal data indices indptr i j = A i j
  ylen : y.length = m

/-- `M` is the matrix `A` without its last columns, which are zero. -/
structure HasShape {m d : ℕ} (A : Fin m → Fin d → K) (M : LoadedCsr K) : Prop where
  rows : M.rows = m
  cols : M.cols ≤ d
  val : ∀ (i : Fin m) (j : Fin d), j.val < M.cols → csrVal M.data M.indices M.indptr i j = A i j
  zero : ∀ (i : Fin m) (j : Fin d), M.cols ≤ j.val → A i j = 0

theorem max_spec {l : List ℕ} (h : l ≠ []) : ∃ top, l.max? = some top ∧ top ∈ l ∧ ∀ c ∈ l, c ≤ top := by
  obtain ⟨top, ht⟩ := Option.isSome_iff_exists.mp (List.isSome_max?_of_ne_nil h)
  obtain ⟨h1, h2⟩ := List.max?_eq_some_iff.mp ht
  exact ⟨top, ht, h1, fun c hc => h2 c hc⟩

theorem Stores.last? {m d : ℕ} {A : Fin m → Fin d → K} {y data : List K} {indices indptr : List ℕ} (h : Stores A y data indices indptr) :
    indptr.getLast? = some indices.length := by
  rw [List.getLast?_eq_getElem?, h.len, Nat.add_sub_cancel]
  have := h.last
  rw [List.getD_eq_getElem?_getD] at this
  have hl := h.len
  rw [List.getElem?_eq_getElem (by omega)] at this ⊢
  rw [Option.getD_some] at this
  rw [this]

theorem Stores.le_last {m d : ℕ} {A : Fin m → Fin d → K} {y data : List K} {indices indptr : List ℕ} (h : Stores A y data indices indptr) :
    ∀ i ≤ m, indptr.getD i 0 ≤ indices.length := by
  intro i hi
  have key : ∀ j, i ≤ j → j ≤ m → indptr.getD i 0 ≤ indptr.getD j 0 := by
    intro j hij
    induction j, hij using Nat.le_induction with
    | base => intro _; exact le_rfl
    | succ j _ ih => intro hj; exact (ih (by omega)).trans (h.mono j (by omega))
  exact (key m hi le_rfl).trans h.last.le

theorem csrVal_zero {data : List K} {indices indptr : List ℕ} {i j : ℕ} (hj : j ∉ indices) (hle : indptr.getD (i + 1) 0 ≤ indices.length) :
    csrVal data indices indptr i j = 0 := by
  unfold csrVal
  apply List.sum_eq_zero
  intro v hv
  obtain ⟨k, hk, rfl⟩ := List.mem_map.mp hv
  rw [List.mem_range'_1] at hk
  rw [if_neg]
  intro h
  apply hj
  rw [← h, List.getD_eq_getElem _ _ (by omega)]
  exact List.getElem_mem _

/-- What scipy makes of stored arrays: the matrix up to the last column in which something is stored. -/
theorem csrInfer_stores {m d : ℕ} {A : Fin m → Fin d → K} {y data : List K} {indices indptr : List ℕ} (h : Stores A y data indices indptr)
    (hne : indices ≠ []) : ∃ M, csrInfer data indices indptr = .ok M ∧ HasShape A M ∧ (M.cols = d ↔ d - 1 ∈ indices) ∧
      M.data = data ∧ M.indices = indices ∧ M.indptr = indptr := by
  obtain ⟨top, ht, hmem, hle⟩ := max_spec hne
  refine ⟨⟨indptr.length - 1, top + 1, data, indices, indptr⟩, ?_, ⟨?_, ?_, ?_, ?_⟩, ?_, rfl, rfl, rfl⟩
  · unfold csrInfer
    rw [ht, h.last?]
    simp only
    rw [if_pos]
    refine ⟨?_, h.dlen, le_rfl⟩
    have := h.start
    have hl := h.len
    cases hp : indptr with
    | nil => rw [hp] at hl; simp at hl
    | cons a l => rw [hp] at this; simpa using this
  · show indptr.length - 1 = m
    rw [h.len]; rfl
  · exact h.col top hmem
  · exact fun i j _ => h.val i j
  · intro i j hj
    rw [← h.val i j]
    refine csrVal_zero (fun hc => ?_) (h.le_last _ i.isLt)
    have := hle _ hc
    simp only at hj
    omega
  · have hd := h.col top hmem
    constructor
    · intro he
      simp only at he
      rw [← he, Nat.add_sub_cancel]; exact hmem
    · intro hc
      have := hle _ hc
      simp only
      omega

theorem getD_append_le {α : Type} (l l' : List α) (k : ℕ) (x : α) (h : l.length ≤ k) : (l ++ l').getD k x = l'.getD (k - l.length) x :=
  List.getD_append_right l l' x k h

/-- `vstack` puts the rows of the second matrix below those of the first. -/
theorem csrStack_val {m d m' d' : ℕ} {A : Fin m → Fin d → K} {y data : List K} {indices indptr : List ℕ} (h : Stores A y data indices indptr)
    {B : Fin m' → Fin d' → K} {y' data' : List K} {indices' indptr' : List ℕ} (h' : Stores B y' data' indices' indptr') :
    (∀ i < m, ∀ j, csrVal (data ++ data') (indices ++ indices') (indptr ++ indptr'.tail.map (· + indices.length)) i j = csrVal data indices indptr i j) ∧
    (∀ i < m', ∀ j, csrVal (data ++ data') (indices ++ indices') (indptr ++ indptr'.tail.map (· + indices.length)) (m + i) j =
      csrVal data' indices' indptr' i j) := by
  have hl := h.len
  have hl' := h'.len
  have e1 : ∀ i ≤ m, (indptr ++ indptr'.tail.map (· + indices.length)).getD i 0 = indptr.getD i 0 := fun i hi =>
    List.getD_append _ _ _ _ (by omega)
  have e2 : ∀ i ≤ m', (indptr ++ indptr'.tail.map (· + indices.length)).getD (m + i) 0 = indptr'.getD i 0 + indices.length := by
    intro i hi
    rcases Nat.eq_zero_or_pos i with rfl | hpos
    · rw [Nat.add_zero, e1 m le_rfl, h.last]
      have := h'.start
      rw [List.getD_eq_getElem _ _ (by omega)] at this
      rw [List.getD_eq_getElem _ _ (by omega), this, Nat.zero_add]
    · rw [getD_append_le _ _ _ _ (by omega), hl, show m + i - (m + 1) = i - 1 by omega,
        List.getD_eq_getElem _ _ (by rw [List.length_map, List.length_tail]; omega), List.getD_eq_getElem _ _ (by omega), List.getElem_map,
        List.getElem_tail]
      congr 2
      omega
  constructor
  · intro i hi j
    unfold csrVal
    rw [e1 i hi.le, e1 (i + 1) hi]
    refine congrArg List.sum (List.map_congr_left fun k hk => ?_)
    rw [List.mem_range'_1] at hk
    have := h.le_last (i + 1) hi
    rw [List.getD_append _ _ _ _ (by omega), List.getD_append _ _ _ _ (by rw [h.dlen]; omega)]
  · intro i hi j
    unfold csrVal
    rw [e2 i hi.le, show m + i + 1 = m + (i + 1) from rfl, e2 (i + 1) hi, Nat.add_sub_add_right, Nat.add_comm (indptr'.getD i 0),
      ← List.map_add_range', List.map_map]
    refine congrArg List.sum (List.map_congr_left fun k hk => ?_)
    simp only [Function.comp]
    rw [getD_append_le _ _ _ _ (by omega), getD_append_le _ _ _ _ (by rw [h.dlen]; omega), h.dlen, Nat.add_sub_cancel_left]

/-- The eight files on disk hold a train part and a test part. -/
structure DiskHolds {m d m' : ℕ} (A : Fin m → Fin d → K) (B : Fin m' → Fin d → K) (y y' : List K) (decode : List UInt8 → Option (NpArr K)) (fs : DsFs) where
  data : List K
  indices : List ℕ
  indptr : List ℕ
  data' : List K
  indices' : List ℕ
  indptr' : List ℕ
  train : Stores A y data indices indptr
  test : Stores B y' data' indices' indptr'
  arrays : String → NpArr K
  files : ∀ f ∈ filesTrain ++ filesTest, ∃ bytes, fs.files f = some bytes ∧ decode bytes = some (arrays f)
  trainArrays : filesTrain.map arrays = [.floats data, .ints indices, .ints indptr, .floats y]
  testArrays : filesTest.map arrays = [.floats data', .ints indices', .ints indptr', .floats y']

variable {m d m' : ℕ} {A : Fin m → Fin d → K} {B : Fin m' → Fin d → K} {y y' : List K} {decode : List UInt8 → Option (NpArr K)} {fs : DsFs}

theorem DiskHolds.reads (D : DiskHolds A B y y' decode fs) :
    dsRead decode fs filesTrain = .ok [.floats D.data, .ints D.indices, .ints D.indptr, .floats y] ∧
      dsRead decode fs filesTest = .ok [.floats D.data', .ints D.indices', .ints D.indptr', .floats y'] := by
  constructor
  · rw [dsRead_ok filesTrain fun f hf => D.files f (List.mem_append_left _ hf), D.trainArrays]
  · rw [dsRead_ok filesTest fun f hf => D.files f (List.mem_append_right _ hf), D.testArrays]

/-- **C110 (partial), `subset='train'` and `subset='test'`.** The returned matrix has one row per sample and the stored entries; columns after the last
one in which something is stored are missing, so that the number of columns is the number of features exactly when the last feature is stored in some
row.  Missing, and false (`C110_refuted_shape`): the shape `(n_samples, n_features)` for all data. -/
theorem C110_parts_partial (D : DiskHolds A B y y' decode fs) (h1 : D.indices ≠ []) (h2 : D.indices' ≠ []) :
    (∃ M, dsMatrix decode fs "train" = .ok (M, y) ∧ HasShape A M ∧ y.length = m ∧ (M.cols = d ↔ d - 1 ∈ D.indices)) ∧
      ∃ M, dsMatrix decode fs "test" = .ok (M, y') ∧ HasShape B M ∧ y'.length = m' ∧ (M.cols = d ↔ d - 1 ∈ D.indices') := by
  obtain ⟨M, e1, s1, c1, -⟩ := csrInfer_stores D.train h1
  obtain ⟨M', e2, s2, c2, -⟩ := csrInfer_stores D.test h2
  constructor
  · refine ⟨M, ?_, s1, D.train.ylen, c1⟩
    unfold dsMatrix
    rw [D.reads.1]
    simp only [bind, Except.bind, csrPart, e1, pure, Except.pure]
    rfl
  · refine ⟨M', ?_, s2, D.test.ylen, c2⟩
    unfold dsMatrix
    rw [D.reads.1, D.reads.2]
    simp only [bind, Except.bind, csrPart, e1, e2, pure, Except.pure]
    rfl

/-- **C110 (partial), `subset='full'`.** When both parts store something in the last feature, the result has all samples, first those of the train part,
with all features, and the targets in the same order. Missing, and false (`C110_refuted_full`): the same for parts that end in different features. -/
theorem C110_full_partial (D : DiskHolds A B y y' decode fs) (h1 : d - 1 ∈ D.indices) (h2 : d - 1 ∈ D.indices') :
    ∃ M, dsMatrix decode fs "full" = .ok (M, y ++ y') ∧ M.rows = m + m' ∧ M.cols = d ∧ (y ++ y').length = m + m' ∧
      (∀ (i : Fin m) (j : Fin d), csrVal M.data M.indices M.indptr i j = A i j) ∧
      ∀ (i : Fin m') (j : Fin d), csrVal M.data M.indices M.indptr (m + i) j = B i j := by
  obtain ⟨M, e1, s1, c1, a1, a2, a3⟩ := csrInfer_stores D.train (List.ne_nil_of_mem h1)
  obtain ⟨M', e2, s2, c2, b1, b2, b3⟩ := csrInfer_stores D.test (List.ne_nil_of_mem h2)
  have hc : M.cols = M'.cols := (c1.mpr h1).trans (c2.mpr h2).symm
  have hlast : M.indptr.getLast?.getD 0 = D.indices.length := by rw [a3, D.train.last?]; rfl
  have htake1 : M.data.take D.indices.length = D.data := by rw [a1, ← D.train.dlen, List.take_length]
  have htake2 : M.indices.take D.indices.length = D.indices := by rw [a2, List.take_length]
  obtain ⟨v1, v2⟩ := csrStack_val D.train D.test
  refine ⟨⟨M.rows + M'.rows, M.cols, D.data ++ D.data', D.indices ++ D.indices', D.indptr ++ D.indptr'.tail.map (· + D.indices.length)⟩, ?_, ?_, ?_, ?_,
    ?_, ?_⟩
  · unfold dsMatrix
    rw [D.reads.1, D.reads.2]
    simp only [bind, Except.bind, csrPart, e1, e2, pure, Except.pure]
    unfold csrStack
    rw [if_pos hc, hlast, htake1, htake2, a3, b1, b2, b3]
    rfl
  · show M.rows + M'.rows = m + m'
    rw [s1.rows, s2.rows]
  · exact c1.mpr h1
  · rw [List.length_append, D.train.ylen, D.test.ylen]
  · intro i j
    exact (v1 i i.isLt j).trans (D.train.val i j)
  · intro i j
    exact (v2 i i.isLt j).trans (D.test.val i j)

/-- **C110, error branch.** A subset that is not one of the three is refused with ValueError, after reading both parts. -/
theorem C110_unknown (D : DiskHolds A B y y' decode fs) (subset : String) (h1 : subset ≠ "train") (h2 : subset ≠ "test") (h3 : subset ≠ "full") :
    dsMatrix decode fs subset = .error .valueError := by
  unfold dsMatrix
  rw [D.reads.1, D.reads.2]
  simp only [bind, Except.bind, csrPart, pure, Except.pure]
  have hI : ∀ (a : List K) (b c : List ℕ), (∃ M, csrInfer a b c = .ok M) ∨ csrInfer a b c = .error .valueError := by
    intro a b c
    unfold csrInfer
    split
    · split
      · exact Or.inl ⟨_, rfl⟩
      · exact Or.inr rfl
    · exact Or.inr rfl
  rcases hI D.data D.indices D.indptr with ⟨M, e1⟩ | e1
  · rcases hI D.data' D.indices' D.indptr' with ⟨M', e2⟩ | e2
    · simp only [e1, e2, if_neg h1, if_neg h2, if_neg h3]
    · simp only [e1, e2, if_neg h1]
  · simp only [e1]

/-- **C110 is false for `subset='full'`.** Whenever the two parts end in different features, `vstack` raises ValueError, although both are matrices with
the same features. -/
theorem C110_full_error (D : DiskHolds A B y y' decode fs) (c c' : ℕ) (h1 : D.indices.max? = some c) (h2 : D.indices'.max? = some c') (hne : c ≠ c') :
    dsMatrix decode fs "full" = .error .valueError := by
  have hI : ∀ {m d : ℕ} {A : Fin m → Fin d → K} {y data : List K} {indices indptr : List ℕ} {c : ℕ}, Stores A y data indices indptr → indices.max? = some c →
      ∃ M, csrInfer data indices indptr = .ok M ∧ M.cols = c + 1 := by
    intro m d A y data indices indptr c h hc
    obtain ⟨M, e, -⟩ := csrInfer_stores h (by rintro rfl; simp at hc)
    refine ⟨M, e, ?_⟩
    unfold csrInfer at e
    rw [hc, h.last?] at e
    simp only at e
    split at e
    · rw [← Except.ok.inj e]
    · simp at e
  obtain ⟨M, e1, c1⟩ := hI D.train h1
  obtain ⟨M', e2, c2⟩ := hI D.test h2
  unfold dsMatrix
  rw [D.reads.1, D.reads.2]
  simp only [bind, Except.bind, csrPart, e1, e2, pure, Except.pure]
  have hs : csrStack M M' = .error .valueError := by
    unfold csrStack
    rw [if_neg (by rw [c1, c2]; omega)]
  rw [hs]
  rfl

/-! ### A disk with a train part `[[5, 0]]` and a test part `[[0, 7]]` -/

/-- Contents of the files, one byte naming each array. -/
def exDisk : DsFs := ⟨true, fun f => ((filesTrain ++ filesTest).idxOf? f).map fun k => [UInt8.ofNat k]⟩

def exArrays : List (NpArr ℚ) :=
  [.floats [5], .ints [0], .ints [0, 1], .floats [1], .floats [7], .ints [1], .ints [0, 1], .floats [0]]

def exDecodeArr : List UInt8 → Option (NpArr ℚ)
  | [b] => exArrays[b.toNat]?
  | _ => none

def exTrainM : Fin 1 → Fin 2 → ℚ := ![![5, 0]]
def exTestM : Fin 1 → Fin 2 → ℚ := ![![0, 7]]

/-- The hypotheses of the theorems above are met. -/
def exDiskHolds : DiskHolds exTrainM exTestM [1] [0] exDecodeArr exDisk where
  data := [5]
  indices := [0]
  indptr := [0, 1]
  data' := [7]
  indices' := [1]
  indptr' := [0, 1]
  train := ⟨rfl, rfl, by decide, rfl, rfl, by decide, by decide +kernel, rfl⟩
  test := ⟨rfl, rfl, by decide, rfl, rfl, by decide, by decide +kernel, rfl⟩
  arrays := fun f => (exArrays[((filesTrain ++ filesTest).idxOf? f).getD 0]?).getD (.floats [])
  files := by
    intro f hf
    simp only [filesTrain, filesTest, List.cons_append, List.nil_append, List.mem_cons, List.not_mem_nil, or_false] at hf
    rcases hf with rfl | rfl | rfl | rfl | rfl | rfl | rfl | rfl <;> exact ⟨_, rfl, rfl⟩
  trainArrays := rfl
  testArrays := rfl

/-- **C110 is false: shape.** The train part `[[5, 0]]` with two features is returned with one column. -/
theorem C110_refuted_shape : ∃ M, dsMatrix exDecodeArr exDisk "train" = .ok (M, [1]) ∧ M.cols = 1 ∧ M.rows = 1 := ⟨_, rfl, rfl, rfl⟩

/-- **C110 is false: full.** With the default `subset='full'` that dataset cannot be loaded. -/
theorem C110_refuted_full : dsMatrix exDecodeArr exDisk "full" = .error .valueError :=
  C110_full_error exDiskHolds 0 1 rfl rfl (by decide)

/-! ### Labels -/

/-- **C110 (labels).** The relabelling of `load_url` and `load_kdd12` maps labels -1, 1 to 0, 1 and leaves labels 0, 1 alone. -/
theorem C110_labels (y : ℤ) : (y = -1 → relabel y = 0) ∧ (y = 1 → relabel y = 1) ∧ (y = 0 → relabel y = 0) ∧
    (y ∈ ({-1, 0, 1} : Set ℤ) → relabel (relabel y) = relabel y) := by
  unfold relabel
  refine ⟨by rintro rfl; rfl, by rintro rfl; rfl, by rintro rfl; rfl, ?_⟩
  rintro (rfl | rfl | rfl) <;> rfl

end Copt
