import Verif.Model.Datasets
import Mathlib.Data.List.Nodup
import Mathlib.Tactic.Linarith

/-! # Dataset loading: interruptions and checksums -/

set_option linter.unusedSectionVars false

namespace Copt

/-! ### C69 -/

theorem dsRun_append (tf : Bool) (es es' : List DsEv) (fs fs' : DsFs) (h : dsRun tf es fs = (fs', none)) :
    dsRun tf (es ++ es') fs = dsRun tf es' fs' := by
  induction es generalizing fs with
  | nil => simp only [dsRun, Prod.mk.injEq, and_true] at h; rw [← h]; rfl
  | cons e es ih =>
    simp only [List.cons_append, dsRun] at h ⊢
    cases he : dsExec tf fs e with
    | error err => rw [he] at h; simp at h
    | ok fs1 =>
      rw [he] at h
      exact ih fs1 h

theorem dsRun_bytes (tf : Bool) (f : String) (bytes : List UInt8) : ∀ (fs : DsFs) (old : List UInt8), fs.files f = some old →
    ∃ fs', dsRun tf (bytes.map (DsEv.append f)) fs = (fs', none) ∧ fs'.dir = fs.dir ∧ fs'.files f = some (old ++ bytes) ∧
      ∀ g, g ≠ f → fs'.files g = fs.files g := by
  induction bytes with
  | nil => intro fs old h; exact ⟨fs, rfl, rfl, by simpa using h, fun _ _ => rfl⟩
  | cons b bytes ih =>
    intro fs old h
    obtain ⟨fs', h1, h2, h3, h4⟩ := ih { fs with files := Function.update fs.files f ((fs.files f).map (· ++ [b])) } (old ++ [b]) (by simp [h])
    refine ⟨fs', h1, h2, by rw [h3]; simp, fun g hg => ?_⟩
    rw [h4 g hg]
    exact Function.update_of_ne hg _ _

/-- Extraction into an existing directory: every member gets its bytes, other files are untouched. -/
theorem dsRun_extract (tf : Bool) (arch : DsArchive) (hnd : (arch.map Prod.fst).Nodup) : ∀ fs : DsFs, fs.dir = true →
    ∃ fs', dsRun tf (arch.flatMap fun m => DsEv.create m.1 :: m.2.map (DsEv.append m.1)) fs = (fs', none) ∧ fs'.dir = true ∧
      (∀ m ∈ arch, fs'.files m.1 = some m.2) ∧ ∀ g, g ∉ arch.map Prod.fst → fs'.files g = fs.files g := by
  induction arch with
  | nil => intro fs h; exact ⟨fs, rfl, h, by simp, fun _ _ => rfl⟩
  | cons m arch ih =>
    intro fs h
    obtain ⟨hm, hnd'⟩ := List.nodup_cons.mp hnd
    obtain ⟨fs1, h1, h2, h3, h4⟩ := dsRun_bytes tf m.1 m.2 { fs with files := Function.update fs.files m.1 (some []) } [] (by simp)
    obtain ⟨fs2, k1, k2, k3, k4⟩ := ih hnd' fs1 (h2.trans h)
    refine ⟨fs2, ?_, k2, ?_, ?_⟩
    · rw [List.flatMap_cons, dsRun_append tf _ _ fs fs1, k1]
      simp only [dsRun, dsExec, h, if_true]
      rw [h] at h1
      exact h1
    · intro q hq
      rcases List.mem_cons.mp hq with rfl | hq
      · rw [k4 _ hm, h3]; rfl
      · exact k3 q hq
    · intro g hg
      simp only [List.map_cons, List.mem_cons, not_or] at hg
      rw [k4 g hg.2, h4 g hg.1]
      exact Function.update_of_ne hg.1 _ _

/-- `arrays` are the decoded contents of the eight files of the archive. -/
def ArchiveHolds {α : Type} (arch : DsArchive) (decode : List UInt8 → Option α) (arrays : String → α) : Prop :=
  (arch.map Prod.fst).Nodup ∧ ∀ f ∈ filesTrain ++ filesTest, ∃ bytes, (f, bytes) ∈ arch ∧ decode bytes = some (arrays f)

/-- The complete data of a subset. -/
def subsetFiles : String → Option (List String)
  | "train" => some filesTrain
  | "test" => some filesTest
  | "full" => some (filesTrain ++ filesTest)
  | _ => none

theorem dsRead_ok {α : Type} {decode : List UInt8 → Option α} {arrays : String → α} {fs : DsFs} : ∀ (names : List String),
    (∀ f ∈ names, ∃ bytes, fs.files f = some bytes ∧ decode bytes = some (arrays f)) → dsRead decode fs names = .ok (names.map arrays) := by
  intro names
  unfold dsRead
  induction names with
  | nil => intro _; rfl
  | cons f names ih =>
    intro h
    obtain ⟨bytes, h1, h2⟩ := h f (by simp)
    rw [List.mapM_cons, ih fun g hg => h g (by simp [hg])]
    simp only [h1, h2]
    rfl

theorem dsResult_ok {α : Type} {decode : List UInt8 → Option α} {arrays : String → α} {fs : DsFs} {subset : String} {names : List String}
    (hs : subsetFiles subset = some names) (h : ∀ f ∈ filesTrain ++ filesTest, ∃ bytes, fs.files f = some bytes ∧ decode bytes = some (arrays f)) :
    dsResult decode fs subset = .ok (names.map arrays) := by
  unfold dsResult
  rw [dsRead_ok filesTrain fun f hf => h f (List.mem_append_left _ hf), dsRead_ok filesTest fun f hf => h f (List.mem_append_right _ hf)]
  simp only [bind, Except.bind, pure, Except.pure]
  unfold subsetFiles at hs
  split at hs
  · simp only [Option.some.injEq] at hs; subst hs; simp
  · simp only [Option.some.injEq] at hs; subst hs; simp
  · simp only [Option.some.injEq] at hs; subst hs; simp
  · simp at hs

/-- **C69 (no network).** A call that finds the train files present uses neither the network nor writes to the disk, whatever the outcome. -/
theorem C69_present {α : Type} (tf : Bool) (arch : DsArchive) (decode : List UInt8 → Option α) (subset : String) (fs : DsFs)
    (h : ∀ f ∈ filesTrain, (fs.files f).isSome) :
    (loadDataset tf arch decode subset fs).1 = fs ∧ (loadDataset tf arch decode subset fs).2.2 = false ∧ ∀ k, crashDataset tf arch k fs = fs := by
  have hp : dsPresent fs = true := by unfold dsPresent; rw [List.all_eq_true]; exact h
  unfold loadDataset crashDataset
  rw [if_pos hp]
  exact ⟨rfl, rfl, fun k => by rw [if_pos hp]⟩

/-- C69, recovery: whatever a history of interrupted calls left on the disk, if a train file is still missing and the directory does not exist or
tensorflow's `gfile` is in use, the next uninterrupted call returns the complete data, and all calls after it return it too without using the network.
Missing with respect to the full claim, and false: an existing directory without tensorflow (`C69_refuted_mkdir`), and disks on which all train
files exist but are truncated, or test files are missing (`C69_refuted_truncated`, `C69_refuted_test`). -/
theorem C69_recovers_partial {α : Type} (tf : Bool) (arch : DsArchive) (decode : List UInt8 → Option α) (arrays : String → α)
    (ha : ArchiveHolds arch decode arrays) (fs : DsFs) (hmiss : ∃ f ∈ filesTrain, fs.files f = none) (hdir : tf = true ∨ fs.dir = false)
    (subset : String) (names : List String) (hs : subsetFiles subset = some names) :
    ∃ fs', loadDataset tf arch decode subset fs = (fs', .ok (names.map arrays), true) ∧
      ∀ subset' names', subsetFiles subset' = some names' → loadDataset tf arch decode subset' fs' = (fs', .ok (names'.map arrays), false) := by
  have hp : dsPresent fs = false := by
    unfold dsPresent
    rw [Bool.eq_false_iff, Ne, List.all_eq_true]
    intro hall
    obtain ⟨f, hf, hn⟩ := hmiss
    have := hall f hf
    rw [hn] at this; simp at this
  obtain ⟨fs', h1, -, h3, -⟩ := dsRun_extract tf arch ha.1 { fs with dir := true } rfl
  have hmk : dsExec tf fs .mkdir = .ok { fs with dir := true } := by
    unfold dsExec
    rw [if_neg]
    rcases hdir with h | h <;> simp [h]
  have hrun : dsRun tf (dsEvents arch) fs = (fs', none) := by
    unfold dsEvents
    simp only [dsRun, hmk]
    exact h1
  have hfiles : ∀ f ∈ filesTrain ++ filesTest, ∃ bytes, fs'.files f = some bytes ∧ decode bytes = some (arrays f) := by
    intro f hf
    obtain ⟨bytes, hb, hd⟩ := ha.2 f hf
    exact ⟨bytes, h3 _ hb, hd⟩
  have hp' : dsPresent fs' = true := by
    unfold dsPresent
    rw [List.all_eq_true]
    intro f hf
    obtain ⟨bytes, hb, -⟩ := hfiles f (List.mem_append_left _ hf)
    rw [hb]; rfl
  refine ⟨fs', ?_, fun subset' names' hs' => ?_⟩
  · unfold loadDataset
    rw [if_neg (by simp [hp]), hrun]
    simp only [dsResult_ok hs hfiles]
  · unfold loadDataset
    rw [if_pos hp', dsResult_ok hs' hfiles]

/-- An empty disk. -/
def emptyFs : DsFs := { dir := false, files := fun _ => none }

/-- C69 fails without tensorflow: for every archive, a call interrupted right after creating the directory makes every later call raise
FileExistsError, interrupted ones changing nothing either. -/
theorem C69_refuted_mkdir {α : Type} (arch : DsArchive) (decode : List UInt8 → Option α) (subset : String) :
    ∃ fs, crashDataset false arch 1 emptyFs = fs ∧ loadDataset false arch decode subset fs = (fs, .error .fileExistsError, false) ∧
      ∀ k, crashDataset false arch k fs = fs := by
  refine ⟨{ emptyFs with dir := true }, rfl, rfl, fun k => ?_⟩
  unfold crashDataset
  rw [if_neg (by decide)]
  cases k with
  | zero => rfl
  | succ k => rfl

/-- Eight files of one byte each. -/
def exArchive : DsArchive := (filesTrain ++ filesTest).map fun f => (f, [7])

/-- Decoding of a one-byte file. -/
def exDecode : List UInt8 → Option UInt8
  | [b] => some b
  | _ => none

theorem exArchive_holds : ArchiveHolds exArchive exDecode (fun _ => 7) := by
  constructor
  · decide
  · intro f hf
    exact ⟨[7], List.mem_map.mpr ⟨f, hf, rfl⟩, rfl⟩

/-- The hypotheses of `C69_recovers_partial` after a call interrupted while the second file was being written (with tensorflow). -/
example : (∃ f ∈ filesTrain, (crashDataset true exArchive 5 emptyFs).files f = none) ∧ subsetFiles "full" = some (filesTrain ++ filesTest) :=
  ⟨⟨"y_train.npy", by decide, by decide⟩, rfl⟩

/-- C69 fails with every backend: interrupted after creating `y_train.npy`, before its bytes are written, every later call raises ValueError and
leaves the truncated file in place. -/
theorem C69_refuted_truncated (tf : Bool) (subset : String) : ∃ fs, crashDataset tf exArchive 9 emptyFs = fs ∧
    loadDataset tf exArchive exDecode subset fs = (fs, .error .valueError, false) ∧ ∀ k, crashDataset tf exArchive k fs = fs := by
  refine ⟨_, rfl, ?_, ?_⟩
  · have hp : dsPresent (crashDataset tf exArchive 9 emptyFs) = true := by cases tf <;> decide
    unfold loadDataset
    rw [if_pos hp]
    have : dsRead exDecode (crashDataset tf exArchive 9 emptyFs) filesTrain = .error .valueError := by cases tf <;> decide
    unfold dsResult
    rw [this]; rfl
  · exact (C69_present tf exArchive exDecode subset _ (by cases tf <;> decide)).2.2

/-- C69 fails with every backend: interrupted between the train files and the test files, every later call for the test or full data raises
FileNotFoundError. -/
theorem C69_refuted_test (tf : Bool) (subset : String) (hs : subset ≠ "train") : ∃ fs, crashDataset tf exArchive 10 emptyFs = fs ∧
    loadDataset tf exArchive exDecode subset fs = (fs, .error .fileNotFoundError, false) ∧ ∀ k, crashDataset tf exArchive k fs = fs := by
  refine ⟨_, rfl, ?_, ?_⟩
  · have hp : dsPresent (crashDataset tf exArchive 10 emptyFs) = true := by cases tf <;> decide
    unfold loadDataset
    rw [if_pos hp]
    have h1 : dsRead exDecode (crashDataset tf exArchive 10 emptyFs) filesTrain = .ok [7, 7, 7, 7] := by cases tf <;> decide
    have h2 : dsRead exDecode (crashDataset tf exArchive 10 emptyFs) filesTest = .error .fileNotFoundError := by cases tf <;> decide
    unfold dsResult
    rw [h1, h2]
    simp only [bind, Except.bind, if_neg hs]
  · exact (C69_present tf exArchive exDecode subset _ (by cases tf <;> decide)).2.2

/-! ### C70 -/

section Md5
variable {Bytes Data : Type}

/-- `x` is the content of an archive of dataset `d` with the right checksum. -/
def Verified (E : DsEnv Bytes Data) (d : DsName) (x : Data) : Prop := ∃ bytes, E.md5ok d bytes = true ∧ E.parse d bytes = some x

/-- Everything saved on the disk comes from archives with the right checksum. -/
def CacheVerified (E : DsEnv Bytes Data) (s : DsState Bytes Data) : Prop := ∀ d x, s.npy d = some x → Verified E d x

/-- **C70 for `load_kdd10`.** Whatever is cached and whatever is downloaded, a call with `md5_check=True` that returns, returns a dataset
with a matching checksum. -/
theorem C70_kdd10 (E : DsEnv Bytes Data) (k : ℕ) (s : DsState Bytes Data) (x : Data) (h : (loadKdd10 E k true s).1 = .ok x) : Verified E .kdd10 x := by
  induction k generalizing s with
  | zero => simp [loadKdd10] at h
  | succ k ih =>
    unfold loadKdd10 at h
    simp only at h
    split at h
    · simp at h
    next bytes hb =>
    split at h
    · exact ih _ h
    next hm =>
    split at h
    · simp at h
    next y hy =>
    simp only [Except.ok.injEq] at h
    subst h
    exact ⟨bytes, by simpa using hm, hy⟩

theorem dsUnpack_verified {E : DsEnv Bytes Data} {d : DsName} {bytes : Bytes} {s : DsState Bytes Data} (hm : E.md5ok d bytes = true)
    (hs : CacheVerified E s) : CacheVerified E (dsUnpack E d bytes s).2 ∧ ∀ x, (dsUnpack E d bytes s).1 = .ok x → Verified E d x := by
  unfold dsUnpack
  split
  · exact ⟨hs, fun x h => by simp at h⟩
  next x hx =>
    refine ⟨fun d' y hy => ?_, fun y hy => ?_⟩
    · by_cases hd : d' = d
      · subst hd
        simp only [Function.update_self, Option.some.injEq] at hy
        subst hy
        exact ⟨bytes, hm, hx⟩
      · simp only [Function.update_of_ne hd] at hy
        exact hs d' y hy
    · simp only [Except.ok.injEq] at hy
      subst hy
      exact ⟨bytes, hm, hx⟩

theorem dsCached_verified {E : DsEnv Bytes Data} {d : DsName} {s : DsState Bytes Data} (hs : CacheVerified E s) :
    CacheVerified E (dsCached d s).2 ∧ ∀ x, (dsCached d s).1 = .ok x → Verified E d x := by
  unfold dsCached
  split
  · exact ⟨hs, fun x h => by simp at h⟩
  next x hx => exact ⟨hs, fun y hy => by simp only [Except.ok.injEq] at hy; subst hy; exact hs d x hx⟩

theorem loadUrl_verified (E : DsEnv Bytes Data) (k : ℕ) (s : DsState Bytes Data) (hs : CacheVerified E s) :
    CacheVerified E (loadUrl E k true s).2 ∧ ∀ x, (loadUrl E k true s).1 = .ok x → Verified E .url x := by
  induction k generalizing s with
  | zero => exact ⟨hs, fun x h => by simp [loadUrl] at h⟩
  | succ k ih =>
    unfold loadUrl
    split
    · exact dsCached_verified hs
    · simp only
      split
      · exact ih _ hs
      next hm => exact dsUnpack_verified (by simpa using hm) hs

theorem loadCriteo_verified (E : DsEnv Bytes Data) (k : ℕ) (s : DsState Bytes Data) (hs : CacheVerified E s) :
    CacheVerified E (loadCriteo E k true s).2 ∧ ∀ x, (loadCriteo E k true s).1 = .ok x → Verified E .criteo x := by
  induction k generalizing s with
  | zero => exact ⟨hs, fun x h => by simp [loadCriteo] at h⟩
  | succ k ih =>
    unfold loadCriteo
    split
    · exact dsCached_verified hs
    · simp only
      split
      · exact ⟨hs, fun x h => by simp at h⟩
      split
      · exact ih _ hs
      next hm => exact dsUnpack_verified (by simpa using hm) hs

theorem loadKdd10_cache (E : DsEnv Bytes Data) (k : ℕ) (s : DsState Bytes Data) (hs : CacheVerified E s) : CacheVerified E (loadKdd10 E k true s).2 := by
  induction k generalizing s with
  | zero => exact hs
  | succ k ih =>
    unfold loadKdd10
    simp only
    have hs' : CacheVerified E (match s.archive .kdd10 with | some _ => s | none => dsFetch E .kdd10 s) := by
      split <;> exact hs
    split
    · exact hs'
    · split
      · exact ih _ hs'
      · split <;> exact hs'

/-- States that histories of calls with `md5_check=True` can reach from a disk without any cached arrays (possibly with archives on it). -/
inductive DsHistory (E : DsEnv Bytes Data) : DsState Bytes Data → Prop
  | start (s) : (∀ d, s.npy d = none) → DsHistory E s
  | call {s} (d : DsName) (k : ℕ) : DsHistory E s → DsHistory E (loadDs E d k true s).2

/-- C70 over all histories of calls with `md5_check=True`, for all sequences of corrupted or good downloads: what `load_url`, `load_kdd10` and
`load_criteo` return has a matching checksum, and what `load_kdd12` returns is a verified dataset too -- but possibly that of
`load_url`.  Missing: `load_kdd12` returning the requested dataset (`C70_refuted_kdd12`), caches filled with `md5_check=False`
(`C70_refuted_cached`), and the retry of `load_criteo` (`C70_refuted_criteo`). -/
theorem C70_history_partial (E : DsEnv Bytes Data) (s : DsState Bytes Data) (h : DsHistory E s) (d : DsName) (k : ℕ) (x : Data)
    (hx : (loadDs E d k true s).1 = .ok x) : Verified E d x ∨ d = .kdd12 ∧ Verified E .url x := by
  have h12 : ∀ k s, CacheVerified E s → CacheVerified E (loadKdd12 E k true s).2 ∧
      ∀ x, (loadKdd12 E k true s).1 = .ok x → Verified E .kdd12 x ∨ Verified E .url x := by
    intro k s hs
    cases k with
    | zero => exact ⟨hs, fun x h => by simp [loadKdd12] at h⟩
    | succ k =>
      rw [loadKdd12]
      split
      · exact ⟨(dsCached_verified hs).1, fun x hx => Or.inl ((dsCached_verified hs).2 x hx)⟩
      · simp only
        split
        · have := loadUrl_verified E k (dsRemove .kdd12 (dsFetch E .kdd12 s)) hs
          exact ⟨this.1, fun x hx => Or.inr (this.2 x hx)⟩
        next hm =>
          have := dsUnpack_verified (E := E) (d := .kdd12) (s := dsFetch E .kdd12 s) (by simpa using hm) hs
          exact ⟨this.1, fun x hx => Or.inl (this.2 x hx)⟩
  have hs : CacheVerified E s := by
    clear hx
    induction h with
    | start s h => intro d x hx; rw [h d] at hx; simp at hx
    | call d k' _ ih =>
      cases d with
      | url => exact (loadUrl_verified E k' _ ih).1
      | kdd10 => exact loadKdd10_cache E k' _ ih
      | kdd12 => exact (h12 k' _ ih).1
      | criteo => exact (loadCriteo_verified E k' _ ih).1
  cases d with
  | url => exact Or.inl ((loadUrl_verified E k s hs).2 x hx)
  | kdd10 => exact Or.inl (C70_kdd10 E k s x hx)
  | kdd12 => exact ((h12 k s hs).2 x hx).imp_right fun h => ⟨rfl, h⟩
  | criteo => exact Or.inl ((loadCriteo_verified E k s hs).2 x hx)

/-- C70, the retry of `load_url`: if the next `j` downloads are corrupted and the one after them is good, and the recursion limit is above `j`, the call
returns that dataset after exactly `j + 1` downloads. -/
theorem C70_url_retries_partial (E : DsEnv Bytes Data) (j : ℕ) (s : DsState Bytes Data) (hs : s.archive .url = none)
    (hbad : ∀ i < j, E.md5ok .url (E.net .url (s.count .url + i)) = false) (hgood : E.md5ok .url (E.net .url (s.count .url + j)) = true) (x : Data)
    (hx : E.parse .url (E.net .url (s.count .url + j)) = some x) (k : ℕ) (hk : j < k) :
    (loadUrl E k true s).1 = .ok x ∧ (loadUrl E k true s).2.count .url = s.count .url + j + 1 := by
  induction j generalizing s k with
  | zero =>
    obtain ⟨k, rfl⟩ : ∃ k', k = k' + 1 := ⟨k - 1, by omega⟩
    simp only [loadUrl, hs]
    rw [if_neg (by simp at hgood ⊢; exact hgood)]
    simp only [add_zero] at hx
    simp [dsUnpack, hx, dsFetch]
  | succ j ih =>
    obtain ⟨k, rfl⟩ : ∃ k', k = k' + 1 := ⟨k - 1, by omega⟩
    have h0 := hbad 0 (by omega)
    simp only [add_zero] at h0
    simp only [loadUrl, hs]
    rw [if_pos (by simp [h0])]
    have hc : (dsRemove .url (dsFetch E .url s)).count .url = s.count .url + 1 := by simp [dsRemove, dsFetch]
    have := ih (dsRemove .url (dsFetch E .url s)) (by simp [dsRemove]) (fun i hi => by
        rw [hc, show s.count .url + 1 + i = s.count .url + (i + 1) by omega]; exact hbad (i + 1) (by omega))
      (by rw [hc, show s.count .url + 1 + j = s.count .url + (j + 1) by omega]; exact hgood)
      (by rw [hc, show s.count .url + 1 + j = s.count .url + (j + 1) by omega]; exact hx) k (by omega)
    rw [hc] at this
    exact ⟨this.1, by rw [this.2]; omega⟩

/-- C70: the same retry for `load_kdd10`, also from a corrupted cached archive. -/
theorem C70_kdd10_retries (E : DsEnv Bytes Data) (j : ℕ) (s : DsState Bytes Data)
    (hs : s.archive .kdd10 = none ∨ ∃ b, s.archive .kdd10 = some b ∧ E.md5ok .kdd10 b = false)
    (hbad : ∀ i < j, E.md5ok .kdd10 (E.net .kdd10 (s.count .kdd10 + i)) = false) (hgood : E.md5ok .kdd10 (E.net .kdd10 (s.count .kdd10 + j)) = true)
    (x : Data) (hx : E.parse .kdd10 (E.net .kdd10 (s.count .kdd10 + j)) = some x) (k : ℕ) (hk : j + 1 < k) :
    (loadKdd10 E k true s).1 = .ok x := by
  have main : ∀ (j : ℕ) (s : DsState Bytes Data) (k : ℕ), s.archive .kdd10 = none →
      (∀ i < j, E.md5ok .kdd10 (E.net .kdd10 (s.count .kdd10 + i)) = false) → E.md5ok .kdd10 (E.net .kdd10 (s.count .kdd10 + j)) = true →
      E.parse .kdd10 (E.net .kdd10 (s.count .kdd10 + j)) = some x → j < k → (loadKdd10 E k true s).1 = .ok x := by
    intro j
    induction j with
    | zero =>
      intro s k hs _ hgood hx hk
      obtain ⟨k, rfl⟩ : ∃ k', k = k' + 1 := ⟨k - 1, by omega⟩
      simp only [add_zero] at hgood hx
      simp [loadKdd10, hs, dsFetch, hgood, hx]
    | succ j ih =>
      intro s k hs hbad hgood hx hk
      obtain ⟨k, rfl⟩ : ∃ k', k = k' + 1 := ⟨k - 1, by omega⟩
      have h0 := hbad 0 (by omega)
      simp only [add_zero] at h0
      have hc : (dsRemove .kdd10 (dsFetch E .kdd10 s)).count .kdd10 = s.count .kdd10 + 1 := by simp [dsRemove, dsFetch]
      have := ih (dsRemove .kdd10 (dsFetch E .kdd10 s)) k (by simp [dsRemove]) (fun i hi => by
          rw [hc, show s.count .kdd10 + 1 + i = s.count .kdd10 + (i + 1) by omega]; exact hbad (i + 1) (by omega))
        (by rw [hc, show s.count .kdd10 + 1 + j = s.count .kdd10 + (j + 1) by omega]; exact hgood)
        (by rw [hc, show s.count .kdd10 + 1 + j = s.count .kdd10 + (j + 1) by omega]; exact hx) (by omega)
      rw [← this]
      conv_lhs => rw [loadKdd10]
      simp only [hs]
      have ha : (dsFetch E .kdd10 s).archive .kdd10 = some (E.net .kdd10 (s.count .kdd10)) := by simp [dsFetch]
      rw [ha]
      simp only
      rw [if_pos (by simp [h0])]
  rcases hs with hs | ⟨b, hb, hm⟩
  · exact main j s k hs hbad hgood hx (by omega)
  · obtain ⟨k, rfl⟩ : ∃ k', k = k' + 1 := ⟨k - 1, by omega⟩
    have := main j (dsRemove .kdd10 s) k (by simp [dsRemove]) hbad hgood hx (by omega)
    rw [← this]
    conv_lhs => rw [loadKdd10]
    simp only [hb]
    rw [if_pos (by simp [hm])]

/-- C70 fails for `load_kdd12`: after one corrupted download it always returns what `load_url` returns, and downloads nothing more of its own. -/
theorem C70_kdd12_wrong (E : DsEnv Bytes Data) (k : ℕ) (s : DsState Bytes Data) (hs : s.archive .kdd12 = none)
    (hbad : E.md5ok .kdd12 (E.net .kdd12 (s.count .kdd12)) = false) :
    loadKdd12 E (k + 1) true s = loadUrl E k true (dsRemove .kdd12 (dsFetch E .kdd12 s)) := by
  simp only [loadKdd12, hs]
  rw [if_pos (by simp [hbad])]

/-- A cached archive without saved arrays (for instance after an interruption between download and `np.save`, or after a parse error) makes every
later call of `load_url` raise FileNotFoundError, without a retry. -/
theorem C70_url_stuck (E : DsEnv Bytes Data) (k : ℕ) (md5 : Bool) (s : DsState Bytes Data) (b : Bytes) (hs : s.archive .url = some b)
    (hn : s.npy .url = none) : loadUrl E (k + 1) md5 s = (.error .fileNotFoundError, s) := by
  simp [loadUrl, hs, dsCached, hn]

/-- C70 fails for `load_criteo`: a corrupted download that cannot be extracted raises before the checksum is tested, stays cached, and every later call
raises FileNotFoundError. -/
theorem C70_refuted_criteo (E : DsEnv Bytes Data) (k j : ℕ) (md5 : Bool) (s : DsState Bytes Data) (hs : s.archive .criteo = none)
    (hn : s.npy .criteo = none) (hbad : E.untar (E.net .criteo (s.count .criteo)) = false) :
    ∃ s', loadCriteo E (k + 1) md5 s = (.error .readError, s') ∧ loadCriteo E (j + 1) md5 s' = (.error .fileNotFoundError, s') := by
  refine ⟨dsFetch E .criteo s, ?_, ?_⟩
  · simp [loadCriteo, hs, hbad]
  · simp [loadCriteo, dsFetch, dsCached, hn]

end Md5

/-- An environment in which archives are numbers: the first download of every archive is corrupted (0), later ones are good. -/
def exEnv : DsEnv ℕ (DsName × ℕ) where
  net := fun _ k => k
  md5ok := fun _ b => decide (b ≠ 0)
  parse := fun d b => some (d, b)
  untar := fun b => decide (b ≠ 0)

/-- Nothing cached. -/
def exDsState : DsState ℕ (DsName × ℕ) := { archive := fun _ => none, npy := fun _ => none, count := fun _ => 0 }

/-- `load_url` and `load_kdd10` recover from the corrupted download (the hypotheses of the retry theorems hold with `j = 1`). -/
example : (loadUrl exEnv 10 true exDsState).1 = .ok (.url, 1) ∧ (loadKdd10 exEnv 10 true exDsState).1 = .ok (.kdd10, 1) := ⟨rfl, rfl⟩

/-- C70 fails: `load_kdd12` returns the URL dataset, which is no KDD12 dataset. -/
theorem C70_refuted_kdd12 : (loadKdd12 exEnv 10 true exDsState).1 = .ok (.url, 1) ∧ ¬Verified exEnv .kdd12 (.url, 1) := by
  refine ⟨rfl, ?_⟩
  rintro ⟨bytes, -, h⟩
  simp [exEnv] at h

/-- C70 fails: what a call with `md5_check=False` cached is returned by a later call with `md5_check=True`, although its checksum is wrong. -/
theorem C70_refuted_cached : ∃ s, s = (loadUrl exEnv 10 false exDsState).2 ∧ (loadUrl exEnv 10 true s).1 = .ok (.url, 0) ∧
    ¬Verified exEnv .url (.url, 0) := by
  refine ⟨_, rfl, rfl, ?_⟩
  rintro ⟨bytes, hm, h⟩
  simp only [exEnv, Option.some.injEq, Prod.mk.injEq, true_and] at h
  subst h
  simp [exEnv] at hm

end Copt
