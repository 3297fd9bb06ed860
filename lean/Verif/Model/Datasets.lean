import Verif.Model.Py
import Mathlib.Data.Finset.Basic
import Mathlib.Logic.Function.Basic

/-! # Dataset download and caching (`datasets.py`)

Simplifications: file contents are byte lists, `np.load` is a function `decode` from bytes to arrays that may fail (ValueError), the assembling of
the arrays into a CSR matrix is in `Model/DatasetMatrix` (here a result is the list of the arrays read), download errors other than corrupted bytes are left out.
An interruption is modelled at the level of single file system operations: creating a directory, creating (truncating) a file, appending one byte.
`load_img1` and the documentation-only wrappers (`load_madelon`, `load_rcv1`, `load_covtype`, `load_news20`, `load_gisette`), which call
`_load_dataset` with a fixed name, are not modelled. -/

namespace Copt

/-- The dataset directory `data_dir/name` on disk: whether it exists, and the files in it. -/
structure DsFs where
  dir : Bool
  files : String → Option (List UInt8)

/-- File system operations of a download, datasets.py:57-80. -/
inductive DsEv where
  | mkdir                          -- line 57
  | download                       -- line 63: into a temporary file elsewhere
  | create (f : String)            -- line 73
  | append (f : String) (b : UInt8)  -- lines 74-79
  deriving DecidableEq

/-- The archive: its regular members (lines 69-70 skip the others), each with its name inside the dataset directory and its bytes. -/
abbrev DsArchive := List (String × List UInt8)

/-- `files_train`, datasets.py:48-53. -/
def filesTrain : List String := ["X_train.data.npy", "X_train.indices.npy", "X_train.indptr.npy", "y_train.npy"]

/-- The test files, datasets.py:95-100. -/
def filesTest : List String := ["X_test.data.npy", "X_test.indices.npy", "X_test.indptr.npy", "y_test.npy"]

/-- One operation.  `tf` is HAS_TF: `gfile.makedirs` accepts an existing directory, `os.makedirs` raises FileExistsError; files cannot be created in a
missing directory. -/
def dsExec (tf : Bool) (fs : DsFs) : DsEv → Except PyErr DsFs
  | .mkdir => if fs.dir && !tf then .error .fileExistsError else .ok { fs with dir := true }
  | .download => .ok fs
  | .create f => if fs.dir then .ok { fs with files := Function.update fs.files f (some []) } else .error .fileNotFoundError
  | .append f b => .ok { fs with files := Function.update fs.files f ((fs.files f).map (· ++ [b])) }

/-- The operations of a download in order. -/
def dsEvents (arch : DsArchive) : List DsEv :=
  .mkdir :: .download :: arch.flatMap fun m => .create m.1 :: m.2.map (.append m.1)

/-- Run operations until the first exception: the resulting state and the exception if there was one. -/
def dsRun (tf : Bool) : List DsEv → DsFs → DsFs × Option PyErr
  | [], fs => (fs, none)
  | e :: es, fs => match dsExec tf fs e with
    | .error err => (fs, some err)
    | .ok fs' => dsRun tf es fs'

/-- The test of lines 54-56. -/
def dsPresent (fs : DsFs) : Bool := filesTrain.all fun f => (fs.files f).isSome

/-- `np.load` of files in order, datasets.py:84-86, 95-102. -/
def dsRead {α : Type} (decode : List UInt8 → Option α) (fs : DsFs) (names : List String) : Except PyErr (List α) :=
  names.mapM fun f => match fs.files f with
    | none => .error .fileNotFoundError
    | some bytes => match decode bytes with
      | none => .error .valueError
      | some a => .ok a

/-- Reading the requested subset, datasets.py:83-119: the arrays of the train part, then those of the test part. -/
def dsResult {α : Type} (decode : List UInt8 → Option α) (fs : DsFs) (subset : String) : Except PyErr (List α) := do
  let train ← dsRead decode fs filesTrain
  if subset = "train" then return train
  else
    let test ← dsRead decode fs filesTest
    if subset = "test" then return test
    else if subset = "full" then return train ++ test
    else .error .valueError

/-- `_load_dataset`, datasets.py:36-119, for the archive served by the network: the state of the disk afterwards, the result, and whether the network
was used. -/
def loadDataset {α : Type} (tf : Bool) (arch : DsArchive) (decode : List UInt8 → Option α) (subset : String) (fs : DsFs) :
    DsFs × Except PyErr (List α) × Bool :=
  if dsPresent fs then (fs, dsResult decode fs subset, false)
  else match dsRun tf (dsEvents arch) fs with
    | (fs', some err) => (fs', .error err, fs.dir = false || tf)
    | (fs', none) => (fs', dsResult decode fs' subset, true)

/-- A call of `_load_dataset` interrupted after `k` file system operations. -/
def crashDataset (tf : Bool) (arch : DsArchive) (k : ℕ) (fs : DsFs) : DsFs :=
  if dsPresent fs then fs else (dsRun tf ((dsEvents arch).take k) fs).1

/-! ### Loaders with a checksum -/

/-- The datasets of `load_url`, `load_kdd10`, `load_kdd12`, `load_criteo`. -/
inductive DsName where
  | url | kdd10 | kdd12 | criteo
  deriving DecidableEq

/-- What the outside provides: the bytes of the `k`-th download of each archive, whether an archive has the checksum in the code, what decompression
and `load_svmlight_file` give, and whether `tarfile` can extract it (otherwise ReadError). -/
structure DsEnv (Bytes Data : Type) where
  net : DsName → ℕ → Bytes
  md5ok : DsName → Bytes → Bool
  parse : DsName → Bytes → Option Data
  untar : Bytes → Bool

/-- Disk and network state: cached archives, the saved arrays (four `.npy` files, written one after the other; here one item), numbers of downloads. -/
structure DsState (Bytes Data : Type) where
  archive : DsName → Option Bytes
  npy : DsName → Option Data
  count : DsName → ℕ

variable {Bytes Data : Type}

/-- `urllib.request.urlretrieve(url, file_path)`. -/
def dsFetch (E : DsEnv Bytes Data) (d : DsName) (s : DsState Bytes Data) : DsState Bytes Data :=
  { s with archive := Function.update s.archive d (some (E.net d (s.count d))), count := Function.update s.count d (s.count d + 1) }

/-- `os.remove(file_path)`. -/
def dsRemove (d : DsName) (s : DsState Bytes Data) : DsState Bytes Data := { s with archive := Function.update s.archive d none }

/-- Decompress, parse, `np.save`: datasets.py:231-239, 393-401 and 453-459. -/
def dsUnpack (E : DsEnv Bytes Data) (d : DsName) (bytes : Bytes) (s : DsState Bytes Data) : Except PyErr Data × DsState Bytes Data :=
  match E.parse d bytes with
  | none => (.error .valueError, s)
  | some x => (.ok x, { s with npy := Function.update s.npy d (some x) })

/-- `np.load` of the saved arrays, datasets.py:240-246, 402-408, 462-467. -/
def dsCached (d : DsName) (s : DsState Bytes Data) : Except PyErr Data × DsState Bytes Data :=
  match s.npy d with
  | none => (.error .fileNotFoundError, s)
  | some x => (.ok x, s)

/-- `load_url`, datasets.py:191-246.  The first argument is the recursion depth left.  (The relabelling of `y` in line 245 is left out.) -/
def loadUrl (E : DsEnv Bytes Data) : ℕ → Bool → DsState Bytes Data → Except PyErr Data × DsState Bytes Data
  | 0, _, s => (.error .recursionError, s)
  | k + 1, md5, s =>
    match s.archive .url with
    | some _ => dsCached .url s
    | none =>
      let bytes := E.net .url (s.count .url)
      let s := dsFetch E .url s
      if md5 && !E.md5ok .url bytes then loadUrl E k true (dsRemove .url s)   -- lines 229-230
      else dsUnpack E .url bytes s

/-- `load_kdd10`, datasets.py:315-350. -/
def loadKdd10 (E : DsEnv Bytes Data) : ℕ → Bool → DsState Bytes Data → Except PyErr Data × DsState Bytes Data
  | 0, _, s => (.error .recursionError, s)
  | k + 1, md5, s =>
    let s := match s.archive .kdd10 with
      | some _ => s
      | none => dsFetch E .kdd10 s
    match s.archive .kdd10 with
    | none => (.error .fileNotFoundError, s)
    | some bytes =>
      if md5 && !E.md5ok .kdd10 bytes then loadKdd10 E k true (dsRemove .kdd10 s)   -- lines 348-349
      else match E.parse .kdd10 bytes with
        | none => (.error .valueError, s)
        | some x => (.ok x, s)

/-- `load_kdd12`, datasets.py:353-408. -/
def loadKdd12 (E : DsEnv Bytes Data) : ℕ → Bool → DsState Bytes Data → Except PyErr Data × DsState Bytes Data
  | 0, _, s => (.error .recursionError, s)
  | k + 1, md5, s =>
    match s.archive .kdd12 with
    | some _ => dsCached .kdd12 s
    | none =>
      let bytes := E.net .kdd12 (s.count .kdd12)
      let s := dsFetch E .kdd12 s
      if md5 && !E.md5ok .kdd12 bytes then loadUrl E k true (dsRemove .kdd12 s)   -- lines 391-392: `return load_url()`
      else dsUnpack E .kdd12 bytes s

/-- `load_criteo`, datasets.py:411-467.  The archive is extracted before the checksum is tested. -/
def loadCriteo (E : DsEnv Bytes Data) : ℕ → Bool → DsState Bytes Data → Except PyErr Data × DsState Bytes Data
  | 0, _, s => (.error .recursionError, s)
  | k + 1, md5, s =>
    match s.archive .criteo with
    | some _ => dsCached .criteo s
    | none =>
      let bytes := E.net .criteo (s.count .criteo)
      let s := dsFetch E .criteo s
      if !E.untar bytes then (.error .readError, s)                                -- lines 443-444
      else if md5 && !E.md5ok .criteo bytes then loadCriteo E k true (dsRemove .criteo s)   -- lines 451-452
      else dsUnpack E .criteo bytes s

/-- The loader of a dataset. -/
def loadDs (E : DsEnv Bytes Data) : DsName → ℕ → Bool → DsState Bytes Data → Except PyErr Data × DsState Bytes Data
  | .url => loadUrl E
  | .kdd10 => loadKdd10 E
  | .kdd12 => loadKdd12 E
  | .criteo => loadCriteo E

end Copt
