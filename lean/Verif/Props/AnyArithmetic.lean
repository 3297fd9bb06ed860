import Verif.Proof.TVSafe
import Mathlib.Algebra.Order.Ring.Rat
import Mathlib.Tactic.NormNum

/-! # `_prox_tv1d` with machine arithmetic (C114)

The theorems quantify over all interpretations of `+`, `-`, `/`, the constants and the comparison: rounded operations, overflow to infinities, nan with
comparisons that are all false. -/

set_option linter.unusedSectionVars false

namespace Copt

variable {K : Type} [Zero K] [Add K] [Sub K] [Div K] [NatCast K] [LE K] [DecidableLE K] {n R C : ℕ}

/-- **C114 (`_prox_tv1d`).** Whatever the arithmetic and the outcome of the comparisons, on a non-empty input no access is out of bounds, no integer divisor is
zero, all loops end, and the result depends on neither the previous content of the output array nor that of the scratch buffers: every element is written. -/
theorem C114_memory_safe (hn : 0 < n) (posInf negInf step : K) (w : Fin n → K) :
    ∃ out, ∀ yl yu out0, TV1D.lowLevel ⟨yl, yu, out0, posInf, negInf⟩ step w = some out := TV1D.lowLevel_some hn posInf negInf step w

/-- **C114 (`FusedLasso.prox`).** -/
theorem C114_fused_lasso [Mul K] (hn : 0 < n) (posInf negInf alpha step : K) (w : Fin n → K) :
    ∃ out, ∀ yl yu out0, FusedLasso.prox true ⟨yl, yu, out0, posInf, negInf⟩ alpha w step = .ok out := by
  obtain ⟨out, h⟩ := C114_memory_safe hn posInf negInf (step * alpha) w
  exact ⟨out, fun yl yu out0 => by simp [FusedLasso.prox, proxTv1d, h, fault]⟩

/-- Uninitialised memory; the infinities are those of the machine. -/
structure TVJunk.Machine {m k : ℕ} (junk : TVJunk R C m k K) (posInf negInf : K) : Prop where
  pos : ∀ i, (junk.inner i).posInf = posInf
  neg : ∀ i, (junk.inner i).negInf = negInf

theorem cols_fold (hR : 0 < R) (posInf negInf step : K) (A : Fin R → Fin C → K) : ∃ B : Fin R → Fin C → K, ∀ (junk : Fin C → TV1D.Junk R K),
    (∀ i, (junk i).posInf = posInf) → (∀ i, (junk i).negInf = negInf) → ∀ (l : List (Fin C)) (out : Fin R → Fin C → K),
      ∃ out', l.foldlM (colBody junk step A) out = some out' ∧ (∀ r j, j ∈ l → out' r j = B r j) ∧ ∀ r j, (out r j = B r j) → out' r j = B r j := by
  choose col hcol using fun i : Fin C => C114_memory_safe hR posInf negInf step (fun r => A r i)
  refine ⟨fun r j => col j r, fun junk hp hn' l => ?_⟩
  induction l with
  | nil => exact fun out => ⟨out, rfl, fun r j hj => absurd hj (by simp), fun r j h => h⟩
  | cons i l ih =>
    intro out
    have hb : colBody junk step A out i = some fun r j => if j = i then col i r else out r j := by
      unfold colBody
      have := hcol i (junk i).yl (junk i).yu (fun r => out r i)
      rw [← hp i, ← hn' i] at this
      rw [show ({ junk i with out := fun r => out r i } : TV1D.Junk R K) = ⟨(junk i).yl, (junk i).yu, fun r => out r i, (junk i).posInf, (junk i).negInf⟩ from rfl, this]
      rfl
    obtain ⟨out', h1, h2, h3⟩ := ih (fun r j => if j = i then col i r else out r j)
    refine ⟨out', by rw [List.foldlM_cons, hb]; exact h1, fun r j hj => ?_, fun r j h => ?_⟩
    · rcases List.mem_cons.mp hj with e | hj
      · exact h3 r j (by simp only [e, if_true])
      · exact h2 r j hj
    · refine h3 r j ?_
      by_cases e : j = i
      · simp only [e, if_true]
      · simp only [e, if_false]; exact h

theorem rows_fold (hC : 0 < C) (posInf negInf step : K) (A : Fin R → Fin C → K) : ∃ B : Fin R → Fin C → K, ∀ (junk : Fin R → TV1D.Junk C K),
    (∀ i, (junk i).posInf = posInf) → (∀ i, (junk i).negInf = negInf) → ∀ (l : List (Fin R)) (out : Fin R → Fin C → K),
      ∃ out', l.foldlM (rowBody junk step A) out = some out' ∧ (∀ r ∈ l, out' r = B r) ∧ ∀ r, out r = B r → out' r = B r := by
  choose row hrow using fun i : Fin R => C114_memory_safe hC posInf negInf step (A i)
  refine ⟨row, fun junk hp hn' l => ?_⟩
  induction l with
  | nil => exact fun out => ⟨out, rfl, fun r hj => absurd hj (by simp), fun r h => h⟩
  | cons i l ih =>
    intro out
    have hb : rowBody junk step A out i = some fun r => if r = i then row i else out r := by
      unfold rowBody
      have := hrow i (junk i).yl (junk i).yu (out i)
      rw [← hp i, ← hn' i] at this
      rw [show ({ junk i with out := out i } : TV1D.Junk C K) = ⟨(junk i).yl, (junk i).yu, out i, (junk i).posInf, (junk i).negInf⟩ from rfl, this]
      rfl
    obtain ⟨out', h1, h2, h3⟩ := ih (fun r => if r = i then row i else out r)
    refine ⟨out', by rw [List.foldlM_cons, hb]; exact h1, fun r hj => ?_, fun r h => ?_⟩
    · rcases List.mem_cons.mp hj with e | hj
      · exact h3 r (by simp only [e, if_true])
      · exact h2 r hj
    · refine h3 r ?_
      by_cases e : r = i
      · simp only [e, if_true]
      · simp only [e, if_false]; exact h

/-- **C114 (`prox_tv1d_cols`).** The same for images with at least one row, along the columns. -/
theorem C114_cols (hR : 0 < R) (posInf negInf step : K) (a : Fin (R * C) → K) :
    ∃ out, ∀ junk : TVJunk R C C R K, junk.Machine posInf negInf → proxCols junk step a = some out := by
  obtain ⟨B, hB⟩ := cols_fold hR posInf negInf step (reshape2 R C a)
  refine ⟨ravel2 B, fun junk hj => ?_⟩
  obtain ⟨out', h1, h2, -⟩ := hB junk.inner hj.pos hj.neg (List.finRange C) junk.out
  unfold proxCols
  dsimp only
  rw [h1, show out' = B from funext fun r => funext fun j => h2 r j (List.mem_finRange j)]
  rfl

/-- **C114 (`prox_tv1d_rows`).** -/
theorem C114_rows (hC : 0 < C) (posInf negInf step : K) (a : Fin (R * C) → K) :
    ∃ out, ∀ junk : TVJunk R C R C K, junk.Machine posInf negInf → proxRows junk step a = some out := by
  obtain ⟨B, hB⟩ := rows_fold hC posInf negInf step (reshape2 R C a)
  refine ⟨ravel2 B, fun junk hj => ?_⟩
  obtain ⟨out', h1, h2, -⟩ := hB junk.inner hj.pos hj.neg (List.finRange R) junk.out
  unfold proxRows
  dsimp only
  rw [h1, show out' = B from funext fun r => h2 r (List.mem_finRange r)]
  rfl

/-- **C114 (empty input).** The guard is needed whatever the arithmetic. -/
theorem C114_empty_fault (junk : TV1D.Junk 0 K) (step : K) (w : Fin 0 → K) : TV1D.lowLevel junk step w = none := by
  simp [TV1D.lowLevel, TV1D.tubes, TV1D.fillY, wr, rd]

/-! An arithmetic with rounding, overflow and nan: integers of absolute value at most 99 and nan; quotients are rounded towards zero. -/

/-- Two-digit numbers and nan. -/
inductive TinyNum
  | nan
  | num (a : ℤ)
  deriving DecidableEq

namespace TinyNum

/-- Overflow gives nan. -/
def clamp (a : ℤ) : TinyNum := if |a| ≤ 99 then num a else nan

instance : Zero TinyNum := ⟨num 0⟩
instance : Add TinyNum := ⟨fun a b => match a, b with | num a, num b => clamp (a + b) | _, _ => nan⟩
instance : Sub TinyNum := ⟨fun a b => match a, b with | num a, num b => clamp (a - b) | _, _ => nan⟩
instance : Div TinyNum := ⟨fun a b => match a, b with | num a, num b => if b = 0 then nan else clamp (a.tdiv b) | _, _ => nan⟩
instance : NatCast TinyNum := ⟨fun n => clamp n⟩

/-- Comparison: false as soon as one side is nan. -/
def ble : TinyNum → TinyNum → Bool
  | num a, num b => decide (a ≤ b)
  | _, _ => false

instance : LE TinyNum := ⟨fun a b => ble a b = true⟩
instance : DecidableLE TinyNum := fun a b => inferInstanceAs (Decidable (ble a b = true))

end TinyNum

open TinyNum

/-- The comparison is not even reflexive there. -/
example : ¬ (nan : TinyNum) ≤ nan := by decide

/-- A signal with nan and an overflowing sum. -/
example : ∃ out, ∀ yl yu out0, TV1D.lowLevel (n := 5) ⟨yl, yu, out0, nan, nan⟩ (num 1) ![num 90, num 80, nan, num 3, num (-7)] = some out :=
  C114_memory_safe (by norm_num) _ _ _ _

/-- A run where the rounding matters (a test, not a proof): the exact result is `5/3, 5/3, 5/3`. -/
example : TV1D.lowLevel (n := 3) ⟨fun _ => nan, fun _ => nan, fun _ => nan, nan, nan⟩ (num 1) ![num 1, num 3, num 1] =
    some ![num 1, num 1, num 1] := by decide +kernel

end Copt
