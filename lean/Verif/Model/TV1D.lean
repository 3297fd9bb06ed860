import Mathlib.Algebra.Order.Field.Basic
import Mathlib.Data.Nat.Cast.Defs
import Verif.Model.Mem

/-!
# Model of `_prox_tv1d` (copt/tv_prox.py:45-136)

The compiled routine, statement by statement, on buffers with checked accesses (`none` = out-of-bounds access,
division by zero).  `np.empty` buffers have arbitrary initial contents, passed as parameters.  `incr = 1` is
folded into the indices; `int32` index overflow is not modelled.  The operations and the comparison of the numbers are
parameters: exact arithmetic is one instance, machine arithmetic with nan and infinities another.
-/

namespace Copt

variable {K : Type} [Zero K] [Add K] [Sub K] [Div K] [NatCast K] [LE K] [DecidableLE K]

/-- Division by an integer difference `a / (i - l)`; `none` if the divisor is zero. -/
def divNat (a : K) (i l : ℕ) : Option K := if i = l then none else some (a / ((i : K) - (l : K)))

/-- Local variables of `_prox_tv1d`, tv_prox.py:49-57, for buffers of length `w = width`. -/
structure TVState (w : ℕ) (K : Type) where
  idxLow : Fin w → ℕ
  slLow : Fin w → K
  idxUp : Fin w → ℕ
  slUp : Fin w → K
  idx : Fin w → ℕ
  z : Fin w → K
  sLow : ℕ
  cLow : ℕ
  sUp : ℕ
  cUp : ℕ
  c : ℕ

namespace TV1D

variable {w n : ℕ}

/-- The loop `for i in range(2, width)`, tv_prox.py:63-65, from index `i` on. -/
def fillY (input : Fin n → K) (i : ℕ) (yl yu : Fin w → K) : Option ((Fin w → K) × (Fin w → K)) :=
  if i < w then do
    let pl ← rd yl (i - 1)
    let pu ← rd yu (i - 1)
    let v ← rd input (i - 1)
    let yl ← wr yl i (pl + v)
    let yu ← wr yu i (pu + v)
    fillY input (i + 1) yl yu
  else some (yl, yu)
termination_by w - i

/-- `y_low`, `y_up`: lines 58-68. -/
def tubes (step : K) (input : Fin n → K) (yl yu : Fin (n + 1) → K) :
    Option ((Fin (n + 1) → K) × (Fin (n + 1) → K)) := do
  let yl ← wr yl 0 0                                   -- line 58
  let yu ← wr yu 0 0
  let v ← rd input 0                                   -- line 59
  let yl ← wr yl 1 (v - step)
  let yu ← wr yu 1 (v + step)                          -- line 60
  let (yl, yu) ← fillY input 2 yl yu                   -- lines 63-65
  let l ← rd yl n                                      -- line 67
  let yl ← wr yl n (l + step)
  let u ← rd yu n                                      -- line 68
  let yu ← wr yu n (u - step)
  return (yl, yu)

/-- Lines 83-88 (lower hull) and 94-99 (upper hull): slope of the segment ending at `i`, starting at the previous
hull point, or at the last knot if there is none. -/
def hullSlope (y : Fin w → K) (i : ℕ) (idxH : Fin w → ℕ) (s cur : ℕ) (idx : Fin w → ℕ) (z : Fin w → K) (c : ℕ) :
    Option K :=
  if cur > s + 1 then do
    let l ← rd idxH (cur - 1)
    let yi ← rd y i
    let yb ← rd y l
    divNat (yi - yb) i l
  else do
    let l ← rd idx c
    let yi ← rd y i
    let yb ← rd z c
    divNat (yi - yb) i l

/-- Lines 78-88: pop points of the lower hull. -/
def popLow (yl : Fin w → K) (i : ℕ) (st : TVState w K) : Option (TVState w K) :=
  if st.cLow > st.sLow + 1 then do
    let a ← rd st.slLow (max st.sLow (st.cLow - 1))
    let b ← rd st.slLow st.cLow
    if a ≤ b then do
      let cLow := st.cLow - 1
      let idxLow ← wr st.idxLow cLow i
      let new ← hullSlope yl i idxLow st.sLow cLow st.idx st.z st.c
      let slLow ← wr st.slLow cLow new
      popLow yl i { st with cLow := cLow, idxLow := idxLow, slLow := slLow }
    else some st
  else some st
termination_by st.cLow

/-- Lines 91-99: pop points of the upper hull. -/
def popUp (yu : Fin w → K) (i : ℕ) (st : TVState w K) : Option (TVState w K) :=
  if st.cUp > st.sUp + 1 then do
    let a ← rd st.slUp (max (st.cUp - 1) st.sUp)
    let b ← rd st.slUp st.cUp
    if a ≥ b then do
      let cUp := st.cUp - 1
      let idxUp ← wr st.idxUp cUp i
      let new ← hullSlope yu i idxUp st.sUp cUp st.idx st.z st.c
      let slUp ← wr st.slUp cUp new
      popUp yu i { st with cUp := cUp, idxUp := idxUp, slUp := slUp }
    else some st
  else some st
termination_by st.cUp

/-- Lines 101-111: the lower hull meets the upper one; move the last knot along the upper hull. -/
def shiftUp (yl yu : Fin w → K) (i : ℕ) (st : TVState w K) : Option (TVState w K) :=
  if st.cLow = st.sLow + 1 ∧ st.cUp > st.sUp + 1 then do
    let a ← rd st.slLow st.cLow
    let b ← rd st.slUp (st.sUp + 1)
    if a ≥ b then do
      let c := st.c + 1
      let sUp := st.sUp + 1
      let l ← rd st.idxUp sUp
      let idx ← wr st.idx c l
      let zc ← rd yu l
      let z ← wr st.z c zc
      let idxLow ← wr st.idxLow st.sLow l
      let yi ← rd yl i
      let new ← divNat (yi - zc) i l
      let slLow ← wr st.slLow st.cLow new
      shiftUp yl yu i { st with c := c, sUp := sUp, idx := idx, z := z, idxLow := idxLow, slLow := slLow }
    else some st
  else some st
termination_by st.cUp - st.sUp

/-- Lines 112-122: symmetric move along the lower hull. -/
def shiftLow (yl yu : Fin w → K) (i : ℕ) (st : TVState w K) : Option (TVState w K) :=
  if st.cUp = st.sUp + 1 ∧ st.cLow > st.sLow + 1 then do
    let a ← rd st.slUp st.cUp
    let b ← rd st.slLow (st.sLow + 1)
    if a ≤ b then do
      let c := st.c + 1
      let sLow := st.sLow + 1
      let l ← rd st.idxLow sLow
      let idx ← wr st.idx c l
      let zc ← rd yl l
      let z ← wr st.z c zc
      let idxUp ← wr st.idxUp st.sUp l
      let yi ← rd yu i
      let new ← divNat (yi - zc) i l
      let slUp ← wr st.slUp st.cUp new
      shiftLow yl yu i { st with c := c, sLow := sLow, idx := idx, z := z, idxUp := idxUp, slUp := slUp }
    else some st
  else some st
termination_by st.cLow - st.sLow

/-- One iteration of the main loop, lines 73-122. -/
def iter (yl yu : Fin w → K) (i : ℕ) (st : TVState w K) : Option (TVState w K) := do
  let cLow := st.cLow + 1                              -- lines 74-75
  let cUp := st.cUp + 1
  let idxUp ← wr st.idxUp cUp i                        -- line 76
  let idxLow ← wr st.idxLow cLow i
  let l1 ← rd yl i                                     -- line 77
  let l0 ← rd yl (i - 1)
  let slLow ← wr st.slLow cLow (l1 - l0)
  let st ← popLow yl i { st with cLow := cLow, cUp := cUp, idxUp := idxUp, idxLow := idxLow, slLow := slLow }
  let u1 ← rd yu i                                     -- line 90
  let u0 ← rd yu (i - 1)
  let slUp ← wr st.slUp st.cUp (u1 - u0)
  let st ← popUp yu i { st with slUp := slUp }
  let st ← shiftUp yl yu i st
  shiftLow yl yu i st

/-- The main loop `for i in range(1, width)`, line 73, from index `i` on. -/
def mainLoop (yl yu : Fin w → K) (i : ℕ) (st : TVState w K) : Option (TVState w K) :=
  if i < w then do
    let st ← iter yl yu i st
    mainLoop yl yu (i + 1) st
  else some st
termination_by w - i

/-- Lines 124-126: `for i in range(1, c_low - s_low + 1)`, from index `i` on. -/
def copyKnots (yl : Fin w → K) (i : ℕ) (st : TVState w K) : Option (TVState w K) :=
  if i < st.cLow - st.sLow + 1 then do
    let l ← rd st.idxLow (st.sLow + i)
    let idx ← wr st.idx (st.c + i) l
    let zc ← rd yl l
    let z ← wr st.z (st.c + i) zc
    copyKnots yl (i + 1) { st with idx := idx, z := z }
  else some st
termination_by st.cLow - st.sLow + 1 - i

/-- Lines 131-134: `while j < index[i]: output[j] = a; j += 1`. -/
def writeSeg (a : K) (l j : ℕ) (out : Fin n → K) : Option (ℕ × (Fin n → K)) :=
  if j < l then do
    let out ← wr out j a
    writeSeg a l (j + 1) out
  else some (j, out)
termination_by l - j

/-- Lines 128-135: write the slopes. -/
def writeOut (idx : Fin w → ℕ) (z : Fin w → K) (c i j : ℕ) (out : Fin n → K) : Option (Fin n → K) :=
  if i ≤ c then do
    let zi ← rd z i
    let zp ← rd z (i - 1)
    let li ← rd idx i
    let lp ← rd idx (i - 1)
    let a ← divNat (zi - zp) li lp
    let (j, out) ← writeSeg a li j out
    writeOut idx z c (i + 1) j out
  else some out
termination_by c + 1 - i

/-- Uninitialised memory and the two infinities of lines 69-70, all arbitrary. -/
structure Junk (n : ℕ) (K : Type) where
  yl : Fin (n + 1) → K
  yu : Fin (n + 1) → K
  out : Fin n → K
  posInf : K
  negInf : K

/-- `_prox_tv1d(step_size, input, output)`, tv_prox.py:45-136: the final contents of `output`. -/
def lowLevel (junk : Junk n K) (step : K) (input : Fin n → K) : Option (Fin n → K) := do
  let (yl, yu) ← tubes step input junk.yl junk.yu       -- lines 55-68
  let slLow ← wr (fun _ => 0) 0 junk.posInf             -- line 69
  let slUp ← wr (fun _ => 0) 0 junk.negInf              -- line 70
  let y0 ← rd yl 0                                      -- line 71
  let z ← wr (fun _ => 0) 0 y0
  let st : TVState (n + 1) K :=                         -- lines 49-57
    { idxLow := fun _ => 0, slLow := slLow, idxUp := fun _ => 0, slUp := slUp, idx := fun _ => 0, z := z,
      sLow := 0, cLow := 0, sUp := 0, cUp := 0, c := 0 }
  let st ← mainLoop yl yu 1 st
  let st ← copyKnots yl 1 st
  let c := st.c + st.cLow - st.sLow                     -- line 127
  writeOut st.idx st.z c 1 0 junk.out                   -- lines 128-135

end TV1D

end Copt
