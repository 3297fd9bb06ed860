import Verif.Model.Penalty
import Verif.Model.Randomized

/-! # What `prox_factory` hands to the variance-reduced methods: an in-place routine and a block matrix -/

namespace Copt

/-- The matrix `B` of `GroupL1.prox_factory`, penalty.py:94, 118-119: `indices = arange(n_features)`, `indptr` truncated to `block_pointer + 1`. -/
def BlockState.mat {p : ℕ} (B : BlockState p) : BlockMat := { nb := B.bp, nz := p, ptr := fun h => (rd B.indptr h.val).getD 0, idx := fun k => k }

/-- The matrices `B_1` and `B_2` of `FusedLasso`, penalty.py:169-177 and 203-213. -/
def PairBlocks.mat {p : ℕ} (B : PairBlocks p) : BlockMat := { nb := B.nBlocks, nz := p, ptr := fun h => B.indptr[h.val]?.getD 0, idx := fun k => k }

/-- `L1Norm.prox_factory`, penalty.py:35-53, as used by the variance-reduced methods: the row is the list of features of the sample. -/
def L1Norm.sparse {K : Type} [Field K] [LinearOrder K] {p : ℕ} (alpha : K) : SparseProx K p := fun _ d step hs x => L1Norm.kernel alpha d step hs x

/-- `_prox_gl` of `GroupL1.prox_factory`, penalty.py:122-141. -/
noncomputable def GroupL1.sparse {p : ℕ} (alpha : ℝ) (B : BlockState p) : SparseProx ℝ p := fun _ d step hs x => GroupL1.kernel alpha B d step hs x

/-- `_prox_1_fl` and `_prox_2_fl` of `FusedLasso`, penalty.py:180-197 and 216-233. -/
def FusedLasso.sparse {K : Type} [Field K] [LinearOrder K] {p : ℕ} (alpha : K) (B : PairBlocks p) : SparseProx K p :=
  fun _ d step hs x => FusedLasso.kernel alpha B d step hs x

end Copt
