import Mathlib.Algebra.Module.Pi
import Mathlib.Algebra.BigOperators.Fin
import Mathlib.Tactic.LinearCombination
import Mathlib.Tactic.Positivity
import Verif.Spec.TV
import Verif.Model.TVProx
import Verif.Proof.Basic
import Verif.Proof.TV1DOut

/-! # Helper lemmas for the 2-D total variation -/

set_option linter.unusedSectionVars false

namespace Copt

open Spec

variable {K : Type} [Field K] [LinearOrder K] [IsStrictOrderedRing K] {n R C : ℕ}

/-! ### 1-D total variation is a seminorm -/

theorem tv1_nonneg (x : Fin n → K) : 0 ≤ tv1 x := Finset.sum_nonneg fun _ _ => abs_nonneg _

theorem tv1_add_le (x y : Fin n → K) : tv1 (x + y) ≤ tv1 x + tv1 y := by
  unfold tv1
  rw [← Finset.sum_add_distrib]
  refine Finset.sum_le_sum fun k _ => ?_
  simp only [Pi.add_apply]
  refine le_trans (le_of_eq ?_) (abs_add_le _ _)
  congr 1; ring

theorem tv1_smul (c : K) (x : Fin n → K) : tv1 (c • x) = |c| * tv1 x := by
  unfold tv1
  rw [Finset.mul_sum]
  refine Finset.sum_congr rfl fun k _ => ?_
  simp only [Pi.smul_apply, smul_eq_mul]
  rw [← abs_mul]; congr 1; ring

theorem tv1_le_norm1 (x : Fin n → K) : tv1 x ≤ 2 * ∑ i, |x i| := by
  rcases n with _ | m
  · simp [tv1]
  · have h1 : ∑ k : Fin m, |x k.succ| ≤ ∑ i, |x i| := by
      rw [Fin.sum_univ_succ (fun i => |x i|)]
      linarith [abs_nonneg (x 0)]
    have h2 : ∑ k : Fin m, |x k.castSucc| ≤ ∑ i, |x i| := by
      rw [Fin.sum_univ_castSucc (fun i => |x i|)]
      linarith [abs_nonneg (x (Fin.last m))]
    have h3 : tv1 x ≤ ∑ k : Fin m, (|x k.succ| + |x k.castSucc|) := by
      unfold tv1
      refine Finset.sum_le_sum fun k _ => ?_
      exact abs_sub _ _
    rw [Finset.sum_add_distrib] at h3
    linarith

/-! ### 2-D -/

theorem sum_pix (f : Fin (R * C) → K) : ∑ k, f k = ∑ i : Fin R, ∑ j : Fin C, pix f i j := by
  rw [← Fintype.sum_prod_type' (f := fun i j => pix f i j)]
  exact (Fintype.sum_equiv finProdFinEquiv _ _ fun _ => rfl).symm

/-- A seminorm given by its two inequalities. -/
structure IsSemi {N : ℕ} (g : (Fin N → K) → K) : Prop where
  add : ∀ x y, g (x + y) ≤ g x + g y
  smul : ∀ (c : K) x, g (c • x) = |c| * g x

theorem tvCols_semi : IsSemi (tvCols (K := K) R C) where
  add x y := by
    unfold tvCols
    rw [← Finset.sum_add_distrib]
    exact Finset.sum_le_sum fun j _ => tv1_add_le (fun i => pix x i j) (fun i => pix y i j)
  smul c x := by
    unfold tvCols
    rw [Finset.mul_sum]
    exact Finset.sum_congr rfl fun j _ => tv1_smul c (fun i => pix x i j)

theorem tvRows_semi : IsSemi (tvRows (K := K) R C) where
  add x y := by
    unfold tvRows
    rw [← Finset.sum_add_distrib]
    exact Finset.sum_le_sum fun i _ => tv1_add_le (fun j => pix x i j) (fun j => pix y i j)
  smul c x := by
    unfold tvRows
    rw [Finset.mul_sum]
    exact Finset.sum_congr rfl fun i _ => tv1_smul c (fun j => pix x i j)

theorem tv2_semi : IsSemi (tv2 (K := K) R C) where
  add x y := by unfold tv2; linarith [tvCols_semi.add x y, tvRows_semi.add x y]
  smul c x := by unfold tv2; rw [tvCols_semi.smul, tvRows_semi.smul]; ring

namespace IsSemi

variable {N : ℕ} {g : (Fin N → K) → K}

theorem convex (h : IsSemi g) : ∀ x y : Fin N → K, ∀ t : K, 0 ≤ t → t ≤ 1 →
    g ((1 - t) • x + t • y) ≤ (1 - t) * g x + t * g y := by
  intro x y t h0 h1
  have := h.add ((1 - t) • x) (t • y)
  rwa [h.smul, h.smul, abs_of_nonneg h0, abs_of_nonneg (by linarith : 0 ≤ 1 - t)] at this

theorem zero (h : IsSemi g) : g 0 = 0 := by
  have := h.smul 0 0
  rwa [zero_smul, abs_zero, zero_mul] at this

/-- A subgradient of `s * g` is dominated by `s * g`, with equality at the point. -/
theorem of_subgrad (h : IsSemi g) {s : K} {p z : Fin N → K} (hs : 0 ≤ s)
    (hp : ∀ y, s * g z + dot p (y - z) ≤ s * g y) : (∀ v, dot p v ≤ s * g v) ∧ dot p z = s * g z := by
  have h0 := hp 0
  rw [h.zero, mul_zero, dot_sub_right] at h0
  have h00 : dot p 0 = 0 := by simp [dot]
  have h2 := hp ((2 : K) • z)
  rw [h.smul, abs_of_pos (by norm_num : (0 : K) < 2), dot_sub_right, dot_smul_right] at h2
  have e : dot p z = s * g z := by rw [h00] at h0; linarith
  refine ⟨fun v => ?_, e⟩
  have h3 := hp v
  rw [dot_sub_right] at h3
  linarith

end IsSemi

theorem norm1_pix (x : Fin (R * C) → K) : ∑ k, |x k| = ∑ i : Fin R, ∑ j : Fin C, |pix x i j| :=
  sum_pix (fun k => |x k|)

theorem tvCols_le (x : Fin (R * C) → K) : tvCols R C x ≤ 2 * ∑ k, |x k| := by
  rw [norm1_pix, Finset.sum_comm, Finset.mul_sum]
  exact Finset.sum_le_sum fun j _ => tv1_le_norm1 _

/-! ### The column and row passes -/

/-- First order optimality of the 1-D total variation prox. -/
def TvOpt (step : K) (v p : Fin n → K) : Prop := ∀ y, step * tv1 p + dot (v - p) (y - p) ≤ step * tv1 y

theorem colFold_spec (hR : 0 < R) (junk : Fin C → TV1D.Junk R K) {step : K} (hs : 0 ≤ step)
    (A : Fin R → Fin C → K) : ∀ (l : List (Fin C)) (out : Fin R → Fin C → K),
    ∃ out', l.foldlM (colBody junk step A) out = some out' ∧
      (∀ i ∈ l, TvOpt step (fun r => A r i) (fun r => out' r i)) ∧
      ∀ j, j ∉ l → ∀ r, out' r j = out r j := by
  intro l
  induction l with
  | nil => intro out; exact ⟨out, rfl, by simp, fun _ _ _ => rfl⟩
  | cons i l ih =>
    intro out
    obtain ⟨col, e, hcol⟩ := TV1D.lowLevel_spec hR { junk i with out := fun r => out r i } hs (fun r => A r i)
    obtain ⟨out', e', h1, h2⟩ := ih (fun r j => if j = i then col r else out r j)
    refine ⟨out', ?_, ?_, ?_⟩
    · rw [List.foldlM_cons]
      unfold colBody
      rw [e]
      exact e'
    · intro k hk
      by_cases hkl : k ∈ l
      · exact h1 k hkl
      · have : k = i := by simpa [hkl] using hk
        subst this
        have e2 : (fun r => out' r k) = col := by
          funext r; rw [h2 k hkl r, if_pos rfl]
        rw [e2]; exact hcol
    · intro j hj r
      rw [List.mem_cons, not_or] at hj
      rw [h2 j hj.2 r, if_neg hj.1]

theorem rowFold_spec (hC : 0 < C) (junk : Fin R → TV1D.Junk C K) {step : K} (hs : 0 ≤ step)
    (A : Fin R → Fin C → K) : ∀ (l : List (Fin R)) (out : Fin R → Fin C → K),
    ∃ out', l.foldlM (rowBody junk step A) out = some out' ∧
      (∀ i ∈ l, TvOpt step (A i) (out' i)) ∧
      ∀ j, j ∉ l → out' j = out j := by
  intro l
  induction l with
  | nil => intro out; exact ⟨out, rfl, by simp, fun _ _ => rfl⟩
  | cons i l ih =>
    intro out
    obtain ⟨row, e, hrow⟩ := TV1D.lowLevel_spec hC { junk i with out := out i } hs (A i)
    obtain ⟨out', e', h1, h2⟩ := ih (fun r => if r = i then row else out r)
    refine ⟨out', ?_, ?_, ?_⟩
    · rw [List.foldlM_cons]
      unfold rowBody
      rw [e]
      exact e'
    · intro k hk
      by_cases hkl : k ∈ l
      · exact h1 k hkl
      · have : k = i := by simpa [hkl] using hk
        subst this
        have e2 : out' k = row := by rw [h2 k hkl, if_pos rfl]
        rw [e2]; exact hrow
    · intro j hj
      rw [List.mem_cons, not_or] at hj
      rw [h2 j hj.2, if_neg hj.1]

theorem pix_ravel2 (A : Fin R → Fin C → K) (i : Fin R) (j : Fin C) : pix (ravel2 A) i j = A i j := by
  simp [pix, ravel2]

theorem reshape2_eq (x : Fin (R * C) → K) (i : Fin R) (j : Fin C) : reshape2 R C x i j = pix x i j := rfl

theorem dot_pix (x y : Fin (R * C) → K) : dot x y = ∑ i : Fin R, ∑ j : Fin C, pix x i j * pix y i j :=
  sum_pix (fun k => x k * y k)

theorem proxCols_spec (hR : 0 < R) (junk : TVJunk R C C R K) {step : K} (hs : 0 ≤ step) (a : Fin (R * C) → K) :
    ∃ out, proxCols junk step a = some out ∧
      ∀ y, step * tvCols R C out + dot (a - out) (y - out) ≤ step * tvCols R C y := by
  obtain ⟨out, e, h1, -⟩ := colFold_spec hR junk.inner hs (reshape2 R C a) (List.finRange C) junk.out
  refine ⟨ravel2 out, ?_, fun y => ?_⟩
  · simp only [proxCols, e, Option.bind_eq_bind, Option.bind_some]; rfl
  · rw [dot_pix, Finset.sum_comm]
    unfold tvCols
    rw [Finset.mul_sum, Finset.mul_sum, ← Finset.sum_add_distrib]
    refine Finset.sum_le_sum fun j _ => ?_
    have := h1 j (List.mem_finRange j) (fun i => pix y i j)
    refine le_trans (le_of_eq ?_) this
    have e1 : (fun i => pix (ravel2 out) i j) = fun r => out r j := funext fun i => pix_ravel2 out i j
    rw [e1]
    congr 1
    unfold dot
    refine Finset.sum_congr rfl fun i _ => ?_
    show (pix a i j - pix (ravel2 out) i j) * (pix y i j - pix (ravel2 out) i j) = _
    rw [pix_ravel2]; rfl

theorem proxRows_spec (hC : 0 < C) (junk : TVJunk R C R C K) {step : K} (hs : 0 ≤ step) (a : Fin (R * C) → K) :
    ∃ out, proxRows junk step a = some out ∧
      ∀ y, step * tvRows R C out + dot (a - out) (y - out) ≤ step * tvRows R C y := by
  obtain ⟨out, e, h1, -⟩ := rowFold_spec hC junk.inner hs (reshape2 R C a) (List.finRange R) junk.out
  refine ⟨ravel2 out, ?_, fun y => ?_⟩
  · simp only [proxRows, e, Option.bind_eq_bind, Option.bind_some]; rfl
  · rw [dot_pix]
    unfold tvRows
    rw [Finset.mul_sum, Finset.mul_sum, ← Finset.sum_add_distrib]
    refine Finset.sum_le_sum fun i _ => ?_
    have := h1 i (List.mem_finRange i) (fun j => pix y i j)
    refine le_trans (le_of_eq ?_) this
    have e1 : (fun j => pix (ravel2 out) i j) = out i := funext fun j => pix_ravel2 out i j
    rw [e1]
    congr 1
    unfold dot
    refine Finset.sum_congr rfl fun j _ => ?_
    show (pix a i j - pix (ravel2 out) i j) * (pix y i j - pix (ravel2 out) i j) = _
    rw [pix_ravel2]; rfl

/-! ### The accuracy test -/

theorem foldl_max_ge (l : List K) : ∀ a : K, a ≤ l.foldl max a ∧ ∀ b ∈ l, b ≤ l.foldl max a := by
  induction l with
  | nil => intro a; simp
  | cons c l ih =>
    intro a
    obtain ⟨h1, h2⟩ := ih (max a c)
    refine ⟨le_trans (le_max_left _ _) h1, fun b hb => ?_⟩
    rcases List.mem_cons.mp hb with rfl | hb
    · exact le_trans (le_max_right _ _) h1
    · exact h2 b hb

theorem foldl_max_mem (l : List K) : ∀ a : K, l.foldl max a = a ∨ l.foldl max a ∈ l := by
  induction l with
  | nil => intro a; simp
  | cons c l ih =>
    intro a
    rcases ih (max a c) with h | h
    · rw [List.foldl_cons, h]
      rcases max_choice a c with h' | h' <;> rw [h'] <;> simp
    · right; exact List.mem_cons_of_mem _ h

theorem npMaxAbs_spec {v : Fin n → K} {a : K} (h : npMaxAbs v = .ok a) :
    (∀ i, |v i| ≤ a) ∧ ∃ i, a = |v i| := by
  unfold npMaxAbs at h
  split at h
  · cases h
  · rename_i b l e
    obtain ⟨h1, h2⟩ := foldl_max_ge l b
    have h' : l.foldl max b = a := by simpa using h
    rw [h'] at h1 h2
    refine ⟨fun i => ?_, ?_⟩
    · have : |v i| ∈ List.ofFn fun i => |v i| := List.mem_ofFn.mpr ⟨i, rfl⟩
      rw [e] at this
      rcases List.mem_cons.mp this with h3 | h3
      · rw [h3]; exact h1
      · exact h2 _ h3
    · have : a ∈ List.ofFn fun i => |v i| := by
        rw [e, ← h']
        rcases foldl_max_mem l b with h3 | h3
        · rw [h3]; simp
        · exact List.mem_cons_of_mem _ h3
      obtain ⟨i, hi⟩ := List.mem_ofFn.mp this
      exact ⟨i, hi.symm⟩

theorem npMaxAbs_ok (hn : 0 < n) (v : Fin n → K) : ∃ a, npMaxAbs v = .ok a := by
  obtain ⟨m, rfl⟩ : ∃ m, n = m + 1 := ⟨n - 1, by omega⟩
  unfold npMaxAbs
  rw [List.ofFn_succ]
  exact ⟨_, rfl⟩

/-! ### One iteration -/

/-- What the loop variables satisfy after at least one iteration (`y` is the column-pass point). -/
structure DykCert (R C : ℕ) (step : K) (w : Fin (R * C) → K) (st : TV2DState (R * C) K) (y : Fin (R * C) → K) :
    Prop where
  sum : ∀ k, st.x k + st.p k + st.q k = w k
  subP : ∀ v, step * tvCols R C y + dot st.p (v - y) ≤ step * tvCols R C v
  subQ : ∀ v, step * tvRows R C st.x + dot st.q (v - st.x) ≤ step * tvRows R C v

theorem tv2dStep_spec (hR : 0 < R) (hC : 0 < C) (junkC : TVJunk R C C R K) (junkR : TVJunk R C R C K) {step : K}
    (hs : 0 ≤ step) {w : Fin (R * C) → K} (st : TV2DState (R * C) K)
    (hsum : ∀ k, st.x k + st.p k + st.q k = w k) :
    ∃ st' acc y, tv2dStep junkC junkR step st = .ok (st', acc) ∧ DykCert R C step w st' y ∧
      (∀ k, |y k - st'.x k| ≤ acc) ∧ (∃ k, acc = |y k - st'.x k|) ∧
      (∀ k, st'.p k = st.p k + (st.x k - y k)) ∧ (∀ k, st'.q k = st.q k + (y k - st'.x k)) := by
  obtain ⟨y, e1, h1⟩ := proxCols_spec hR junkC hs (fun k => st.x k + st.p k)
  obtain ⟨x, e2, h2⟩ := proxRows_spec hC junkR hs (fun k => y k + st.q k)
  obtain ⟨acc, e3⟩ := npMaxAbs_ok (Nat.mul_pos hR hC) (fun k => y k - x k)
  obtain ⟨h3, h4⟩ := npMaxAbs_spec e3
  refine ⟨⟨x, fun k => st.p k + (st.x k - y k), fun k => st.q k + (y k - x k)⟩, acc, y, ?_,
    ⟨fun k => ?_, ?_, ?_⟩, h3, h4, fun _ => rfl, fun _ => rfl⟩
  · simp only [tv2dStep, e1, fault]
    show (do
      let x ← fault (proxRows junkR step fun k => y k + st.q k)
      let acc ← npMaxAbs (fun k => y k - x k)
      return (⟨x, fun k => st.p k + (st.x k - y k), fun k => st.q k + (y k - x k)⟩, acc) :
        Except PyErr (TV2DState (R * C) K × K)) = _
    rw [e2]
    simp only [fault]
    show (do
      let acc ← npMaxAbs (fun k => y k - x k)
      return (⟨x, fun k => st.p k + (st.x k - y k), fun k => st.q k + (y k - x k)⟩, acc) :
        Except PyErr (TV2DState (R * C) K × K)) = _
    rw [e3]; rfl
  · have := hsum k
    show x k + (st.p k + (st.x k - y k)) + (st.q k + (y k - x k)) = w k
    linarith
  · intro v
    have := h1 v
    refine le_trans (le_of_eq ?_) this
    congr 2
    funext k; show st.p k + (st.x k - y k) = st.x k + st.p k - y k; ring
  · intro v
    have := h2 v
    refine le_trans (le_of_eq ?_) this
    congr 2
    funext k; show st.q k + (y k - x k) = y k + st.q k - x k; ring

/-- Accuracy of a certified state. -/
theorem DykCert.accuracy {step : K} {w : Fin (R * C) → K} {st : TV2DState (R * C) K} {y : Fin (R * C) → K}
    (h : DykCert R C step w st y) (hs : 0 ≤ step) {acc : K} (hacc : ∀ k, |y k - st.x k| ≤ acc)
    {xs : Fin (R * C) → K} (hx : IsProx (tv2 R C) step w xs) :
    sqDist st.x xs ≤ 4 * step * (R * C : ℕ) * acc := by
  have hg := hx.subgrad hs tv2_semi.convex st.x
  have hp := h.subP xs
  have hq := h.subQ xs
  obtain ⟨d1, d2⟩ := tvCols_semi.of_subgrad hs h.subP
  have hb1 := d1 (y - st.x)
  have hw : w = st.x + st.p + st.q := funext fun k => (h.sum k).symm
  have hb2 := tvCols_semi.add y (st.x - y)
  have hb3 : tvCols R C (y - st.x) = tvCols R C (st.x - y) := by
    have := tvCols_semi.smul (-1 : K) (st.x - y)
    rw [abs_neg, abs_one, one_mul] at this
    rw [← this]; congr 1; funext k; simp
  have hb4 := tvCols_le (st.x - y)
  have hb5 : ∑ k, |(st.x - y) k| ≤ (R * C : ℕ) * acc := by
    have := Finset.sum_le_card_nsmul Finset.univ (fun k => |(st.x - y) k|) acc (fun k _ => by
      have := hacc k
      rw [abs_sub_comm] at this
      exact this)
    simpa [nsmul_eq_mul] using this
  have hb6 : y + (st.x - y) = st.x := by funext k; simp
  rw [hb6] at hb2
  have hb7 : step * tvCols R C (st.x - y) ≤ step * (2 * ((R * C : ℕ) * acc)) :=
    mul_le_mul_of_nonneg_left (by linarith) hs
  have hb8 : step * tvCols R C st.x ≤ step * (tvCols R C y + tvCols R C (st.x - y)) :=
    mul_le_mul_of_nonneg_left hb2 hs
  rw [hb3] at hb1
  unfold tv2 at hg
  rw [sqDist_eq_dot]
  have key : dot (st.x - xs) (st.x - xs) =
      dot (w - xs) (st.x - xs) + dot st.p (xs - y) + dot st.q (xs - st.x) + dot st.p (y - st.x) := by
    rw [hw]
    unfold dot
    rw [← Finset.sum_add_distrib, ← Finset.sum_add_distrib, ← Finset.sum_add_distrib]
    refine Finset.sum_congr rfl fun k _ => ?_
    simp only [Pi.sub_apply, Pi.add_apply]
    ring
  rw [key]
  linarith

end Copt
