import Verif.Model.TV1D
import Verif.Proof.TautKnots
import Verif.Proof.GroupBlocks

/-! # The buffers of `_prox_tv1d` satisfy the taut-string invariants -/

set_option linter.unusedSectionVars false

namespace Copt.TV1D

open Copt.TV

variable {K : Type} [Field K] [LinearOrder K] [IsStrictOrderedRing K] {w n : ℕ}

theorem divNat_ne (a : K) {i l : ℕ} (h : l < i) : divNat a i l = some (a / ((i : K) - (l : K))) :=
  if_neg (by omega)

theorem hullSlope_eq {y : Fin w → K} {i : ℕ} (hi : i < w) {idxH : Fin w → ℕ} {s cur : ℕ} {idx : Fin w → ℕ}
    {z : Fin w → K} {c p : ℕ} {q : K} (hs : s < cur) (hcur : cur < w) (hc : c < w)
    (hp : p = if cur > s + 1 then getD0 idxH (cur - 1) else getD0 idx c)
    (hq : q = if cur > s + 1 then getD0 y (getD0 idxH (cur - 1)) else getD0 z c) (hpi : p < i) :
    hullSlope y i idxH s cur idx z c = some ((getD0 y i - q) / ((i : K) - (p : K))) := by
  unfold hullSlope
  split_ifs at hp hq ⊢ with h
  · rw [rd_eq_getD0 _ (show cur - 1 < w by omega), ← hp]
    simp only [Option.bind_eq_bind, Option.bind_some]
    rw [rd_eq_getD0 _ hi, rd_eq_getD0 _ (show p < w by omega)]
    simp only [Option.bind_some]
    rw [divNat_ne _ hpi, hq, hp]
  · rw [rd_eq_getD0 _ hc, rd_eq_getD0 _ hc, ← hp, ← hq, rd_eq_getD0 _ hi]
    simp only [Option.bind_eq_bind, Option.bind_some]
    rw [divNat_ne _ hpi]

theorem hH_neg (Y : ℕ → K) (B : K) (I : ℕ → ℕ) (s k : ℕ) :
    hH (fun t => -Y t) (-B) I s k = -hH Y B I s k := by
  unfold hH; split_ifs <;> rfl

theorem popLow_spec (yl : Fin w → K) {i : ℕ} (hi : i < w) (fl : K) : ∀ (N : ℕ) (st : TVState w K), st.cLow = N →
    PreHull (getD0 yl) (getD0 st.idx st.c) (getD0 st.z st.c) (getD0 st.idxLow) (getD0 st.slLow) st.sLow st.cLow i →
    st.sLow < st.cLow → st.cLow < w → st.c < w → fl ≤ getD0 st.slLow (st.sLow + 1) →
    (st.sLow + 1 < st.cLow → getD0 st.slLow (st.sLow + 1) = fl) →
    ∃ c' il sl, popLow yl i st = some { st with cLow := c', idxLow := il, slLow := sl } ∧
      Hull (getD0 yl) (getD0 st.idx st.c) (getD0 st.z st.c) (getD0 il) (getD0 sl) st.sLow c' i ∧
      st.sLow < c' ∧ c' ≤ st.cLow ∧ fl ≤ getD0 sl (st.sLow + 1) ∧
      (st.sLow + 1 < c' → getD0 sl (st.sLow + 1) = fl) := by
  intro N
  induction N with
  | zero => intro st h0 _ h2; omega
  | succ N ih =>
    intro st hN h hse hw hc hfl hfl'
    rw [popLow]
    by_cases h1 : st.sLow + 1 < st.cLow
    · rw [if_pos h1]
      have hmax : max st.sLow (st.cLow - 1) = st.cLow - 1 := by omega
      simp only [hmax, rd_eq_getD0 _ (show st.cLow - 1 < w by omega), rd_eq_getD0 _ hw, Option.bind_eq_bind, Option.bind_some]
      by_cases h2 : getD0 st.slLow (st.cLow - 1) ≤ getD0 st.slLow st.cLow
      · rw [if_pos h2]
        have hcw : st.cLow - 1 < w := by omega
        set il := Function.update st.idxLow ⟨st.cLow - 1, hcw⟩ i with hil
        have eil : ∀ k, getD0 il k = if k = st.cLow - 1 then i else getD0 st.idxLow k :=
          fun k => getD0_update st.idxLow hcw i k
        set p := hP (getD0 st.idx st.c) (getD0 st.idxLow) st.sLow (st.cLow - 2) with hp
        set q := hH (getD0 yl) (getD0 st.z st.c) (getD0 st.idxLow) st.sLow (st.cLow - 2) with hq
        have hpi : p < i := by
          have m1 := h.mono (st.cLow - 2) (by omega) (by omega)
          have m2 := h.mono (st.cLow - 1) (by omega) (by omega)
          have e1 : st.cLow - 2 + 1 = st.cLow - 1 := by omega
          have e2 : st.cLow - 1 + 1 = st.cLow := by omega
          rw [e1] at m1; rw [e2, h.last] at m2
          omega
        set σ := (getD0 yl i - q) / ((i : K) - (p : K)) with hσ
        have hnew : hullSlope yl i il st.sLow (st.cLow - 1) st.idx st.z st.c = some σ := by
          have e7 := eil (st.cLow - 1 - 1)
          rw [if_neg (by omega)] at e7
          refine hullSlope_eq  hi (by omega) (by omega) hc ?_ ?_ hpi
          · rw [hp, e7]; unfold hP
            split_ifs <;> first | omega | rfl
          · rw [hq, e7]; unfold hH
            split_ifs <;> first | omega | rfl
        rw [wr_lt _ hcw]
        simp only [Option.bind_some]
        rw [hnew]
        simp only [Option.bind_some]
        rw [wr_lt _ hcw]
        simp only [Option.bind_some]
        set sl := Function.update st.slLow ⟨st.cLow - 1, hcw⟩ σ with hsl
        have esl : ∀ k, getD0 sl k = if k = st.cLow - 1 then σ else getD0 st.slLow k :=
          fun k => getD0_update st.slLow hcw σ k
        obtain ⟨hph, hge⟩ := h.pop (I' := getD0 il) (S' := getD0 sl) h1 h2
          (fun k hk => by rw [eil, if_neg (by omega)]) (by rw [eil, if_pos rfl])
          (fun k hk => by rw [esl, if_neg (by omega)]) (by rw [esl, if_pos rfl])
        obtain ⟨c', il', sl', e, H, a1, a2, a3, a4⟩ := ih { st with cLow := st.cLow - 1, idxLow := il, slLow := sl }
          (by simp; omega) hph (by simp; omega) (by simpa using hcw) hc
          (by
            show fl ≤ getD0 sl (st.sLow + 1)
            rcases Nat.lt_or_ge (st.sLow + 1) (st.cLow - 1) with h5 | h5
            · rw [esl, if_neg (by omega)]; exact hfl
            · have e6 : st.sLow + 1 = st.cLow - 1 := by omega
              rw [e6]; rw [e6] at hfl; exact hfl.trans hge)
          (by
            intro h5
            change st.sLow + 1 < st.cLow - 1 at h5
            show getD0 sl (st.sLow + 1) = fl
            rw [esl, if_neg (by omega)]; exact hfl' h1)
        refine ⟨c', il', sl', e, H, a1, ?_, a3, a4⟩
        change c' ≤ st.cLow - 1 at a2; omega
      · rw [if_neg h2]
        push Not at h2
        exact ⟨st.cLow, st.idxLow, st.slLow, rfl, h.done (fun _ => h2), hse, le_rfl, hfl, hfl'⟩
    · rw [if_neg h1]
      exact ⟨st.cLow, st.idxLow, st.slLow, rfl, h.done (fun h => absurd h h1), hse, le_rfl, hfl, hfl'⟩

theorem popUp_spec (yu : Fin w → K) {i : ℕ} (hi : i < w) (fl : K) : ∀ (N : ℕ) (st : TVState w K), st.cUp = N →
    PreHull (fun t => -getD0 yu t) (getD0 st.idx st.c) (-getD0 st.z st.c) (getD0 st.idxUp) (fun k => -getD0 st.slUp k) st.sUp st.cUp i →
    st.sUp < st.cUp → st.cUp < w → st.c < w → getD0 st.slUp (st.sUp + 1) ≤ fl →
    (st.sUp + 1 < st.cUp → getD0 st.slUp (st.sUp + 1) = fl) →
    ∃ c' il sl, popUp yu i st = some { st with cUp := c', idxUp := il, slUp := sl } ∧
      Hull (fun t => -getD0 yu t) (getD0 st.idx st.c) (-getD0 st.z st.c) (getD0 il) (fun k => -getD0 sl k) st.sUp c' i ∧
      st.sUp < c' ∧ c' ≤ st.cUp ∧ getD0 sl (st.sUp + 1) ≤ fl ∧
      (st.sUp + 1 < c' → getD0 sl (st.sUp + 1) = fl) := by
  intro N
  induction N with
  | zero => intro st h0 _ h2; omega
  | succ N ih =>
    intro st hN h hse hw hc hfl hfl'
    rw [popUp]
    by_cases h1 : st.sUp + 1 < st.cUp
    · rw [if_pos h1]
      have hmax : max (st.cUp - 1) st.sUp = st.cUp - 1 := by omega
      simp only [hmax, rd_eq_getD0 _ (show st.cUp - 1 < w by omega), rd_eq_getD0 _ hw, Option.bind_eq_bind, Option.bind_some]
      by_cases h2 : getD0 st.slUp (st.cUp - 1) ≥ getD0 st.slUp st.cUp
      · rw [if_pos h2]
        have hcw : st.cUp - 1 < w := by omega
        set il := Function.update st.idxUp ⟨st.cUp - 1, hcw⟩ i with hil
        have eil : ∀ k, getD0 il k = if k = st.cUp - 1 then i else getD0 st.idxUp k :=
          fun k => getD0_update st.idxUp hcw i k
        set p := hP (getD0 st.idx st.c) (getD0 st.idxUp) st.sUp (st.cUp - 2) with hp
        set q := hH (getD0 yu) (getD0 st.z st.c) (getD0 st.idxUp) st.sUp (st.cUp - 2) with hq
        have hpi : p < i := by
          have m1 := h.mono (st.cUp - 2) (by omega) (by omega)
          have m2 := h.mono (st.cUp - 1) (by omega) (by omega)
          have e1 : st.cUp - 2 + 1 = st.cUp - 1 := by omega
          have e2 : st.cUp - 1 + 1 = st.cUp := by omega
          rw [e1] at m1; rw [e2, h.last] at m2
          omega
        set σ := (getD0 yu i - q) / ((i : K) - (p : K)) with hσ
        have hnew : hullSlope yu i il st.sUp (st.cUp - 1) st.idx st.z st.c = some σ := by
          have e7 := eil (st.cUp - 1 - 1)
          rw [if_neg (by omega)] at e7
          refine hullSlope_eq  hi (by omega) (by omega) hc ?_ ?_ hpi
          · rw [hp, e7]; unfold hP
            split_ifs <;> first | omega | rfl
          · rw [hq, e7]; unfold hH
            split_ifs <;> first | omega | rfl
        rw [wr_lt _ hcw]
        simp only [Option.bind_some]
        rw [hnew]
        simp only [Option.bind_some]
        rw [wr_lt _ hcw]
        simp only [Option.bind_some]
        set sl := Function.update st.slUp ⟨st.cUp - 1, hcw⟩ σ with hsl
        have esl : ∀ k, getD0 sl k = if k = st.cUp - 1 then σ else getD0 st.slUp k :=
          fun k => getD0_update st.slUp hcw σ k
        obtain ⟨hph, hge⟩ := h.pop (I' := getD0 il) (S' := fun k => -getD0 sl k) h1 (neg_le_neg h2)
          (fun k hk => by rw [eil, if_neg (by omega)]) (by rw [eil, if_pos rfl])
          (fun k hk => by rw [esl, if_neg (by omega)]) (by rw [esl, if_pos rfl, hH_neg, hσ, ← neg_div]; congr 1; ring)
        obtain ⟨c', il', sl', e, H, a1, a2, a3, a4⟩ := ih { st with cUp := st.cUp - 1, idxUp := il, slUp := sl }
          (by simp; omega) hph (by simp; omega) (by simpa using hcw) hc
          (by
            show getD0 sl (st.sUp + 1) ≤ fl
            rcases Nat.lt_or_ge (st.sUp + 1) (st.cUp - 1) with h5 | h5
            · rw [esl, if_neg (by omega)]; exact hfl
            · have e6 : st.sUp + 1 = st.cUp - 1 := by omega
              rw [e6]; rw [e6] at hfl; exact (neg_le_neg_iff.mp hge).trans hfl)
          (by
            intro h5
            change st.sUp + 1 < st.cUp - 1 at h5
            show getD0 sl (st.sUp + 1) = fl
            rw [esl, if_neg (by omega)]; exact hfl' h1)
        refine ⟨c', il', sl', e, H, a1, ?_, a3, a4⟩
        change c' ≤ st.cUp - 1 at a2; omega
      · rw [if_neg h2]
        push Not at h2
        exact ⟨st.cUp, st.idxUp, st.slUp, rfl, h.done (fun _ => neg_lt_neg h2), hse, le_rfl, hfl, hfl'⟩
    · rw [if_neg h1]
      exact ⟨st.cUp, st.idxUp, st.slUp, rfl, h.done (fun h => absurd h h1), hse, le_rfl, hfl, hfl'⟩


end Copt.TV1D
