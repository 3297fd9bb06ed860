import Verif.Proof.TV1D

/-! # The main loop of `_prox_tv1d` -/

set_option linter.unusedSectionVars false

namespace Copt.TV1D

open Copt.TV

variable {K : Type} [Field K] [LinearOrder K] [IsStrictOrderedRing K] {w n : ℕ}

/-- The invariant for a state of the code. -/
def SInv (yl yu : Fin w → K) (st : TVState w K) (i : ℕ) : Prop :=
  Inv (getD0 yl) (getD0 yu) (getD0 st.idx) (getD0 st.z) st.c (getD0 st.idxLow) (getD0 st.slLow) st.sLow st.cLow
    (getD0 st.idxUp) (getD0 st.slUp) st.sUp st.cUp i

theorem shiftUp_spec (yl yu : Fin w → K) {i : ℕ} (hi : i < w) (hY : getD0 yl i ≤ getD0 yu i) :
    ∀ (N : ℕ) (st : TVState w K), st.cUp - st.sUp = N →
    Mid (getD0 yl) (getD0 yu) (getD0 st.idx) (getD0 st.z) st.c (getD0 st.idxLow) (getD0 st.slLow) st.sLow st.cLow
      (getD0 st.idxUp) (getD0 st.slUp) st.sUp st.cUp i →
    st.cLow < w → st.cUp < w →
    ∃ st', shiftUp yl yu i st = some st' ∧ SInv yl yu st' i ∧ st'.cLow = st'.sLow + 1 ∧ st'.cLow = st.cLow ∧
      st'.cUp = st.cUp := by
  intro N
  induction N with
  | zero => intro st h0 h; have := h.se'; omega
  | succ N ih =>
    intro st hN h hcl hcu
    rw [shiftUp]
    have hse := h.se
    by_cases h1 : st.cUp > st.sUp + 1
    · rw [if_pos ⟨hse, h1⟩]
      rw [rd_eq_getD0 _ hcl, rd_eq_getD0 _ (show st.sUp + 1 < w by omega)]
      simp only [Option.bind_eq_bind, Option.bind_some]
      by_cases h2 : getD0 st.slLow st.cLow ≥ getD0 st.slUp (st.sUp + 1)
      · rw [if_pos h2]
        set m := getD0 st.idxUp (st.sUp + 1) with hm
        have hmi : m < i := (h.up.shift (b := getD0 st.idx st.c) h1).b_lt (by omega)
        have hcm : st.c + 1 ≤ m := by
          have a1 := h.kn.le_ix st.c le_rfl
          have a2 := h.up.mono st.sUp le_rfl (by omega)
          rw [hP_base, hP_of_lt _ _ (by omega), ← hm] at a2
          omega
        have hcw : st.c + 1 < w := by omega
        have hsw : st.sLow < w := by omega
        rw [rd_eq_getD0 _ (show st.sUp + 1 < w by omega)]
        simp only [Option.bind_some]
        rw [← hm, wr_lt _ hcw, rd_eq_getD0 _ (show m < w by omega)]
        simp only [Option.bind_some]
        rw [wr_lt _ hcw, wr_lt _ hsw, rd_eq_getD0 _ hi]
        simp only [Option.bind_some]
        rw [divNat_ne _ hmi]
        simp only [Option.bind_some]
        rw [wr_lt _ hcl]
        simp only [Option.bind_some]
        set σ := (getD0 yl i - getD0 yu m) / ((i : K) - (m : K)) with hσ
        obtain ⟨hmid, -⟩ := h.step (ix' := getD0 (Function.update st.idx ⟨st.c + 1, hcw⟩ m))
          (z' := getD0 (Function.update st.z ⟨st.c + 1, hcw⟩ (getD0 yu m)))
          (il' := getD0 (Function.update st.idxLow ⟨st.sLow, hsw⟩ m))
          (sl' := getD0 (Function.update st.slLow ⟨st.cLow, hcl⟩ σ)) h1 h2
          (fun k hk => by rw [getD0_update, if_neg (by omega)]) (by rw [getD0_update, if_pos rfl])
          (fun k hk => by rw [getD0_update, if_neg (by omega)]) (by rw [getD0_update, if_pos rfl])
          (by rw [getD0_update, if_neg (by omega)])
          (by rw [getD0_update, if_pos rfl, getD0_update, if_pos rfl, getD0_update, if_pos rfl])
        obtain ⟨st', e, a1, a2, a3, a4⟩ := ih
          { st with c := st.c + 1, sUp := st.sUp + 1, idx := Function.update st.idx ⟨st.c + 1, hcw⟩ m,
                    z := Function.update st.z ⟨st.c + 1, hcw⟩ (getD0 yu m),
                    idxLow := Function.update st.idxLow ⟨st.sLow, hsw⟩ m,
                    slLow := Function.update st.slLow ⟨st.cLow, hcl⟩ σ }
          (by show st.cUp - (st.sUp + 1) = N; omega) hmid hcl hcu
        exact ⟨st', e, a1, a2, a3, a4⟩
      · rw [if_neg h2]
        push Not at h2
        exact ⟨st, rfl, h.exit hY (fun _ => h2), hse, rfl, rfl⟩
    · rw [if_neg (by tauto)]
      exact ⟨st, rfl, h.exit hY (fun h => absurd h h1), hse, rfl, rfl⟩

theorem shiftLow_spec (yl yu : Fin w → K) {i : ℕ} (hi : i < w) (hY : getD0 yl i ≤ getD0 yu i) :
    ∀ (N : ℕ) (st : TVState w K), st.cLow - st.sLow = N →
    Mid (fun t => -getD0 yu t) (fun t => -getD0 yl t) (getD0 st.idx) (fun k => -getD0 st.z k) st.c
      (getD0 st.idxUp) (fun k => -getD0 st.slUp k) st.sUp st.cUp
      (getD0 st.idxLow) (fun k => -getD0 st.slLow k) st.sLow st.cLow i →
    st.cLow < w → st.cUp < w →
    ∃ st', shiftLow yl yu i st = some st' ∧ SInv yl yu st' i ∧ st'.cLow = st.cLow ∧ st'.cUp = st.cUp := by
  intro N
  induction N with
  | zero => intro st h0 h; have := h.se'; omega
  | succ N ih =>
    intro st hN h hcl hcu
    rw [shiftLow]
    have hse := h.se
    by_cases h1 : st.cLow > st.sLow + 1
    · rw [if_pos ⟨hse, h1⟩]
      rw [rd_eq_getD0 _ hcu, rd_eq_getD0 _ (show st.sLow + 1 < w by omega)]
      simp only [Option.bind_eq_bind, Option.bind_some]
      by_cases h2 : getD0 st.slUp st.cUp ≤ getD0 st.slLow (st.sLow + 1)
      · rw [if_pos h2]
        set m := getD0 st.idxLow (st.sLow + 1) with hm
        have hmi : m < i := (h.up.shift (b := getD0 st.idx st.c) h1).b_lt (by omega)
        have hcm : st.c + 1 ≤ m := by
          have a1 := h.kn.le_ix st.c le_rfl
          have a2 := h.up.mono st.sLow le_rfl (by omega)
          rw [hP_base, hP_of_lt _ _ (by omega), ← hm] at a2
          omega
        have hcw : st.c + 1 < w := by omega
        have hsw : st.sUp < w := by omega
        rw [rd_eq_getD0 _ (show st.sLow + 1 < w by omega)]
        simp only [Option.bind_some]
        rw [← hm, wr_lt _ hcw, rd_eq_getD0 _ (show m < w by omega)]
        simp only [Option.bind_some]
        rw [wr_lt _ hcw, wr_lt _ hsw, rd_eq_getD0 _ hi]
        simp only [Option.bind_some]
        rw [divNat_ne _ hmi]
        simp only [Option.bind_some]
        rw [wr_lt _ hcu]
        simp only [Option.bind_some]
        set σ := (getD0 yu i - getD0 yl m) / ((i : K) - (m : K)) with hσ
        obtain ⟨hmid, -⟩ := h.step (ix' := getD0 (Function.update st.idx ⟨st.c + 1, hcw⟩ m))
          (z' := fun k => -getD0 (Function.update st.z ⟨st.c + 1, hcw⟩ (getD0 yl m)) k)
          (il' := getD0 (Function.update st.idxUp ⟨st.sUp, hsw⟩ m))
          (sl' := fun k => -getD0 (Function.update st.slUp ⟨st.cUp, hcu⟩ σ) k) h1 (neg_le_neg h2)
          (fun k hk => by rw [getD0_update, if_neg (by omega)]) (by rw [getD0_update, if_pos rfl])
          (fun k hk => by rw [getD0_update, if_neg (by omega)]) (by rw [getD0_update, if_pos rfl])
          (by rw [getD0_update, if_neg (by omega)])
          (by
            rw [getD0_update, if_pos rfl, getD0_update, if_pos rfl, getD0_update, if_pos rfl, hσ, ← neg_div]
            congr 1; ring)
        obtain ⟨st', e, a1, a3, a4⟩ := ih
          { st with c := st.c + 1, sLow := st.sLow + 1, idx := Function.update st.idx ⟨st.c + 1, hcw⟩ m,
                    z := Function.update st.z ⟨st.c + 1, hcw⟩ (getD0 yl m),
                    idxUp := Function.update st.idxUp ⟨st.sUp, hsw⟩ m,
                    slUp := Function.update st.slUp ⟨st.cUp, hcu⟩ σ }
          (by show st.cLow - (st.sLow + 1) = N; omega) hmid hcl hcu
        exact ⟨st', e, a1, a3, a4⟩
      · rw [if_neg h2]
        push Not at h2
        exact ⟨st, rfl, Inv.of_mirror (h.exit (neg_le_neg hY) (fun _ => neg_lt_neg h2)), rfl, rfl⟩
    · rw [if_neg (by tauto)]
      exact ⟨st, rfl, Inv.of_mirror (h.exit (neg_le_neg hY) (fun h => absurd h h1)), rfl, rfl⟩

/-- State before the main loop handles index `i + 1`. -/
structure Ready (yl yu : Fin w → K) (st : TVState w K) (i : ℕ) : Prop where
  cl : st.cLow ≤ i
  cu : st.cUp ≤ i
  inv : (i = 0 ∧ st.c = 0 ∧ st.sLow = 0 ∧ st.sUp = 0 ∧ getD0 st.idx 0 = 0 ∧ getD0 st.z 0 = 0) ∨ SInv yl yu st i

/-- The shift loops after the pop loops. -/
theorem shifts_spec (yl yu : Fin w → K) {i : ℕ} (hi : i < w) (hY : getD0 yl i ≤ getD0 yu i) (st : TVState w K)
    (h : Popped (getD0 yl) (getD0 yu) (getD0 st.idx) (getD0 st.z) st.c (getD0 st.idxLow) (getD0 st.slLow) st.sLow st.cLow
      (getD0 st.idxUp) (getD0 st.slUp) st.sUp st.cUp i) (hcl : st.cLow < w) (hcu : st.cUp < w) :
    ∃ st', (shiftUp yl yu i st).bind (shiftLow yl yu i) = some st' ∧ SInv yl yu st' i ∧ st'.cLow = st.cLow ∧
      st'.cUp = st.cUp := by
  have hse := h.se
  have hse' := h.se'
  rcases Nat.lt_or_ge (st.sLow + 1) st.cLow with h1 | h1
  · have e1 : shiftUp yl yu i st = some st := by rw [shiftUp, if_neg (by omega)]
    rw [e1, Option.bind_some]
    rcases Nat.lt_or_ge (st.sUp + 1) st.cUp with h2 | h2
    · have e2 : shiftLow yl yu i st = some st := by rw [shiftLow, if_neg (by omega)]
      exact ⟨st, e2, h.double h1 h2, rfl, rfl⟩
    · exact shiftLow_spec yl yu hi hY _ st rfl (h.mirror.mid (by omega) h1) hcl hcu
  · rcases Nat.lt_or_ge (st.sUp + 1) st.cUp with h2 | h2
    · obtain ⟨st', e, a1, a2, a3, a4⟩ := shiftUp_spec yl yu hi hY _ st rfl (h.mid (by omega) h2) hcl hcu
      rw [e, Option.bind_some]
      have e2 : shiftLow yl yu i st' = some st' := by rw [shiftLow, if_neg (by omega)]
      exact ⟨st', e2, a1, a3, a4⟩
    · have e1 : shiftUp yl yu i st = some st := by rw [shiftUp, if_neg (by omega)]
      have e2 : shiftLow yl yu i st = some st := by rw [shiftLow, if_neg (by omega)]
      rw [e1, Option.bind_some, e2]
      exact ⟨st, rfl, h.single (by omega) (by omega) hY, rfl, rfl⟩

theorem iter_spec (yl yu : Fin w → K) {i : ℕ} (hi : i + 1 < w) (hY : getD0 yl (i + 1) ≤ getD0 yu (i + 1))
    (h0l : getD0 yl 0 = 0) (h0u : getD0 yu 0 = 0) (st : TVState w K) (h : Ready yl yu st i) :
    ∃ st', iter yl yu (i + 1) st = some st' ∧ Ready yl yu st' (i + 1) ∧ SInv yl yu st' (i + 1) := by
  have hcl := h.cl
  have hcu := h.cu
  -- common part: hulls before the new point
  have hpre : Knots (getD0 yl) (getD0 yu) (getD0 st.idx) (getD0 st.z) st.c ∧
      Hull (getD0 yl) (getD0 st.idx st.c) (getD0 st.z st.c) (getD0 st.idxLow) (getD0 st.slLow) st.sLow st.cLow i ∧
      Hull (fun t => -getD0 yu t) (getD0 st.idx st.c) (-getD0 st.z st.c) (getD0 st.idxUp) (fun k => -getD0 st.slUp k)
        st.sUp st.cUp i ∧ (st.cLow = st.sLow → getD0 st.z st.c = getD0 yl (getD0 st.idx st.c)) ∧
      (st.cUp = st.sUp → -getD0 st.z st.c = -getD0 yu (getD0 st.idx st.c)) ∧ st.c < w := by
    rcases h.inv with ⟨hi0, hc, hs, hs', hx, hz⟩ | hI
    · subst hi0
      have e1 : st.cLow = 0 := by omega
      have e2 : st.cUp = 0 := by omega
      rw [hc, hs, hs', e1, e2, hx, hz]
      refine ⟨⟨hx, hz, fun k hk => by omega, fun k hk => by omega, fun k hk => by omega⟩, ?_, ?_, ?_, ?_, by omega⟩
      · exact ⟨⟨le_rfl, fun k _ h => by omega, hP_base _ _ _, fun k _ h => by omega, fun k _ h => by omega,
          fun k _ h => by omega⟩, fun h => by omega⟩
      · exact ⟨⟨le_rfl, fun k _ h => by omega, hP_base _ _ _, fun k _ h => by omega, fun k _ h => by omega,
          fun k _ h => by omega⟩, fun h => by omega⟩
      · intro _; rw [h0l]
      · intro _; rw [h0u]
    · have a := hI.se
      have b := hI.se'
      refine ⟨hI.kn, hI.low, hI.up, fun h => by omega, fun h => by omega, ?_⟩
      have := hI.kn.le_ix st.c le_rfl
      have := hI.low.b_lt hI.se
      omega
  obtain ⟨hkn, hlow, hup, hbl, hbu, hcw⟩ := hpre
  have hsl := hlow.se
  have hsu := hup.se
  have hlw : st.cLow + 1 < w := by omega
  have huw : st.cUp + 1 < w := by omega
  unfold iter
  simp only [Option.bind_eq_bind]
  rw [wr_lt _ huw, wr_lt _ hlw, rd_eq_getD0 _ hi, rd_eq_getD0 yl (show i + 1 - 1 < w by omega)]
  simp only [Option.bind_some]
  rw [wr_lt _ hlw]
  simp only [Option.bind_some]
  set iu := Function.update st.idxUp ⟨st.cUp + 1, huw⟩ (i + 1) with hiu
  set il := Function.update st.idxLow ⟨st.cLow + 1, hlw⟩ (i + 1) with hil
  set sl := Function.update st.slLow ⟨st.cLow + 1, hlw⟩ (getD0 yl (i + 1) - getD0 yl (i + 1 - 1)) with hsl'
  have eil : ∀ k, getD0 il k = if k = st.cLow + 1 then i + 1 else getD0 st.idxLow k := fun k => getD0_update _ hlw _ k
  have eiu : ∀ k, getD0 iu k = if k = st.cUp + 1 then i + 1 else getD0 st.idxUp k := fun k => getD0_update _ huw _ k
  have esl : ∀ k, getD0 sl k = if k = st.cLow + 1 then getD0 yl (i + 1) - getD0 yl i else getD0 st.slLow k :=
    fun k => getD0_update _ hlw _ k
  have hpl := hlow.append (I' := getD0 il) (S' := getD0 sl) hbl
    (fun k hk => by rw [eil, if_neg (by omega)]) (by rw [eil, if_pos rfl])
    (fun k hk => by rw [esl, if_neg (by omega)]) (by rw [esl, if_pos rfl])
  obtain ⟨cl, il', sl', e1, Hl, b1, b2, b3, b4⟩ := popLow_spec yl hi (getD0 sl (st.sLow + 1)) _
    { st with cLow := st.cLow + 1, cUp := st.cUp + 1, idxUp := iu, idxLow := il, slLow := sl } rfl hpl
    (by simp; omega) hlw hcw le_rfl (fun _ => rfl)
  rw [e1]
  simp only [Option.bind_some]
  simp only [] at Hl b1 b2 b3 b4
  rw [rd_eq_getD0 _ hi, rd_eq_getD0 yu (show i + 1 - 1 < w by omega)]
  simp only [Option.bind_some]
  rw [wr_lt _ huw]
  simp only [Option.bind_some]
  set su := Function.update st.slUp ⟨st.cUp + 1, huw⟩ (getD0 yu (i + 1) - getD0 yu (i + 1 - 1)) with hsu'
  have esu : ∀ k, getD0 su k = if k = st.cUp + 1 then getD0 yu (i + 1) - getD0 yu i else getD0 st.slUp k :=
    fun k => getD0_update _ huw _ k
  have hpu := hup.append (I' := getD0 iu) (S' := fun k => -getD0 su k) hbu
    (fun k hk => by rw [eiu, if_neg (by omega)]) (by rw [eiu, if_pos rfl])
    (fun k hk => by rw [esu, if_neg (by omega)]) (by rw [esu, if_pos rfl]; ring)
  obtain ⟨cu, iu', su', e2, Hu, d1, d2, d3, d4⟩ := popUp_spec yu hi (getD0 su (st.sUp + 1)) _
    { st with cLow := cl, idxLow := il', slLow := sl', cUp := st.cUp + 1, idxUp := iu, slUp := su } rfl hpu
    (by simp; omega) huw hcw le_rfl (fun _ => rfl)
  rw [e2]
  simp only [Option.bind_some]
  simp only [] at Hu d1 d2 d3 d4
  obtain ⟨st', e3, a1, a2, a3⟩ := shifts_spec yl yu hi hY
    { st with cLow := cl, idxLow := il', slLow := sl', cUp := cu, idxUp := iu', slUp := su' }
    (by
      refine ⟨hkn, b1, d1, Hl, Hu, ?_⟩
      rcases h.inv with ⟨hi0, hc, hs, hs', _, _⟩ | hI
      · refine Or.inl ⟨hc, ?_, ?_⟩
        · show cl = st.sLow + 1
          omega
        · show cu = st.sUp + 1
          omega
      · have a := hI.se
        have b := hI.se'
        have f1 : getD0 sl (st.sLow + 1) = getD0 st.slLow (st.sLow + 1) := by rw [esl, if_neg (by omega)]
        have f2 : getD0 su (st.sUp + 1) = getD0 st.slUp (st.sUp + 1) := by rw [esu, if_neg (by omega)]
        refine Or.inr ⟨getD0 st.slLow (st.sLow + 1), getD0 st.slUp (st.sUp + 1), hI.ord, ?_, ?_, ?_, ?_, ?_, ?_, hI.J⟩
        · rw [← f1]; exact b3
        · rw [← f1]; exact b4
        · rw [← f2]; exact d3
        · rw [← f2]; exact d4
        · intro t h1 h2; exact hI.low.le_first h1 (by omega)
        · intro t h1 h2
          have := hI.up.le_first h1 (by omega : t ≤ i)
          show getD0 st.z st.c + getD0 st.slUp (st.sUp + 1) * ((t : K) - getD0 st.idx st.c) ≤ getD0 yu t
          linarith)
    (by show cl < w; omega) (by show cu < w; omega)
  refine ⟨st', e3, ⟨?_, ?_, Or.inr a1⟩, a1⟩
  · rw [a2]; show cl ≤ i + 1; omega
  · rw [a3]; show cu ≤ i + 1; omega

theorem mainLoop_spec (yl yu : Fin w → K) (hY : ∀ i < w, getD0 yl i ≤ getD0 yu i)
    (h0l : getD0 yl 0 = 0) (h0u : getD0 yu 0 = 0) : ∀ (N i : ℕ) (st : TVState w K), i + 1 + N = w → Ready yl yu st i →
      ∃ st', mainLoop yl yu (i + 1) st = some st' ∧ Ready yl yu st' (w - 1) := by
  intro N
  induction N with
  | zero =>
    intro i st hN h
    have e : i = w - 1 := by omega
    refine ⟨st, ?_, e ▸ h⟩
    rw [mainLoop, if_neg (by omega)]
  | succ N ih =>
    intro i st hN h
    obtain ⟨st', e, h1, _⟩ := iter_spec yl yu (by omega) (hY (i + 1) (by omega)) h0l h0u st h
    obtain ⟨st'', e', h2⟩ := ih (i + 1) st' (by omega) h1
    refine ⟨st'', ?_, h2⟩
    rw [mainLoop, if_pos (by omega), e]
    exact e'

end Copt.TV1D
