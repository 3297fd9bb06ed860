import Verif.Model.TVProx
import Mathlib.Tactic.Linarith
import Mathlib.Data.Finset.Defs

/-! # `_prox_tv1d` with arbitrary arithmetic: indices

The index arrays of the taut string algorithm stay strictly increasing whatever the outcome of the comparisons of slopes. -/

set_option linter.unusedSectionVars false

namespace Copt.TV1D

/-- Total reading of an index array. -/
def nth {w : ℕ} (a : Fin w → ℕ) (k : ℕ) : ℕ := if h : k < w then a ⟨k, h⟩ else 0

theorem rd_nth {w : ℕ} (a : Fin w → ℕ) {k : ℕ} (h : k < w) : rd a k = some (nth a k) := by
  rw [rd_lt a h, nth, dif_pos h]

theorem wr_nth {w : ℕ} (a : Fin w → ℕ) {k : ℕ} (h : k < w) (v : ℕ) :
    ∃ a', wr a k v = some a' ∧ ∀ m, nth a' m = if m = k then v else nth a m := by
  refine ⟨_, wr_lt a h v, fun m => ?_⟩
  unfold nth
  by_cases hm : m < w
  · simp only [hm, dif_pos]
    by_cases he : m = k
    · subst he; simp
    · rw [if_neg he, Function.update_of_ne (by simpa using he)]
  · simp only [hm, dif_neg, not_false_eq_true]
    rw [if_neg (by omega)]

/-- The stack of a hull: positions `s + 1 … c` hold increasing indices after `base`, the last being `i`. -/
structure Hull (ix : ℕ → ℕ) (base s c i : ℕ) : Prop where
  lt : s < c
  le : c ≤ i
  mono : ∀ k, s < k → k < c → ix k < ix (k + 1)
  base : base < ix (s + 1)
  last : ix c = i

theorem Hull.lt_last {ix : ℕ → ℕ} {base s c i : ℕ} (h : Hull ix base s c i) : ∀ d k, c = k + 1 + d → s < k → ix k < i
  | 0, k, hc, hk => by
    have := h.mono k hk (by omega)
    rw [show k + 1 = c by omega, h.last] at this
    exact this
  | d + 1, k, hc, hk => (h.mono k hk (by omega)).trans (h.lt_last d (k + 1) (by omega) (by omega))

theorem Hull.lt_i {ix : ℕ → ℕ} {base s c i : ℕ} (h : Hull ix base s c i) {k : ℕ} (hs : s < k) (hc : k < c) : ix k < i :=
  h.lt_last (c - k - 1) k (by omega) hs

theorem Hull.base_lt {ix : ℕ → ℕ} {base s c i : ℕ} (h : Hull ix base s c i) : base < i := by
  have h1 := h.base
  have h2 := h.lt
  by_cases hc : s + 1 = c
  · rw [hc, h.last] at h1; exact h1
  · exact h1.trans (h.lt_i (by omega) (by omega))

theorem Hull.add_le {ix : ℕ → ℕ} {base s c i : ℕ} (h : Hull ix base s c i) : ∀ d, s + 1 + d ≤ c → base + 1 + d ≤ ix (s + 1 + d)
  | 0, _ => h.base
  | d + 1, hd => by
    have h1 := h.add_le d (by omega)
    have h2 := h.mono (s + 1 + d) (by omega) (by omega)
    rw [show s + 1 + (d + 1) = s + 1 + d + 1 by omega]
    omega

theorem Hull.count {ix : ℕ → ℕ} {base s c i : ℕ} (h : Hull ix base s c i) : base + (c - s) ≤ i := by
  have h1 := h.add_le (c - s - 1) (by have := h.lt; omega)
  rw [show s + 1 + (c - s - 1) = c by have := h.lt; omega, h.last] at h1
  have := h.lt
  omega

theorem Hull.pop {ix ix' : ℕ → ℕ} {base s c i : ℕ} (h : Hull ix base s c i) (hc : s + 1 < c) (he : ∀ m, ix' m = if m = c - 1 then i else ix m) :
    Hull ix' base s (c - 1) i := by
  have hle := h.le
  refine ⟨by omega, by omega, fun k h1 h2 => ?_, ?_, by rw [he, if_pos rfl]⟩
  · rw [he, he, if_neg (by omega)]
    split
    · exact h.lt_i h1 (by omega)
    · exact h.mono k h1 (by omega)
  · rw [he]
    split
    · exact h.base_lt
    · exact h.base

theorem Hull.shift {ix : ℕ → ℕ} {base s c i : ℕ} (h : Hull ix base s c i) (hc : s + 1 < c) : Hull ix (ix (s + 1)) (s + 1) c i :=
  ⟨hc, h.le, fun k h1 h2 => h.mono k (by omega) h2, h.mono (s + 1) (by omega) hc, h.last⟩

theorem Hull.rebase {ix ix' : ℕ → ℕ} {base base' s c i : ℕ} (h : Hull ix base s c i) (hc : c = s + 1) (hb : base' < i) (he : ∀ m, s < m → ix' m = ix m) :
    Hull ix' base' s c i := by
  refine ⟨h.lt, h.le, fun k h1 h2 => by omega, ?_, ?_⟩
  · rw [he _ (by omega), ← hc, h.last]; exact hb
  · rw [he _ h.lt, h.last]

/-- A hull before its first point. -/
def HullPre (ix : ℕ → ℕ) (base s c i : ℕ) : Prop := Hull ix base s c i ∨ (s = c ∧ base = i ∧ c ≤ i)

theorem HullPre.push {ix ix' : ℕ → ℕ} {base s c i : ℕ} (h : HullPre ix base s c i) (he : ∀ m, ix' m = if m = c + 1 then i + 1 else ix m) :
    Hull ix' base s (c + 1) (i + 1) := by
  rcases h with h | ⟨h1, h2, h3⟩
  · have hlt := h.lt
    have hle := h.le
    refine ⟨by omega, by omega, fun k h1 h2 => ?_, ?_, by rw [he, if_pos rfl]⟩
    · rw [he, he, if_neg (by omega)]
      by_cases hk : k = c
      · subst hk; rw [if_pos rfl, h.last]; omega
      · rw [if_neg (by omega)]
        exact h.mono k h1 (by omega)
    · rw [he, if_neg (by omega)]; exact h.base
  · subst h1; subst h2
    refine ⟨by omega, by omega, fun k h1 h2 => by omega, by rw [he, if_pos rfl]; omega, by rw [he, if_pos rfl]⟩

variable {K : Type} [Zero K] [Add K] [Sub K] [Div K] [NatCast K] [LE K] [DecidableLE K] {w n : ℕ}

/-- The indices met during iteration `i`. -/
structure Shape (i : ℕ) (st : TVState w K) : Prop where
  low : Hull (nth st.idxLow) (nth st.idx st.c) st.sLow st.cLow i
  up : Hull (nth st.idxUp) (nth st.idx st.c) st.sUp st.cUp i
  knots : ∀ k < st.c, nth st.idx k < nth st.idx (k + 1)
  zero : nth st.idx 0 = 0

theorem le_knot {ix : ℕ → ℕ} {c : ℕ} (h : ∀ k < c, ix k < ix (k + 1)) : ∀ k ≤ c, k ≤ ix k
  | 0, _ => Nat.zero_le _
  | k + 1, hk => by
    have := le_knot h k (by omega)
    have := h k (by omega)
    omega

theorem Shape.c_lt {i : ℕ} {st : TVState w K} (h : Shape i st) : st.c < i := lt_of_le_of_lt (le_knot h.knots _ le_rfl) h.low.base_lt

theorem divNat_some (a : K) {i l : ℕ} (h : l < i) : ∃ q, divNat a i l = some q := ⟨_, if_neg (by omega)⟩

theorem rd_some {α : Type} (a : Fin w → α) {k : ℕ} (h : k < w) : ∃ x, rd a k = some x := ⟨_, rd_lt a h⟩

theorem wr_some {α : Type} (a : Fin w → α) {k : ℕ} (h : k < w) (v : α) : ∃ a', wr a k v = some a' := ⟨_, wr_lt a h v⟩

theorem hullSlope_some (y : Fin w → K) {i : ℕ} (hi : i < w) {idxH : Fin w → ℕ} {s cur : ℕ} {idx : Fin w → ℕ} (z : Fin w → K) {c : ℕ}
    (h : Hull (nth idxH) (nth idx c) s cur i) (hc : c < w) : ∃ q, hullSlope y i idxH s cur idx z c = some q := by
  unfold hullSlope
  have hle := h.le
  obtain ⟨yi, hyi⟩ := rd_some y hi
  by_cases hcur : cur > s + 1
  · rw [if_pos hcur]
    have hl := h.lt_i (k := cur - 1) (by omega) (by omega)
    obtain ⟨yb, hyb⟩ := rd_some y (hl.trans hi)
    rw [rd_nth idxH (by omega)]
    simp only [Option.bind_eq_bind, Option.bind_some, hyi, hyb]
    exact divNat_some _ hl
  · rw [if_neg hcur]
    have hl := h.base_lt
    obtain ⟨zb, hzb⟩ := rd_some z hc
    rw [rd_nth idx hc]
    simp only [Option.bind_eq_bind, Option.bind_some, hyi, hzb]
    exact divNat_some _ hl

theorem popLow_some (yl : Fin w → K) {i : ℕ} (hi : i < w) : ∀ (N : ℕ) (st : TVState w K), st.cLow = N → Shape i st →
    ∃ st', popLow yl i st = some st' ∧ Shape i st' := by
  intro N
  induction N with
  | zero => intro st h hs; have := hs.low.lt; omega
  | succ N ih =>
    intro st hN hs
    unfold popLow
    have hle := hs.low.le
    have hlt := hs.low.lt
    have hc := hs.c_lt
    by_cases h1 : st.cLow > st.sLow + 1
    · rw [if_pos h1]
      obtain ⟨a, ha⟩ := rd_some st.slLow (k := max st.sLow (st.cLow - 1)) (by omega)
      obtain ⟨b, hb⟩ := rd_some st.slLow (k := st.cLow) (by omega)
      obtain ⟨ix, hix, he⟩ := wr_nth st.idxLow (k := st.cLow - 1) (by omega) i
      have hp := hs.low.pop h1 he
      obtain ⟨q, hq⟩ := hullSlope_some yl hi (idx := st.idx) st.z hp (by omega)
      obtain ⟨sl, hsl⟩ := wr_some st.slLow (k := st.cLow - 1) (by omega) q
      simp only [Option.bind_eq_bind, Option.bind_some, ha, hb, hix, hq, hsl]
      split
      · exact ih _ (by simp; omega) ⟨hp, hs.up, hs.knots, hs.zero⟩
      · exact ⟨st, rfl, hs⟩
    · rw [if_neg h1]
      exact ⟨st, rfl, hs⟩

theorem popUp_some (yu : Fin w → K) {i : ℕ} (hi : i < w) : ∀ (N : ℕ) (st : TVState w K), st.cUp = N → Shape i st →
    ∃ st', popUp yu i st = some st' ∧ Shape i st' := by
  intro N
  induction N with
  | zero => intro st h hs; have := hs.up.lt; omega
  | succ N ih =>
    intro st hN hs
    unfold popUp
    have hle := hs.up.le
    have hlt := hs.up.lt
    have hc := hs.c_lt
    by_cases h1 : st.cUp > st.sUp + 1
    · rw [if_pos h1]
      obtain ⟨a, ha⟩ := rd_some st.slUp (k := max (st.cUp - 1) st.sUp) (by omega)
      obtain ⟨b, hb⟩ := rd_some st.slUp (k := st.cUp) (by omega)
      obtain ⟨ix, hix, he⟩ := wr_nth st.idxUp (k := st.cUp - 1) (by omega) i
      have hp := hs.up.pop h1 he
      obtain ⟨q, hq⟩ := hullSlope_some yu hi (idx := st.idx) st.z hp (by omega)
      obtain ⟨sl, hsl⟩ := wr_some st.slUp (k := st.cUp - 1) (by omega) q
      simp only [Option.bind_eq_bind, Option.bind_some, ha, hb, hix, hq, hsl]
      split
      · exact ih _ (by simp; omega) ⟨hs.low, hp, hs.knots, hs.zero⟩
      · exact ⟨st, rfl, hs⟩
    · rw [if_neg h1]
      exact ⟨st, rfl, hs⟩

/-- A new knot at `l`. -/
theorem knot_push {ix ix' : ℕ → ℕ} {c l : ℕ} (h : ∀ k < c, ix k < ix (k + 1)) (hl : ix c < l) (he : ∀ m, ix' m = if m = c + 1 then l else ix m) :
    ∀ k < c + 1, ix' k < ix' (k + 1) := by
  intro k hk
  rw [he, he, if_neg (by omega)]
  by_cases hkc : k = c
  · subst hkc; rw [if_pos rfl]; exact hl
  · rw [if_neg (by omega)]; exact h k (by omega)

theorem shiftUp_some (yl yu : Fin w → K) {i : ℕ} (hi : i < w) : ∀ (N : ℕ) (st : TVState w K), st.cUp - st.sUp = N → Shape i st →
    ∃ st', shiftUp yl yu i st = some st' ∧ Shape i st' := by
  intro N
  induction N with
  | zero => intro st h hs; have := hs.up.lt; omega
  | succ N ih =>
    intro st hN hs
    unfold shiftUp
    have hle := hs.up.le
    have hle' := hs.low.le
    have hlt' := hs.low.lt
    have hc := hs.c_lt
    by_cases h1 : st.cLow = st.sLow + 1 ∧ st.cUp > st.sUp + 1
    · rw [if_pos h1]
      have hl : nth st.idxUp (st.sUp + 1) < i := hs.up.lt_i (by omega) h1.2
      obtain ⟨a, ha⟩ := rd_some st.slLow (k := st.cLow) (by omega)
      obtain ⟨b, hb⟩ := rd_some st.slUp (k := st.sUp + 1) (by omega)
      obtain ⟨ix, hix, he⟩ := wr_nth st.idx (k := st.c + 1) (by omega) (nth st.idxUp (st.sUp + 1))
      obtain ⟨zc, hzc⟩ := rd_some yu (hl.trans hi)
      obtain ⟨z, hz⟩ := wr_some st.z (k := st.c + 1) (by omega) zc
      obtain ⟨il, hil, hel⟩ := wr_nth st.idxLow (k := st.sLow) (by omega) (nth st.idxUp (st.sUp + 1))
      obtain ⟨yi, hyi⟩ := rd_some yl hi
      obtain ⟨q, hq⟩ := divNat_some (yi - zc) hl
      obtain ⟨sl, hsl⟩ := wr_some st.slLow (k := st.cLow) (by omega) q
      simp only [Option.bind_eq_bind, Option.bind_some, ha, hb, rd_nth st.idxUp (show st.sUp + 1 < w by omega), hix, hzc, hz, hil, hyi, hq, hsl]
      have hbase : nth ix (st.c + 1) = nth st.idxUp (st.sUp + 1) := by rw [he, if_pos rfl]
      split
      · refine ih _ (by simp; omega) ⟨?_, ?_, knot_push hs.knots hs.up.base he, ?_⟩
        · show Hull (nth il) (nth ix (st.c + 1)) st.sLow st.cLow i
          exact hs.low.rebase h1.1 (by rw [hbase]; exact hl) (fun m hm => by rw [hel, if_neg (by omega)])
        · show Hull (nth st.idxUp) (nth ix (st.c + 1)) (st.sUp + 1) st.cUp i
          rw [hbase]
          exact hs.up.shift h1.2
        · show nth ix 0 = 0
          rw [he, if_neg (by omega), hs.zero]
      · exact ⟨st, rfl, hs⟩
    · rw [if_neg h1]
      exact ⟨st, rfl, hs⟩

theorem shiftLow_some (yl yu : Fin w → K) {i : ℕ} (hi : i < w) : ∀ (N : ℕ) (st : TVState w K), st.cLow - st.sLow = N → Shape i st →
    ∃ st', shiftLow yl yu i st = some st' ∧ Shape i st' := by
  intro N
  induction N with
  | zero => intro st h hs; have := hs.low.lt; omega
  | succ N ih =>
    intro st hN hs
    unfold shiftLow
    have hle := hs.up.le
    have hle' := hs.low.le
    have hlt' := hs.up.lt
    have hc := hs.c_lt
    by_cases h1 : st.cUp = st.sUp + 1 ∧ st.cLow > st.sLow + 1
    · rw [if_pos h1]
      have hl : nth st.idxLow (st.sLow + 1) < i := hs.low.lt_i (by omega) h1.2
      obtain ⟨a, ha⟩ := rd_some st.slUp (k := st.cUp) (by omega)
      obtain ⟨b, hb⟩ := rd_some st.slLow (k := st.sLow + 1) (by omega)
      obtain ⟨ix, hix, he⟩ := wr_nth st.idx (k := st.c + 1) (by omega) (nth st.idxLow (st.sLow + 1))
      obtain ⟨zc, hzc⟩ := rd_some yl (hl.trans hi)
      obtain ⟨z, hz⟩ := wr_some st.z (k := st.c + 1) (by omega) zc
      obtain ⟨il, hil, hel⟩ := wr_nth st.idxUp (k := st.sUp) (by omega) (nth st.idxLow (st.sLow + 1))
      obtain ⟨yi, hyi⟩ := rd_some yu hi
      obtain ⟨q, hq⟩ := divNat_some (yi - zc) hl
      obtain ⟨sl, hsl⟩ := wr_some st.slUp (k := st.cUp) (by omega) q
      simp only [Option.bind_eq_bind, Option.bind_some, ha, hb, rd_nth st.idxLow (show st.sLow + 1 < w by omega), hix, hzc, hz, hil, hyi, hq, hsl]
      have hbase : nth ix (st.c + 1) = nth st.idxLow (st.sLow + 1) := by rw [he, if_pos rfl]
      split
      · refine ih _ (by simp; omega) ⟨?_, ?_, knot_push hs.knots hs.low.base he, ?_⟩
        · show Hull (nth st.idxLow) (nth ix (st.c + 1)) (st.sLow + 1) st.cLow i
          rw [hbase]
          exact hs.low.shift h1.2
        · show Hull (nth il) (nth ix (st.c + 1)) st.sUp st.cUp i
          exact hs.up.rebase h1.1 (by rw [hbase]; exact hl) (fun m hm => by rw [hel, if_neg (by omega)])
        · show nth ix 0 = 0
          rw [he, if_neg (by omega), hs.zero]
      · exact ⟨st, rfl, hs⟩
    · rw [if_neg h1]
      exact ⟨st, rfl, hs⟩

/-- The indices between two iterations. -/
structure ShapePre (i : ℕ) (st : TVState w K) : Prop where
  low : HullPre (nth st.idxLow) (nth st.idx st.c) st.sLow st.cLow i
  up : HullPre (nth st.idxUp) (nth st.idx st.c) st.sUp st.cUp i
  knots : ∀ k < st.c, nth st.idx k < nth st.idx (k + 1)
  zero : nth st.idx 0 = 0

theorem HullPre.le {ix : ℕ → ℕ} {base s c i : ℕ} (h : HullPre ix base s c i) : c ≤ i := h.elim (fun h => h.le) (fun h => h.2.2)

theorem iter_some (yl yu : Fin w → K) {i : ℕ} (hi : i + 1 < w) (st : TVState w K) (hs : ShapePre i st) :
    ∃ st', iter yl yu (i + 1) st = some st' ∧ Shape (i + 1) st' := by
  have hl := hs.low.le
  have hu := hs.up.le
  obtain ⟨iu, hiu, heu⟩ := wr_nth st.idxUp (k := st.cUp + 1) (by omega) (i + 1)
  obtain ⟨il, hil, hel⟩ := wr_nth st.idxLow (k := st.cLow + 1) (by omega) (i + 1)
  obtain ⟨l1, hl1⟩ := rd_some yl hi
  obtain ⟨l0, hl0⟩ := rd_some yl (k := i + 1 - 1) (by omega)
  obtain ⟨sl, hsl⟩ := wr_some st.slLow (k := st.cLow + 1) (by omega) (l1 - l0)
  have h0 : Shape (i + 1) { st with cLow := st.cLow + 1, cUp := st.cUp + 1, idxUp := iu, idxLow := il, slLow := sl } :=
    ⟨hs.low.push hel, hs.up.push heu, hs.knots, hs.zero⟩
  obtain ⟨st1, h1, hs1⟩ := popLow_some yl hi _ _ rfl h0
  obtain ⟨u1, hu1⟩ := rd_some yu hi
  obtain ⟨u0, hu0⟩ := rd_some yu (k := i + 1 - 1) (by omega)
  obtain ⟨su, hsu⟩ := wr_some st1.slUp (k := st1.cUp) (by have := hs1.up.le; omega) (u1 - u0)
  obtain ⟨st2, h2, hs2⟩ := popUp_some yu hi _ { st1 with slUp := su } rfl ⟨hs1.low, hs1.up, hs1.knots, hs1.zero⟩
  obtain ⟨st3, h3, hs3⟩ := shiftUp_some yl yu hi _ st2 rfl hs2
  obtain ⟨st4, h4, hs4⟩ := shiftLow_some yl yu hi _ st3 rfl hs3
  refine ⟨st4, ?_, hs4⟩
  unfold iter
  simp only [Option.bind_eq_bind, Option.bind_some, hiu, hil, hl1, hl0, hsl, h1, hu1, hu0, hsu, h2, h3, h4]

theorem mainLoop_some (yl yu : Fin w → K) : ∀ (d i : ℕ) (st : TVState w K), i + 1 + d = w → ShapePre i st →
    ∃ st', mainLoop yl yu (i + 1) st = some st' ∧ (0 < d → Shape (w - 1) st')
  | 0, i, st, hd, hs => by
    unfold mainLoop
    rw [if_neg (by omega)]
    exact ⟨st, rfl, fun h => absurd h (by omega)⟩
  | d + 1, i, st, hd, hs => by
    unfold mainLoop
    rw [if_pos (by omega)]
    obtain ⟨st1, h1, hs1⟩ := iter_some yl yu (by omega) st hs
    obtain ⟨st2, h2, hs2⟩ := mainLoop_some yl yu d (i + 1) st1 (by omega) ⟨Or.inl hs1.low, Or.inl hs1.up, hs1.knots, hs1.zero⟩
    rw [h1]
    refine ⟨st2, h2, fun _ => ?_⟩
    rcases Nat.eq_zero_or_pos d with h0 | h0
    · subst h0
      unfold mainLoop at h2
      rw [if_neg (by omega)] at h2
      obtain rfl := Option.some.inj h2
      rw [show w - 1 = i + 1 by omega]
      exact hs1
    · exact hs2 h0

/-- After the copies of lines 124-126 the knots run from 0 to the last index. -/
theorem copyKnots_some (yl : Fin w → K) {N : ℕ} (hN : N < w) {il : ℕ → ℕ} {base s cl c0 : ℕ} (hh : Hull il base s cl N) (hc : c0 ≤ base) :
    ∀ (d k : ℕ) (st : TVState w K), k + 1 + d = cl - s + 1 → nth st.idxLow = il → st.sLow = s → st.cLow = cl → st.c = c0 → nth st.idx c0 = base →
      (∀ m < c0 + k, nth st.idx m < nth st.idx (m + 1)) → (0 < k → nth st.idx (c0 + k) = il (s + k)) → nth st.idx 0 = 0 →
      ∃ st', copyKnots yl (k + 1) st = some st' ∧ st'.c = c0 ∧ st'.cLow = cl ∧ st'.sLow = s ∧ (∀ m < c0 + (cl - s), nth st'.idx m < nth st'.idx (m + 1)) ∧
        nth st'.idx (c0 + (cl - s)) = N ∧ nth st'.idx 0 = 0
  | 0, k, st, hd, e1, e2, e3, e4, e5, hk, hl, hz => by
    have hlt := hh.lt
    unfold copyKnots
    rw [if_neg (by rw [e2, e3]; omega)]
    have hkk : k = cl - s := by omega
    refine ⟨st, rfl, e4, e3, e2, by rw [← hkk]; exact hk, ?_, hz⟩
    rw [← hkk, hl (by omega), show s + k = cl by omega, hh.last]
  | d + 1, k, st, hd, e1, e2, e3, e4, e5, hk, hl, hz => by
    have hlt := hh.lt
    have hle := hh.le
    have hcnt := hh.count
    unfold copyKnots
    rw [if_pos (by rw [e2, e3]; omega)]
    have hlast : il (s + (k + 1)) ≤ N := by
      by_cases h : s + (k + 1) = cl
      · rw [h, hh.last]
      · exact (hh.lt_i (by omega) (by omega)).le
    obtain ⟨ix, hix, he⟩ := wr_nth st.idx (k := st.c + (k + 1)) (by omega) (il (s + (k + 1)))
    obtain ⟨zc, hzc⟩ := rd_some yl (lt_of_le_of_lt hlast hN)
    obtain ⟨z, hz'⟩ := wr_some st.z (k := st.c + (k + 1)) (by omega) zc
    rw [rd_nth st.idxLow (by omega), e1, e2]
    simp only [Option.bind_eq_bind, Option.bind_some, hix, hzc, hz']
    rw [e4] at he
    refine copyKnots_some yl hN hh hc d (k + 1) _ (by omega) e1 rfl e3 e4 ?_ ?_ ?_ ?_
    · show nth ix c0 = base
      rw [he, if_neg (by omega), e5]
    · show ∀ m < c0 + (k + 1), nth ix m < nth ix (m + 1)
      refine knot_push (c := c0 + k) hk ?_ he
      rcases Nat.eq_zero_or_pos k with h0 | h0
      · subst h0; rw [add_zero, e5]; exact hh.base
      · rw [hl h0]
        exact hh.mono (s + k) (by omega) (by omega)
    · intro _
      show nth ix (c0 + (k + 1)) = _
      rw [he, if_pos rfl]
    · show nth ix 0 = 0
      rw [he, if_neg (by omega), hz]

theorem writeSeg_eq (a : K) (l : ℕ) (hl : l ≤ n) : ∀ (d j : ℕ) (out : Fin n → K), j + d = l →
    writeSeg a l j out = some (l, fun k => if j ≤ k.val ∧ k.val < l then a else out k)
  | 0, j, out, h => by
    unfold writeSeg
    rw [if_neg (by omega)]
    simp only [Option.some.injEq, Prod.mk.injEq]
    refine ⟨by omega, funext fun k => ?_⟩
    rw [if_neg (by omega)]
  | d + 1, j, out, h => by
    unfold writeSeg
    rw [if_pos (by omega), wr_lt out (by omega)]
    show writeSeg a l (j + 1) _ = _
    rw [writeSeg_eq a l hl d (j + 1) _ (by omega)]
    simp only [Option.some.injEq, Prod.mk.injEq, true_and]
    funext k
    by_cases hk : k.val = j
    · rw [if_neg (by omega), if_pos (by omega), show (⟨j, by omega⟩ : Fin n) = k from Fin.ext hk.symm, Function.update_self]
    · rw [Function.update_of_ne (fun e => hk (by rw [e]))]
      by_cases h2 : j + 1 ≤ k.val ∧ k.val < l
      · rw [if_pos h2, if_pos (by omega)]
      · rw [if_neg h2, if_neg (by omega)]

/-- The slopes are written to every element. -/
theorem writeOut_some {idx : Fin w → ℕ} {z : Fin w → K} {c : ℕ} (hc : c < w) (hk : ∀ m < c, nth idx m < nth idx (m + 1)) (hl : nth idx c = n) :
    ∀ (d i j : ℕ) (out0 : Fin n → K), i + d = c → nth idx i = j →
      ∃ r, ∀ out : Fin n → K, (∀ k, k.val < j → out k = out0 k) → writeOut idx z c (i + 1) j out = some r
  | 0, i, j, out0, hd, hj => by
    refine ⟨out0, fun out ho => ?_⟩
    unfold writeOut
    rw [if_neg (by omega)]
    congr 1
    funext k
    refine ho k ?_
    rw [← hj, show i = c by omega, hl]
    exact k.isLt
  | d + 1, i, j, out0, hd, hj => by
    have h1 := hk i (by omega)
    have hup : ∀ e m, m + e = c → nth idx m ≤ nth idx c := by
      intro e
      induction e with
      | zero => intro m hm; rw [show m = c by omega]
      | succ e ih => intro m hm; exact (hk m (by omega)).le.trans (ih (m + 1) (by omega))
    have h2 : nth idx (i + 1) ≤ n := by
      rw [← hl]; exact hup d (i + 1) (by omega)
    obtain ⟨zi, hzi⟩ := rd_some z (k := i + 1) (by omega)
    obtain ⟨zp, hzp⟩ := rd_some z (k := i + 1 - 1) (by omega)
    obtain ⟨a, ha⟩ := divNat_some (zi - zp) h1
    obtain ⟨r, hr⟩ := writeOut_some hc hk hl d (i + 1) (nth idx (i + 1)) (fun k => if j ≤ k.val ∧ k.val < nth idx (i + 1) then a else out0 k) (by omega) rfl
    refine ⟨r, fun out ho => ?_⟩
    unfold writeOut
    rw [if_pos (by omega), hzi, hzp, rd_nth idx (by omega), rd_nth idx (show i + 1 - 1 < w by omega), show i + 1 - 1 = i by omega]
    simp only [Option.bind_eq_bind, Option.bind_some, ha]
    rw [writeSeg_eq a _ h2 (nth idx (i + 1) - j) j out (by omega)]
    simp only [Option.bind_some]
    refine hr _ fun k hk' => ?_
    split
    · rfl
    · exact ho k (by omega)

theorem fillY_some (input : Fin n → K) : ∀ (d i : ℕ) (yl0 yu0 : Fin (n + 1) → K), 2 ≤ i → i + d = n + 1 →
    ∃ r, ∀ yl yu : Fin (n + 1) → K, (∀ k, k.val < i → yl k = yl0 k) → (∀ k, k.val < i → yu k = yu0 k) → fillY input i yl yu = some r
  | 0, i, yl0, yu0, h2, hd => by
    refine ⟨(yl0, yu0), fun yl yu h3 h4 => ?_⟩
    unfold fillY
    rw [if_neg (by omega), show yl = yl0 from funext fun k => h3 k (by omega), show yu = yu0 from funext fun k => h4 k (by omega)]
  | d + 1, i, yl0, yu0, h2, hd => by
    have hi : i < n + 1 := by omega
    have hi' : i - 1 < n + 1 := by omega
    obtain ⟨r, hr⟩ := fillY_some input d (i + 1) (Function.update yl0 ⟨i, hi⟩ (yl0 ⟨i - 1, hi'⟩ + input ⟨i - 1, by omega⟩))
      (Function.update yu0 ⟨i, hi⟩ (yu0 ⟨i - 1, hi'⟩ + input ⟨i - 1, by omega⟩)) (by omega) (by omega)
    refine ⟨r, fun yl yu h3 h4 => ?_⟩
    unfold fillY
    rw [if_pos hi, rd_lt yl hi', rd_lt yu hi', rd_lt input (show i - 1 < n by omega)]
    simp only [Option.bind_eq_bind, Option.bind_some, wr_lt _ hi]
    refine hr _ _ (fun k hk => ?_) (fun k hk => ?_)
    · by_cases he : k = ⟨i, hi⟩
      · rw [he, Function.update_self, Function.update_self, h3 ⟨i - 1, hi'⟩ (by show i - 1 < i; omega)]
      · rw [Function.update_of_ne he, Function.update_of_ne he]
        exact h3 k (by have : k.val ≠ i := fun e => he (Fin.ext e); omega)
    · by_cases he : k = ⟨i, hi⟩
      · rw [he, Function.update_self, Function.update_self, h4 ⟨i - 1, hi'⟩ (by show i - 1 < i; omega)]
      · rw [Function.update_of_ne he, Function.update_of_ne he]
        exact h4 k (by have : k.val ≠ i := fun e => he (Fin.ext e); omega)

theorem tubes_some (hn : 0 < n) (step : K) (input : Fin n → K) : ∃ r, ∀ yl yu, tubes step input yl yu = some r := by
  have h0 : 0 < n + 1 := by omega
  have h1 : 1 < n + 1 := by omega
  have hn' : n < n + 1 := by omega
  obtain ⟨r, hr⟩ := fillY_some input (n - 1) 2 (fun k => if k.val = 0 then 0 else input ⟨0, hn⟩ - step)
    (fun k => if k.val = 0 then 0 else input ⟨0, hn⟩ + step) le_rfl (by omega)
  refine ⟨(Function.update r.1 ⟨n, hn'⟩ (r.1 ⟨n, hn'⟩ + step), Function.update r.2 ⟨n, hn'⟩ (r.2 ⟨n, hn'⟩ - step)), fun yl yu => ?_⟩
  unfold tubes
  simp only [wr_lt _ h0, wr_lt _ h1, rd_lt _ hn, Option.bind_eq_bind, Option.bind_some]
  have two : ∀ (y : Fin (n + 1) → K) (a : K), ∀ k : Fin (n + 1), k.val < 2 →
      Function.update (Function.update y ⟨0, h0⟩ 0) ⟨1, h1⟩ a k = if k.val = 0 then 0 else a := by
    intro y a k hk
    by_cases hk0 : k.val = 0
    · rw [if_pos hk0, Function.update_of_ne (fun e => by rw [e] at hk0; simp at hk0), show k = ⟨0, h0⟩ from Fin.ext hk0, Function.update_self]
    · rw [if_neg hk0, show k = ⟨1, h1⟩ from Fin.ext (by show k.val = 1; omega), Function.update_self]
  rw [hr _ _ (two yl _) (two yu _)]
  simp only [Option.bind_some, rd_lt _ hn', wr_lt _ hn', pure]

/-- `_prox_tv1d` with arbitrary operations and comparisons. -/
theorem lowLevel_some (hn : 0 < n) (posInf negInf : K) (step : K) (input : Fin n → K) :
    ∃ out, ∀ yl yu out0, lowLevel ⟨yl, yu, out0, posInf, negInf⟩ step input = some out := by
  obtain ⟨⟨Yl, Yu⟩, hY⟩ := tubes_some hn step input
  have h0 : 0 < n + 1 := by omega
  obtain ⟨st0, hst0⟩ : ∃ st0 : TVState (n + 1) K, st0 = ⟨fun _ => 0, Function.update (fun _ => 0) ⟨0, h0⟩ posInf, fun _ => 0,
    Function.update (fun _ => 0) ⟨0, h0⟩ negInf, fun _ => 0, Function.update (fun _ => 0) ⟨0, h0⟩ (Yl ⟨0, h0⟩), 0, 0, 0, 0, 0⟩ := ⟨_, rfl⟩
  have hz : nth (fun _ : Fin (n + 1) => 0) 0 = 0 := by unfold nth; split <;> rfl
  have hpre : ShapePre 0 st0 := by
    rw [hst0]
    exact ⟨Or.inr ⟨rfl, hz, le_rfl⟩, Or.inr ⟨rfl, hz, le_rfl⟩, fun k hk => absurd hk (by simp), hz⟩
  obtain ⟨st1, h1, hs1'⟩ := mainLoop_some Yl Yu n 0 st0 (by omega) hpre
  have hs1 := hs1' hn
  rw [show n + 1 - 1 = n by omega] at hs1
  obtain ⟨st2, h2, e1, e2, e3, hk, hl, hz2⟩ := copyKnots_some Yl (by omega) hs1.low (le_knot hs1.knots _ le_rfl) (st1.cLow - st1.sLow) 0 st1 (by omega) rfl rfl rfl rfl rfl
    hs1.knots (fun h => absurd h (by omega)) hs1.zero
  have hlt := hs1.low.lt
  have hcnt := hs1.low.count
  have hkn := le_knot hs1.knots _ le_rfl
  have ec : st2.c + st2.cLow - st2.sLow = st1.c + (st1.cLow - st1.sLow) := by rw [e1, e2, e3]; omega
  obtain ⟨r, hr⟩ := writeOut_some (z := st2.z) (by omega) hk hl (st1.c + (st1.cLow - st1.sLow)) 0 0 (fun _ => 0) (by omega) hz2
  refine ⟨r, fun yl yu out0 => ?_⟩
  unfold lowLevel
  simp only [hY, Option.bind_eq_bind, Option.bind_some, wr_lt _ h0, rd_lt _ h0]
  rw [← hst0, show (mainLoop Yl Yu 1 st0 : Option (TVState (n + 1) K)) = some st1 from h1]
  simp only [Option.bind_some]
  rw [show (copyKnots Yl 1 st1 : Option (TVState (n + 1) K)) = some st2 from h2]
  simp only [Option.bind_some]
  rw [ec]
  exact hr out0 fun k hk => absurd hk (by omega)

end Copt.TV1D
