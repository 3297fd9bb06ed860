import Mathlib.Tactic.FieldSimp
import Mathlib.Tactic.GCongr
import Mathlib.Tactic.Push
import Verif.Proof.Basic

/-!
# Mathematics of the taut-string algorithm

Everything here is about functions on `ℕ`; the link with the buffers of the code is in `Proof/TV1D`.

A *hull* is a chain of segments starting at the base point `(b, B)` and passing through points
`(I k, Y (I k))`, `s < k ≤ e`, whose slopes are `S k`.  It lies above `Y` and its slopes decrease.
The hull of the upper tube is the hull of `-Y_up` with opposite slopes.
-/

set_option linter.unusedSectionVars false

namespace Copt.TV

variable {K : Type} [Field K] [LinearOrder K] [IsStrictOrderedRing K]

/-- Abscissa of the `k`-th hull point. -/
def hP (b : ℕ) (I : ℕ → ℕ) (s k : ℕ) : ℕ := if k = s then b else I k

/-- Ordinate of the `k`-th hull point. -/
def hH (Y : ℕ → K) (B : K) (I : ℕ → ℕ) (s k : ℕ) : K := if k = s then B else Y (I k)

theorem hP_base (b : ℕ) (I : ℕ → ℕ) (s : ℕ) : hP b I s s = b := if_pos rfl
theorem hP_of_lt (b : ℕ) (I : ℕ → ℕ) {s k : ℕ} (h : s < k) : hP b I s k = I k := if_neg (by omega)
theorem hH_base (Y : ℕ → K) (B : K) (I : ℕ → ℕ) (s : ℕ) : hH Y B I s s = B := if_pos rfl
theorem hH_of_lt (Y : ℕ → K) (B : K) (I : ℕ → ℕ) {s k : ℕ} (h : s < k) : hH Y B I s k = Y (I k) := if_neg (by omega)

/-- A hull ending at abscissa `i`, except that the last two slopes need not decrease. -/
structure PreHull (Y : ℕ → K) (b : ℕ) (B : K) (I : ℕ → ℕ) (S : ℕ → K) (s e i : ℕ) : Prop where
  se : s ≤ e
  mono : ∀ k, s ≤ k → k < e → hP b I s k < hP b I s (k + 1)
  last : hP b I s e = i
  slope : ∀ k, s ≤ k → k < e →
    S (k + 1) * ((hP b I s (k + 1) : K) - hP b I s k) = hH Y B I s (k + 1) - hH Y B I s k
  maj : ∀ k, s ≤ k → k < e → ∀ t, hP b I s k < t → t ≤ hP b I s (k + 1) →
    Y t ≤ hH Y B I s k + S (k + 1) * ((t : K) - hP b I s k)
  dec : ∀ k, s < k → k + 1 < e → S (k + 1) < S k

/-- A hull: all slopes decrease. -/
structure Hull (Y : ℕ → K) (b : ℕ) (B : K) (I : ℕ → ℕ) (S : ℕ → K) (s e i : ℕ) : Prop
    extends PreHull Y b B I S s e i where
  declast : s + 1 < e → S e < S (e - 1)

variable {Y : ℕ → K} {b : ℕ} {B : K} {I I' : ℕ → ℕ} {S S' : ℕ → K} {s e i : ℕ}

theorem Hull.dec' (h : Hull Y b B I S s e i) : ∀ k, s < k → k < e → S (k + 1) < S k := by
  intro k h1 h2
  rcases Nat.lt_or_ge (k + 1) e with h3 | h3
  · exact h.dec k h1 h3
  · have : e = k + 1 := by omega
    subst this
    exact h.declast (by omega)

/-- Appending the point `i + 1` (tv_prox.py:74-77). -/
theorem Hull.append (h : Hull Y b B I S s e i) (hB : e = s → B = Y b)
    (hI : ∀ k, k ≤ e → I' k = I k) (hIe : I' (e + 1) = i + 1)
    (hS : ∀ k, k ≤ e → S' k = S k) (hSe : S' (e + 1) = Y (i + 1) - Y i) :
    PreHull Y b B I' S' s (e + 1) (i + 1) := by
  have hse := h.se
  have hP : ∀ k, k ≤ e → hP b I' s k = hP b I s k := by
    intro k hk; unfold TV.hP; rw [hI k hk]
  have hH : ∀ k, k ≤ e → hH Y B I' s k = hH Y B I s k := by
    intro k hk; unfold TV.hH; rw [hI k hk]
  have hPe : TV.hP b I' s (e + 1) = i + 1 := by rw [hP_of_lt _ _ (by omega), hIe]
  have hHe : TV.hH Y B I' s (e + 1) = Y (i + 1) := by rw [hH_of_lt _ _ _ (by omega), hIe]
  have hPe' : TV.hP b I' s e = i := by rw [hP e le_rfl, h.last]
  have hHe' : TV.hH Y B I' s e = Y i := by
    rw [hH e le_rfl]
    rcases hse.lt_or_eq with h1 | h1
    · have := h.last; rw [hP_of_lt _ _ h1] at this
      rw [hH_of_lt _ _ _ h1, this]
    · have := h.last; rw [← h1, hP_base] at this
      rw [← h1, hH_base, hB h1.symm, this]
  refine ⟨by omega, ?_, hPe, ?_, ?_, ?_⟩
  · intro k h1 h2
    rcases Nat.lt_or_ge k e with h3 | h3
    · rw [hP k (by omega), hP (k + 1) (by omega)]; exact h.mono k h1 h3
    · have : k = e := by omega
      subst this; rw [hPe, hPe']; omega
  · intro k h1 h2
    rcases Nat.lt_or_ge k e with h3 | h3
    · rw [hP k (by omega), hP (k + 1) (by omega), hH k (by omega), hH (k + 1) (by omega), hS (k + 1) (by omega)]
      exact h.slope k h1 h3
    · have : k = e := by omega
      subst this; rw [hPe, hPe', hHe, hHe', hSe]; push_cast; ring
  · intro k h1 h2 t h4 h5
    rcases Nat.lt_or_ge k e with h3 | h3
    · rw [hP k (by omega)] at h4; rw [hP (k + 1) (by omega)] at h5
      rw [hP k (by omega), hH k (by omega), hS (k + 1) (by omega)]
      exact h.maj k h1 h3 t h4 h5
    · have : k = e := by omega
      subst this; rw [hPe'] at h4; rw [hPe] at h5
      have : t = i + 1 := by omega
      subst this
      rw [hHe', hSe, hPe']; push_cast; linarith
  · intro k h1 h2
    rw [hS k (by omega), hS (k + 1) (by omega)]
    exact h.dec' k h1 (by omega)

/-- Popping the last but one point (tv_prox.py:78-88). -/
theorem PreHull.pop (h : PreHull Y b B I S s e i) (he : s + 1 < e) (hle : S (e - 1) ≤ S e)
    (hI : ∀ k, k < e - 1 → I' k = I k) (hIe : I' (e - 1) = i)
    (hS : ∀ k, k < e - 1 → S' k = S k)
    (hSe : S' (e - 1) = (Y i - hH Y B I s (e - 2)) / ((i : K) - hP b I s (e - 2))) :
    PreHull Y b B I' S' s (e - 1) i ∧ S (e - 1) ≤ S' (e - 1) := by
  obtain ⟨m, rfl⟩ : ∃ m, e = m + 2 := ⟨e - 2, by omega⟩
  simp only [Nat.add_sub_cancel, show m + 2 - 1 = m + 1 from rfl] at *
  have hse : s ≤ m := by omega
  have hP : ∀ k, k ≤ m → hP b I' s k = hP b I s k := by
    intro k hk; unfold TV.hP; rw [hI k (by omega)]
  have hH : ∀ k, k ≤ m → hH Y B I' s k = hH Y B I s k := by
    intro k hk; unfold TV.hH; rw [hI k (by omega)]
  have hPe : TV.hP b I' s (m + 1) = i := by rw [hP_of_lt _ _ (by omega), hIe]
  have hHe : TV.hH Y B I' s (m + 1) = Y i := by rw [hH_of_lt _ _ _ (by omega), hIe]
  have hl := h.last
  have hHl : TV.hH Y B I s (m + 2) = Y i := by
    rw [hH_of_lt _ _ _ (by omega)]; rw [hP_of_lt _ _ (by omega)] at hl; rw [hl]
  -- the two merged segments
  have m1 := h.mono m hse (by omega)
  have m2 := h.mono (m + 1) (by omega) (by omega)
  have s1 := h.slope m hse (by omega)
  have s2 := h.slope (m + 1) (by omega) (by omega)
  rw [show m + 1 + 1 = m + 2 from rfl, hl] at m2
  rw [show m + 1 + 1 = m + 2 from rfl, hl, hHl] at s2
  set p0 := TV.hP b I s m
  set p1 := TV.hP b I s (m + 1)
  set q0 := TV.hH Y B I s m
  set q1 := TV.hH Y B I s (m + 1)
  have c1 : (p0 : K) < p1 := by exact_mod_cast m1
  have c2 : (p1 : K) < i := by exact_mod_cast m2
  have hne : (i : K) - p0 ≠ 0 := by intro h; linarith
  have hσ : S' (m + 1) * ((i : K) - p0) = Y i - q0 := by rw [hSe]; field_simp
  set σ := S' (m + 1)
  have hσ1 : S (m + 1) ≤ σ := by
    by_contra hlt; push Not at hlt
    nlinarith
  have hσ2 : σ ≤ S (m + 2) := by
    by_contra hlt; push Not at hlt
    nlinarith
  refine ⟨⟨by omega, ?_, hPe, ?_, ?_, ?_⟩, hσ1⟩
  · intro k h1 h2
    rcases Nat.lt_or_ge k m with h3 | h3
    · rw [hP k (by omega), hP (k + 1) (by omega)]; exact h.mono k h1 (by omega)
    · have : k = m := by omega
      subst this; rw [hPe, hP k le_rfl]; omega
  · intro k h1 h2
    rcases Nat.lt_or_ge k m with h3 | h3
    · rw [hP k (by omega), hP (k + 1) (by omega), hH k (by omega), hH (k + 1) (by omega), hS (k + 1) (by omega)]
      exact h.slope k h1 (by omega)
    · have : k = m := by omega
      subst this; rw [hPe, hP k le_rfl, hHe, hH k le_rfl]; exact hσ
  · intro k h1 h2 t h4 h5
    rcases Nat.lt_or_ge k m with h3 | h3
    · rw [hP k (by omega)] at h4; rw [hP (k + 1) (by omega)] at h5
      rw [hP k (by omega), hH k (by omega), hS (k + 1) (by omega)]
      exact h.maj k h1 (by omega) t h4 h5
    · have : k = m := by omega
      subst this; rw [hP k le_rfl] at h4; rw [hPe] at h5
      rw [hP k le_rfl, hH k le_rfl]
      show Y t ≤ q0 + σ * ((t : K) - p0)
      have ct0 : (p0 : K) < t := by exact_mod_cast h4
      have cti : (t : K) ≤ i := by exact_mod_cast h5
      rcases Nat.lt_or_ge p1 t with h6 | h6
      · have := h.maj (k + 1) (by omega) (by omega) t h6 (by rw [show k + 1 + 1 = k + 2 from rfl, hl]; exact h5)
        rw [show k + 1 + 1 = k + 2 from rfl] at this
        change Y t ≤ q1 + S (k + 2) * ((t : K) - p1) at this
        nlinarith
      · have := h.maj k (by omega) (by omega) t h4 h6
        change Y t ≤ q0 + S (k + 1) * ((t : K) - p0) at this
        nlinarith
  · intro k h1 h2
    rw [hS k (by omega), hS (k + 1) (by omega)]
    exact h.dec k h1 (by omega)

theorem PreHull.done (h : PreHull Y b B I S s e i) (hd : s + 1 < e → S e < S (e - 1)) : Hull Y b B I S s e i :=
  ⟨h, hd⟩

theorem Hull.slope_le (h : Hull Y b B I S s e i) : ∀ k, s < k → k ≤ e → S k ≤ S (s + 1) := by
  intro k hk
  induction k, hk using Nat.le_induction with
  | base => intro _; exact le_rfl
  | succ k hk ih => intro hke; exact (h.dec' k (by omega) (by omega)).le.trans (ih (by omega))

theorem Hull.le_first_aux (h : Hull Y b B I S s e i) : ∀ k, s ≤ k → k ≤ e →
    (b ≤ hP b I s k ∧ hH Y B I s k ≤ B + S (s + 1) * ((hP b I s k : K) - b)) ∧
    ∀ t, b < t → t ≤ hP b I s k → Y t ≤ B + S (s + 1) * ((t : K) - b) := by
  intro k hk
  induction k, hk using Nat.le_induction with
  | base => intro _; rw [hP_base, hH_base]; exact ⟨⟨le_rfl, by simp⟩, fun t h1 h2 => by omega⟩
  | succ k hk ih =>
    intro hke
    obtain ⟨⟨i0, i1⟩, i2⟩ := ih (by omega)
    have hm := h.mono k hk (by omega)
    have hs := h.slope k hk (by omega)
    have hle := h.slope_le (k + 1) (by omega) hke
    have hc : (hP b I s k : K) < hP b I s (k + 1) := by exact_mod_cast hm
    refine ⟨⟨by omega, by nlinarith⟩, ?_⟩
    intro t h1 h2
    rcases Nat.lt_or_ge (hP b I s k) t with h3 | h3
    · have := h.maj k hk (by omega) t h3 h2
      have ct : (hP b I s k : K) < t := by exact_mod_cast h3
      nlinarith
    · exact i2 t h1 h3

/-- A hull lies below the line of its first segment. -/
theorem Hull.le_first (h : Hull Y b B I S s e i) {t : ℕ} (h1 : b < t) (h2 : t ≤ i) :
    Y t ≤ B + S (s + 1) * ((t : K) - b) :=
  (h.le_first_aux e h.se le_rfl).2 t h1 (by rw [h.last]; exact h2)

theorem Hull.b_lt (h : Hull Y b B I S s e i) (hse : s < e) : b < i := by
  have h1 := h.mono s le_rfl hse
  have h2 := (h.le_first_aux (s + 1) (by omega) hse).1.1
  have : ∀ k, s + 1 ≤ k → k ≤ e → b < hP b I s k := by
    intro k hk
    induction k, hk using Nat.le_induction with
    | base => intro _; rw [hP_base] at h1; exact h1
    | succ k hk ih => intro hke; have := ih (by omega); have := h.mono k (by omega) (by omega); omega
  have := this e hse le_rfl
  rwa [h.last] at this

/-- With at least two segments, the end point lies strictly below the line of the first segment. -/
theorem Hull.lt_first (h : Hull Y b B I S s e i) (he : s + 1 < e) : Y i < B + S (s + 1) * ((i : K) - b) := by
  obtain ⟨m, rfl⟩ : ∃ m, e = m + 1 := ⟨e - 1, by omega⟩
  have h1 := (h.le_first_aux m (by omega) (by omega)).1.2
  have hm := h.mono m (by omega) (by omega)
  have hs := h.slope m (by omega) (by omega)
  have hl := h.last
  have hHl : hH Y B I s (m + 1) = Y i := by
    rw [hH_of_lt _ _ _ (by omega)]; rw [hP_of_lt _ _ (by omega)] at hl; rw [hl]
  rw [hl] at hm hs
  rw [hHl] at hs
  have hlt : S (m + 1) < S (s + 1) := by
    have := h.dec' m (by omega) (by omega)
    exact this.trans_le (h.slope_le m (by omega) (by omega))
  have hc : (hP b I s m : K) < i := by exact_mod_cast hm
  nlinarith

/-- A hull made of a single segment is the chord. -/
theorem Hull.chord (h : Hull Y b B I S s e i) (he : e = s + 1) : S (s + 1) * ((i : K) - b) = Y i - B := by
  subst he
  have hs := h.slope s le_rfl (by omega)
  have hl := h.last
  rw [hl, hP_base, hH_base, hH_of_lt _ _ _ (by omega)] at hs
  rw [hP_of_lt _ _ (by omega)] at hl
  rw [hs, hl]

/-- A single segment that is the chord and lies above `Y` is a hull. -/
theorem Hull.single (hb : b < i) (hI : I (s + 1) = i) (hch : S (s + 1) * ((i : K) - b) = Y i - B)
    (hmaj : ∀ t, b < t → t < i → Y t ≤ B + S (s + 1) * ((t : K) - b)) : Hull Y b B I S s (s + 1) i := by
  have e1 : hP b I s (s + 1) = i := by rw [hP_of_lt _ _ (by omega), hI]
  have e2 : hH Y B I s (s + 1) = Y i := by rw [hH_of_lt _ _ _ (by omega), hI]
  refine ⟨⟨by omega, ?_, e1, ?_, ?_, ?_⟩, fun h => by omega⟩
  · intro k h1 h2
    have : k = s := by omega
    subst this; rw [e1, hP_base]; exact hb
  · intro k h1 h2
    have : k = s := by omega
    subst this; rw [e1, e2, hP_base, hH_base]; exact hch
  · intro k h1 h2 t h3 h4
    have : k = s := by omega
    subst this; rw [hP_base] at h3; rw [e1] at h4
    rw [hP_base, hH_base]
    rcases Nat.lt_or_ge t i with h5 | h5
    · exact hmaj t h3 h5
    · have : t = i := by omega
      subst this; linarith
  · intro k h1 h2; omega

/-- Removing the first segment: the base moves to the first hull point. -/
theorem Hull.shift (h : Hull Y b B I S s e i) (he : s + 1 < e) :
    Hull Y (I (s + 1)) (Y (I (s + 1))) I S (s + 1) e i := by
  have eP : ∀ k, s + 1 ≤ k → hP (I (s + 1)) I (s + 1) k = hP b I s k := by
    intro k hk; rw [hP_of_lt b I (by omega)]; unfold hP; split_ifs with h1
    · rw [h1]
    · rfl
  have eH : ∀ k, s + 1 ≤ k → hH Y (Y (I (s + 1))) I (s + 1) k = hH Y B I s k := by
    intro k hk; rw [hH_of_lt Y B I (by omega)]; unfold hH; split_ifs with h1
    · rw [h1]
    · rfl
  refine ⟨⟨by omega, ?_, ?_, ?_, ?_, ?_⟩, ?_⟩
  · intro k h1 h2; rw [eP k h1, eP (k + 1) (by omega)]; exact h.mono k (by omega) h2
  · rw [eP e (by omega)]; exact h.last
  · intro k h1 h2; rw [eP k h1, eP (k + 1) (by omega), eH k h1, eH (k + 1) (by omega)]
    exact h.slope k (by omega) h2
  · intro k h1 h2 t; rw [eP k h1, eP (k + 1) (by omega), eH k h1]; exact h.maj k (by omega) h2 t
  · intro k h1 h2; exact h.dec k (by omega) h2
  · intro h1; exact h.declast (by omega)

theorem Hull.congr (h : Hull Y b B I S s e i) (hI : ∀ k, s < k → k ≤ e → I' k = I k)
    (hS : ∀ k, s < k → k ≤ e → S' k = S k) : Hull Y b B I' S' s e i := by
  have hse := h.se
  have eP : ∀ k, s ≤ k → k ≤ e → hP b I' s k = hP b I s k := by
    intro k h1 h2; unfold hP; split_ifs with h3
    · rfl
    · exact hI k (by omega) h2
  have eH : ∀ k, s ≤ k → k ≤ e → hH Y B I' s k = hH Y B I s k := by
    intro k h1 h2; unfold hH; split_ifs with h3
    · rfl
    · rw [hI k (by omega) h2]
  refine ⟨⟨hse, ?_, ?_, ?_, ?_, ?_⟩, ?_⟩
  · intro k h1 h2; rw [eP k h1 (by omega), eP (k + 1) (by omega) (by omega)]; exact h.mono k (by omega) h2
  · rw [eP e (by omega) le_rfl]; exact h.last
  · intro k h1 h2
    rw [eP k h1 (by omega), eP (k + 1) (by omega) (by omega), eH k h1 (by omega), eH (k + 1) (by omega) (by omega),
      hS (k + 1) (by omega) (by omega)]
    exact h.slope k (by omega) h2
  · intro k h1 h2 t
    rw [eP k h1 (by omega), eP (k + 1) (by omega) (by omega), eH k h1 (by omega), hS (k + 1) (by omega) (by omega)]
    exact h.maj k (by omega) h2 t
  · intro k h1 h2; rw [hS k h1 (by omega), hS (k + 1) (by omega) (by omega)]; exact h.dec k (by omega) h2
  · intro h1; rw [hS e (by omega) le_rfl, hS (e - 1) (by omega) (by omega)]; exact h.declast (by omega)

end Copt.TV
