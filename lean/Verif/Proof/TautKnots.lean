import Verif.Proof.TautString

/-!
# Taut string: knots and the invariant of the main loop

`ix k, z k` (`k ≤ c`) are the knots of the string fixed so far; `il, sl, s, e` and `iu, su, s', e'` describe the
hulls of the lower and upper tube beyond the last knot.
-/

set_option linter.unusedSectionVars false

namespace Copt.TV

variable {K : Type} [Field K] [LinearOrder K] [IsStrictOrderedRing K]

/-- Slope of the `k`-th segment of the string. -/
def seg (ix : ℕ → ℕ) (z : ℕ → K) (k : ℕ) : K := (z (k + 1) - z k) / ((ix (k + 1) : K) - ix k)

theorem seg_neg (ix : ℕ → ℕ) (z : ℕ → K) (k : ℕ) : seg ix (fun k => -z k) k = -seg ix z k := by
  unfold seg; rw [← neg_div]; congr 1; ring

/-- The string through the knots stays in the tube and bends up only at the upper tube, down only at the
lower tube. -/
structure Knots (YL YU : ℕ → K) (ix : ℕ → ℕ) (z : ℕ → K) (c : ℕ) : Prop where
  i0 : ix 0 = 0
  z0 : z 0 = 0
  mono : ∀ k < c, ix k < ix (k + 1)
  tube : ∀ k < c, ∀ t, ix k < t → t ≤ ix (k + 1) →
    YL t ≤ z k + seg ix z k * ((t : K) - ix k) ∧ z k + seg ix z k * ((t : K) - ix k) ≤ YU t
  kink : ∀ k, k + 1 < c → (z (k + 1) = YU (ix (k + 1)) ∧ seg ix z k ≤ seg ix z (k + 1)) ∨
    (z (k + 1) = YL (ix (k + 1)) ∧ seg ix z (k + 1) ≤ seg ix z k)

variable {YL YU : ℕ → K} {ix ix' : ℕ → ℕ} {z z' : ℕ → K} {c : ℕ}

theorem Knots.mirror (h : Knots YL YU ix z c) : Knots (fun t => -YU t) (fun t => -YL t) ix (fun k => -z k) c := by
  refine ⟨h.i0, by simp [h.z0], h.mono, ?_, ?_⟩
  · intro k hk t h1 h2
    obtain ⟨a, b⟩ := h.tube k hk t h1 h2
    rw [seg_neg]
    constructor <;> linarith
  · intro k hk
    simp only [seg_neg, neg_le_neg_iff, neg_inj]
    exact (h.kink k hk).symm

theorem Knots.le_ix (h : Knots YL YU ix z c) : ∀ k ≤ c, k ≤ ix k := by
  intro k
  induction k with
  | zero => intro _; omega
  | succ k ih => intro hk; have := ih (by omega); have := h.mono k (by omega); omega

theorem seg_congr (hix : ∀ k ≤ c, ix' k = ix k) (hz : ∀ k ≤ c, z' k = z k) {k : ℕ} (hk : k < c) :
    seg ix' z' k = seg ix z k := by
  unfold seg; rw [hix k (by omega), hix (k + 1) (by omega), hz k (by omega), hz (k + 1) (by omega)]

/-- Adding a knot. -/
theorem Knots.extend (h : Knots YL YU ix z c) {a : K} (hix : ∀ k ≤ c, ix' k = ix k) (hz : ∀ k ≤ c, z' k = z k)
    (hlt : ix c < ix' (c + 1)) (ha : a * ((ix' (c + 1) : K) - ix c) = z' (c + 1) - z c)
    (htube : ∀ t, ix c < t → t ≤ ix' (c + 1) → YL t ≤ z c + a * ((t : K) - ix c) ∧ z c + a * ((t : K) - ix c) ≤ YU t)
    (hJ : 0 < c → (z c = YU (ix c) ∧ seg ix z (c - 1) ≤ a) ∨ (z c = YL (ix c) ∧ a ≤ seg ix z (c - 1))) :
    Knots YL YU ix' z' (c + 1) ∧ seg ix' z' c = a := by
  have hne : (ix' (c + 1) : K) - ix c ≠ 0 := by
    have : (ix c : K) < ix' (c + 1) := by exact_mod_cast hlt
    intro h; linarith
  have hseg : seg ix' z' c = a := by
    unfold seg; rw [hix c le_rfl, hz c le_rfl, ← ha]; field_simp
  refine ⟨⟨by rw [hix 0 (by omega), h.i0], by rw [hz 0 (by omega), h.z0], ?_, ?_, ?_⟩, hseg⟩
  · intro k hk
    rcases Nat.lt_or_ge k c with h1 | h1
    · rw [hix k (by omega), hix (k + 1) (by omega)]; exact h.mono k h1
    · have : k = c := by omega
      subst this; rw [hix k le_rfl]; exact hlt
  · intro k hk t h2 h3
    rcases Nat.lt_or_ge k c with h1 | h1
    · rw [hix k (by omega)] at h2; rw [hix (k + 1) (by omega)] at h3
      rw [seg_congr hix hz h1, hix k (by omega), hz k (by omega)]
      exact h.tube k h1 t h2 h3
    · have : k = c := by omega
      subst this; rw [hix k le_rfl] at h2
      rw [hseg, hix k le_rfl, hz k le_rfl]
      exact htube t h2 h3
  · intro k hk
    rcases Nat.lt_or_ge (k + 1) c with h1 | h1
    · rw [hix (k + 1) (by omega), hz (k + 1) (by omega), seg_congr hix hz (by omega : k < c), seg_congr hix hz h1]
      exact h.kink k h1
    · have : c = k + 1 := by omega
      subst this
      rw [hix (k + 1) le_rfl, hz (k + 1) le_rfl, seg_congr hix hz (by omega : k < k + 1), hseg]
      exact hJ (by omega)

/-- Invariant of the main loop after processing index `i ≥ 1`. -/
structure Inv (YL YU : ℕ → K) (ix : ℕ → ℕ) (z : ℕ → K) (c : ℕ) (il : ℕ → ℕ) (sl : ℕ → K) (s e : ℕ)
    (iu : ℕ → ℕ) (su : ℕ → K) (s' e' i : ℕ) : Prop where
  kn : Knots YL YU ix z c
  se : s < e
  se' : s' < e'
  low : Hull YL (ix c) (z c) il sl s e i
  up : Hull (fun t => -YU t) (ix c) (-z c) iu (fun k => -su k) s' e' i
  ord : sl (s + 1) ≤ su (s' + 1)
  J : 0 < c → (z c = YU (ix c) ∧ seg ix z (c - 1) ≤ sl (s + 1)) ∨ (z c = YL (ix c) ∧ su (s' + 1) ≤ seg ix z (c - 1))

/-- State inside the first shift loop (tv_prox.py:101-111). -/
structure Mid (YL YU : ℕ → K) (ix : ℕ → ℕ) (z : ℕ → K) (c : ℕ) (il : ℕ → ℕ) (sl : ℕ → K) (s e : ℕ)
    (iu : ℕ → ℕ) (su : ℕ → K) (s' e' i : ℕ) : Prop where
  kn : Knots YL YU ix z c
  se : e = s + 1
  se' : s' < e'
  low : Hull YL (ix c) (z c) il sl s e i
  up : Hull (fun t => -YU t) (ix c) (-z c) iu (fun k => -su k) s' e' i
  T : s' + 1 < e' → ∀ t, ix c < t → t < i → YL t ≤ z c + su (s' + 1) * ((t : K) - ix c)
  J : 0 < c → (z c = YU (ix c) ∧ seg ix z (c - 1) ≤ sl (s + 1) ∧ seg ix z (c - 1) ≤ su (s' + 1)) ∨
    (z c = YL (ix c) ∧ su (s' + 1) ≤ seg ix z (c - 1))

variable {il il' iu : ℕ → ℕ} {sl sl' su : ℕ → K} {s e s' e' i : ℕ}

theorem Inv.mirror (h : Inv YL YU ix z c il sl s e iu su s' e' i) :
    Inv (fun t => -YU t) (fun t => -YL t) ix (fun k => -z k) c iu (fun k => -su k) s' e' il (fun k => -sl k) s e i := by
  refine ⟨h.kn.mirror, h.se', h.se, h.up, ?_, ?_, ?_⟩
  · simp only [neg_neg]; exact h.low
  · simpa using h.ord
  · intro hc
    simp only [seg_neg, neg_le_neg_iff, neg_inj]
    exact (h.J hc).symm

theorem Inv.of_mirror
    (h : Inv (fun t => -YU t) (fun t => -YL t) ix (fun k => -z k) c iu (fun k => -su k) s' e' il (fun k => -sl k) s e i) :
    Inv YL YU ix z c il sl s e iu su s' e' i := by
  have := h.mirror
  simpa only [neg_neg] using this

/-- One shift. -/
theorem Mid.step (h : Mid YL YU ix z c il sl s e iu su s' e' i) (he : s' + 1 < e')
    (hle : su (s' + 1) ≤ sl e)
    (hix : ∀ k ≤ c, ix' k = ix k) (hixc : ix' (c + 1) = iu (s' + 1))
    (hz : ∀ k ≤ c, z' k = z k) (hzc : z' (c + 1) = YU (iu (s' + 1)))
    (hil : il' e = il e)
    (hsl : sl' e = (YL i - z' (c + 1)) / ((i : K) - ix' (c + 1))) :
    Mid YL YU ix' z' (c + 1) il' sl' s e iu su (s' + 1) e' i ∧ ix' (c + 1) < i := by
  have hse := h.se
  subst hse
  have m1 := h.up.mono s' le_rfl (by omega)
  have s1 := h.up.slope s' le_rfl (by omega)
  have mj := h.up.maj s' le_rfl (by omega)
  rw [hP_base, hP_of_lt _ _ (by omega)] at m1 s1 mj
  rw [hH_base] at mj s1
  rw [hH_of_lt _ _ _ (by omega)] at s1
  set m := iu (s' + 1) with hm
  set a := su (s' + 1) with ha
  have hmi : m < i := (h.up.shift (b := ix c) he).b_lt (by omega)
  have c1 : (ix c : K) < m := by exact_mod_cast m1
  have c2 : (m : K) < i := by exact_mod_cast hmi
  have hchord := h.low.chord rfl
  have hT := h.T he
  have hslope : a * ((m : K) - ix c) = YU m - z c := by linarith
  obtain ⟨hkn, hseg⟩ := h.kn.extend (ix' := ix') (z' := z') (a := a) hix hz (by rw [hixc]; exact m1)
    (by rw [hixc, hzc]; exact hslope)
    (by
      intro t h1 h2
      rw [hixc] at h2
      refine ⟨hT t h1 (by omega), ?_⟩
      have := mj t h1 h2
      linarith)
    (fun hc => by
      rcases h.J hc with ⟨h1, h2, h3⟩ | ⟨h1, h2⟩
      · exact Or.inl ⟨h1, h3⟩
      · exact Or.inr ⟨h1, h2⟩)
  rw [hixc, hzc] at hsl
  have hne : (i : K) - m ≠ 0 := by intro h; linarith
  have hch' : sl' (s + 1) * ((i : K) - m) = YL i - YU m := by rw [hsl]; field_simp
  have hge : a ≤ sl' (s + 1) := by
    by_contra hlt; push Not at hlt
    nlinarith
  have hT' : ∀ t, m < t → t < i → YL t ≤ YU m + a * ((t : K) - m) := by
    intro t h1 h2
    have := hT t (by omega) h2
    nlinarith
  have hdec : a < su (s' + 2) := by
    have := h.up.dec' (s' + 1) (by omega) he
    simpa using this
  have hI1 : il (s + 1) = i := by
    have := h.low.last; rwa [hP_of_lt _ _ (by omega)] at this
  refine ⟨⟨hkn, rfl, by omega, ?_, ?_, ?_, ?_⟩, by rw [hixc]; exact hmi⟩
  · rw [hixc, hzc]
    refine Hull.single hmi (by rw [hil, hI1]) hch' ?_
    intro t h1 h2
    have h3 := hT' t h1 h2
    have c3 : (m : K) < t := by exact_mod_cast h1
    nlinarith
  · rw [hixc, hzc]
    exact h.up.shift he
  · intro _ t h1 h2
    rw [hixc] at h1; rw [hixc, hzc]
    have h3 := hT' t h1 h2
    have c3 : (m : K) < t := by exact_mod_cast h1
    show YL t ≤ YU m + su (s' + 2) * ((t : K) - m)
    nlinarith
  · intro _
    refine Or.inl ⟨by rw [hzc, hixc], ?_⟩
    rw [show c + 1 - 1 = c from rfl, hseg]
    exact ⟨hge, hdec.le⟩

/-- Leaving the first shift loop. -/
theorem Mid.exit (h : Mid YL YU ix z c il sl s e iu su s' e' i) (hY : YL i ≤ YU i)
    (hd : s' + 1 < e' → sl e < su (s' + 1)) : Inv YL YU ix z c il sl s e iu su s' e' i := by
  have hse := h.se
  subst hse
  have hbi : ix c < i := h.low.b_lt (by omega)
  have c1 : (ix c : K) < i := by exact_mod_cast hbi
  have ord : sl (s + 1) ≤ su (s' + 1) := by
    rcases Nat.lt_or_ge (s' + 1) e' with h1 | h1
    · exact (hd h1).le
    · have he : e' = s' + 1 := by have := h.se'; omega
      have h2 := h.low.chord rfl
      have h3 := h.up.chord he
      by_contra hlt; push Not at hlt
      nlinarith
  refine ⟨h.kn, by omega, h.se', h.low, h.up, ord, ?_⟩
  intro hc
  rcases h.J hc with ⟨h1, h2, h3⟩ | ⟨h1, h2⟩
  · exact Or.inl ⟨h1, h2⟩
  · exact Or.inr ⟨h1, h2⟩

/-- State after both pop loops: `i` is the index being processed; `fl`, `fu` are the first slopes of the hulls
before `i` was added. -/
structure Popped (YL YU : ℕ → K) (ix : ℕ → ℕ) (z : ℕ → K) (c : ℕ) (il : ℕ → ℕ) (sl : ℕ → K) (s e : ℕ)
    (iu : ℕ → ℕ) (su : ℕ → K) (s' e' i : ℕ) : Prop where
  kn : Knots YL YU ix z c
  se : s < e
  se' : s' < e'
  low : Hull YL (ix c) (z c) il sl s e i
  up : Hull (fun t => -YU t) (ix c) (-z c) iu (fun k => -su k) s' e' i
  old : (c = 0 ∧ e = s + 1 ∧ e' = s' + 1) ∨ ∃ fl fu : K, fl ≤ fu ∧ fl ≤ sl (s + 1) ∧ (s + 1 < e → sl (s + 1) = fl) ∧
    su (s' + 1) ≤ fu ∧ (s' + 1 < e' → su (s' + 1) = fu) ∧
    (∀ t, ix c < t → t < i → YL t ≤ z c + fl * ((t : K) - ix c)) ∧
    (∀ t, ix c < t → t < i → z c + fu * ((t : K) - ix c) ≤ YU t) ∧
    (0 < c → (z c = YU (ix c) ∧ seg ix z (c - 1) ≤ fl) ∨ (z c = YL (ix c) ∧ fu ≤ seg ix z (c - 1)))

theorem Popped.mirror (h : Popped YL YU ix z c il sl s e iu su s' e' i) :
    Popped (fun t => -YU t) (fun t => -YL t) ix (fun k => -z k) c iu (fun k => -su k) s' e' il (fun k => -sl k) s e i := by
  refine ⟨h.kn.mirror, h.se', h.se, h.up, ?_, ?_⟩
  · simp only [neg_neg]; exact h.low
  · rcases h.old with ⟨h1, h2, h3⟩ | ⟨fl, fu, h1, h2, h3, h4, h5, h6, h7, h8⟩
    · exact Or.inl ⟨h1, h3, h2⟩
    · refine Or.inr ⟨-fu, -fl, by linarith, by linarith, fun h => by rw [h5 h], by linarith, fun h => by rw [h3 h], ?_, ?_, ?_⟩
      · intro t a b; have := h7 t a b; linarith
      · intro t a b; have := h6 t a b; linarith
      · intro hc
        simp only [seg_neg, neg_le_neg_iff, neg_inj]
        exact (h8 hc).symm

/-- Lower hull a single segment, upper hull longer: the first shift loop starts. -/
theorem Popped.mid (h : Popped YL YU ix z c il sl s e iu su s' e' i) (h1 : e = s + 1) (h2 : s' + 1 < e') :
    Mid YL YU ix z c il sl s e iu su s' e' i := by
  rcases h.old with ⟨_, _, h3⟩ | ⟨fl, fu, ho, h3, h4, h5, h6, h7, h8, h9⟩
  · omega
  · have hfu := h6 h2
    refine ⟨h.kn, h1, h.se', h.low, h.up, ?_, ?_⟩
    · intro _ t a b
      have := h7 t a b
      have c3 : (ix c : K) < t := by exact_mod_cast a
      rw [hfu]; nlinarith
    · intro hc
      rcases h9 hc with ⟨a, b⟩ | ⟨a, b⟩
      · exact Or.inl ⟨a, b.trans h3, by rw [hfu]; exact b.trans ho⟩
      · exact Or.inr ⟨a, by rw [hfu]; exact b⟩

/-- Both hulls single segments. -/
theorem Popped.single (h : Popped YL YU ix z c il sl s e iu su s' e' i) (h1 : e = s + 1) (h2 : e' = s' + 1)
    (hY : YL i ≤ YU i) : Inv YL YU ix z c il sl s e iu su s' e' i := by
  have hbi : ix c < i := h.low.b_lt h.se
  have c1 : (ix c : K) < i := by exact_mod_cast hbi
  have ord : sl (s + 1) ≤ su (s' + 1) := by
    have h3 := h.low.chord h1
    have h4 := h.up.chord h2
    by_contra hlt; push Not at hlt
    nlinarith
  refine ⟨h.kn, h.se, h.se', h.low, h.up, ord, ?_⟩
  intro hc
  rcases h.old with ⟨h3, _⟩ | ⟨fl, fu, ho, h3, h4, h5, h6, h7, h8, h9⟩
  · omega
  · rcases h9 hc with ⟨a, b⟩ | ⟨a, b⟩
    · exact Or.inl ⟨a, b.trans h3⟩
    · exact Or.inr ⟨a, h5.trans b⟩

/-- Both hulls longer. -/
theorem Popped.double (h : Popped YL YU ix z c il sl s e iu su s' e' i) (h1 : s + 1 < e) (h2 : s' + 1 < e') :
    Inv YL YU ix z c il sl s e iu su s' e' i := by
  rcases h.old with ⟨_, h3, _⟩ | ⟨fl, fu, ho, h3, h4, h5, h6, h7, h8, h9⟩
  · omega
  · refine ⟨h.kn, h.se, h.se', h.low, h.up, by rw [h4 h1, h6 h2]; exact ho, ?_⟩
    rw [h4 h1, h6 h2]; exact h9

/-- At the right end the tubes meet: the lower hull is a single segment and completes the string. -/
theorem Inv.final (h : Inv YL YU ix z c il sl s e iu su s' e' i) (hY : YL i = YU i) : e = s + 1 := by
  by_contra hne
  have hse : s + 1 < e := by have := h.se; omega
  have hbi : ix c < i := h.low.b_lt h.se
  have h1 := h.low.lt_first hse
  have h2 := h.up.le_first hbi le_rfl
  have ho := h.ord
  have c1 : (ix c : K) < i := by exact_mod_cast hbi
  nlinarith

theorem Inv.finish (h : Inv YL YU ix z c il sl s e iu su s' e' i) (hY : YL i = YU i)
    (hix : ∀ k ≤ c, ix' k = ix k) (hixc : ix' (c + 1) = i)
    (hz : ∀ k ≤ c, z' k = z k) (hzc : z' (c + 1) = YL i) : Knots YL YU ix' z' (c + 1) := by
  have hse := h.final hY
  have hbi : ix c < i := h.low.b_lt h.se
  have hch := h.low.chord hse
  refine (h.kn.extend (a := sl (s + 1)) hix hz (by rw [hixc]; exact hbi) (by rw [hixc, hzc]; exact hch) ?_ ?_).1
  · intro t h1 h2
    rw [hixc] at h2
    refine ⟨h.low.le_first h1 h2, ?_⟩
    have h3 := h.up.le_first h1 h2
    have ho := h.ord
    have c1 : (ix c : K) < t := by exact_mod_cast h1
    nlinarith
  · intro hc
    rcases h.J hc with ⟨a, b⟩ | ⟨a, b⟩
    · exact Or.inl ⟨a, b⟩
    · exact Or.inr ⟨a, h.ord.trans b⟩

end Copt.TV
