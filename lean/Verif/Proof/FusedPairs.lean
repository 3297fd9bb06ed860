import Verif.Proof.GroupKernel

/-! # Block structures and pair kernels of the fused lasso -/

set_option linter.unusedSectionVars false

namespace Copt

open Spec

section
variable {n : ℕ}

/-- First feature of block `h`. -/
def PairBlocks.start (B : PairBlocks n) (h : ℕ) : ℕ := B.indptr[h]?.getD 0

/-- Whether block `h` is penalised (`B_data[j_idx] > 0`). -/
def PairBlocks.active (B : PairBlocks n) (h : ℕ) : Bool := decide (0 < getD0 B.data (B.start h))

/-- First features of the penalised blocks, in order. -/
def PairBlocks.activeStarts (B : PairBlocks n) : List ℕ :=
  ((List.range B.nBlocks).filter B.active).map B.start

/-- A partition of `range n` in blocks of one or two consecutive features, those of two features being
exactly the penalised ones. -/
structure PairInv (B : PairBlocks n) : Prop where
  len : B.indptr.length = B.nBlocks + 1
  first : B.start 0 = 0
  last : B.start B.nBlocks = n
  size : ∀ h < B.nBlocks, (B.active h = true ∧ B.start (h + 1) = B.start h + 2) ∨
    (B.active h = false ∧ B.start (h + 1) = B.start h + 1)

theorem npArange_length (a b s : ℕ) : (npArange a b s).length = (b - a + (s - 1)) / s := by
  simp [npArange]

theorem npArange_getElem? (a b s k : ℕ) (h : k < (b - a + (s - 1)) / s) :
    (npArange a b s)[k]? = some (a + s * k) := by simp [npArange, h]

theorem getLastD_eq (l : List ℕ) (h : l ≠ []) (d : ℕ) : l.getLastD d = l[l.length - 1]?.getD 0 := by
  rw [List.getLastD_eq_getLast?, List.getLast?_eq_getElem?]
  have : l.length - 1 < l.length := by have := List.length_pos_iff.mpr h; omega
  rw [List.getElem?_eq_getElem this]; rfl

theorem blocks1_len (n : ℕ) : (FusedLasso.blocks1 n).indptr.length = (FusedLasso.blocks1 n).nBlocks + 1 := by
  unfold FusedLasso.blocks1
  by_cases h : n % 2 = 1
  · simp only [if_pos h, List.length_append, npArange_length, List.length_singleton]; omega
  · simp only [if_neg h, npArange_length]; omega

theorem blocks1_start (n k : ℕ) (hk : k ≤ (n + 1) / 2) : (FusedLasso.blocks1 n).start k = min (2 * k) n := by
  unfold PairBlocks.start FusedLasso.blocks1
  by_cases h : n % 2 = 1
  · simp only [if_pos h]
    have hl : (npArange 0 (n + 1) 2).length = n / 2 + 1 := by rw [npArange_length]; omega
    by_cases hk' : k < n / 2 + 1
    · rw [List.getElem?_append_left (by omega), npArange_getElem? _ _ _ _ (by omega)]
      simp; omega
    · have hk2 : k = n / 2 + 1 := by omega
      have hne : npArange 0 (n + 1) 2 ≠ [] := by
        intro he; rw [he] at hl; simp at hl
      rw [List.getElem?_append_right (by omega), hl, hk2, getLastD_eq _ hne, hl,
        npArange_getElem? _ _ _ _ (by omega)]
      simp; omega
  · simp only [if_neg h]
    rw [npArange_getElem? _ _ _ _ (by omega)]
    simp; omega

theorem blocks1_nBlocks (n : ℕ) : (FusedLasso.blocks1 n).nBlocks = (n + 1) / 2 := by
  unfold FusedLasso.blocks1; by_cases h : n % 2 = 1 <;> simp [h]

theorem blocks1_active (n k : ℕ) (hk : k < (n + 1) / 2) :
    (FusedLasso.blocks1 n).active k = decide (2 * k + 1 < n) := by
  unfold PairBlocks.active
  rw [blocks1_start n k hk.le]
  have hmin : min (2 * k) n = 2 * k := by omega
  rw [hmin, getD0_lt _ (show 2 * k < n by omega)]
  unfold FusedLasso.blocks1
  by_cases h : n % 2 = 1
  · simp only [if_pos h]
    by_cases h2 : 2 * k + 1 = n
    · simp [h2]
    · simp [h2]; omega
  · simp only [if_neg h]; simp; omega

theorem blocks1_inv (n : ℕ) : PairInv (FusedLasso.blocks1 n) where
  len := blocks1_len n
  first := by rw [blocks1_start n 0 (by omega)]; simp
  last := by rw [blocks1_nBlocks, blocks1_start n _ le_rfl]; omega
  size := by
    intro h hh
    rw [blocks1_nBlocks] at hh
    rw [blocks1_active n h hh, blocks1_start n h hh.le, blocks1_start n (h + 1) hh]
    by_cases h2 : 2 * h + 1 < n
    · left; exact ⟨by simp [h2], by omega⟩
    · right; exact ⟨by simp [h2], by omega⟩

theorem blocks2_nBlocks (n : ℕ) : (FusedLasso.blocks2 n).nBlocks = n / 2 + 1 := by
  unfold FusedLasso.blocks2; by_cases h : n % 2 = 0 <;> simp [h]

theorem blocks2_len (n : ℕ) : (FusedLasso.blocks2 n).indptr.length = (FusedLasso.blocks2 n).nBlocks + 1 := by
  unfold FusedLasso.blocks2
  by_cases h : n % 2 = 0
  · simp only [if_pos h, List.length_append, List.length_dropLast, List.length_cons, npArange_length,
      List.length_singleton, List.length_nil]; omega
  · simp only [if_neg h, List.length_cons, npArange_length]; omega

theorem blocks2_start (n k : ℕ) (hn : 0 < n) (hk : k ≤ n / 2 + 1) :
    (FusedLasso.blocks2 n).start k = min (2 * k - 1) n := by
  unfold PairBlocks.start FusedLasso.blocks2
  have hl : (0 :: npArange 1 (n + 2) 2).length = n / 2 + 2 := by
    rw [List.length_cons, npArange_length]; omega
  have hget : ∀ j, j ≤ n / 2 + 1 → (0 :: npArange 1 (n + 2) 2)[j]? = some (2 * j - 1) := by
    intro j hj
    cases j with
    | zero => rfl
    | succ j =>
      rw [List.getElem?_cons_succ, npArange_getElem? _ _ _ _ (by omega)]
      congr 1; omega
  by_cases h : n % 2 = 0
  · simp only [if_pos h]
    by_cases hk' : k < n / 2 + 1
    · rw [List.getElem?_append_left (by rw [List.length_dropLast, hl]; omega), List.getElem?_dropLast, hl,
        if_pos (by omega), hget k hk]
      simp; omega
    · have hk2 : k = n / 2 + 1 := by omega
      rw [List.getElem?_append_right (by rw [List.length_dropLast, hl]; omega), List.length_dropLast, hl, hk2,
        getLastD_eq _ (by simp), hl, hget _ (by omega)]
      simp; omega
  · simp only [if_neg h]
    rw [hget k hk]
    simp; omega

theorem blocks2_active (n k : ℕ) (hn : 0 < n) (hk : k < n / 2 + 1) (hk2 : 2 * k - 1 < n) :
    (FusedLasso.blocks2 n).active k = decide (0 < k ∧ 2 * k < n) := by
  unfold PairBlocks.active
  rw [blocks2_start n k hn hk.le]
  have hmin : min (2 * k - 1) n = 2 * k - 1 := by omega
  rw [hmin, getD0_lt _ hk2]
  unfold FusedLasso.blocks2
  by_cases h : n % 2 = 0
  · simp only [if_pos h]
    by_cases h1 : 2 * k - 1 + 1 = n
    · simp [h1]; omega
    · by_cases h2 : 2 * k - 1 = 0
      · simp [h1, h2]; omega
      · simp [h1, h2]; omega
  · simp only [if_neg h]
    by_cases h2 : 2 * k - 1 = 0
    · simp [h2]; omega
    · simp [h2]; omega

theorem blocks2_inv (n : ℕ) (hn : 0 < n) : PairInv (FusedLasso.blocks2 n) where
  len := blocks2_len n
  first := by rw [blocks2_start n 0 hn (by omega)]; simp
  last := by rw [blocks2_nBlocks, blocks2_start n _ hn le_rfl]; omega
  size := by
    intro h hh
    rw [blocks2_nBlocks] at hh
    rw [blocks2_active n h hn hh (by omega), blocks2_start n h hn hh.le, blocks2_start n (h + 1) hn hh]
    by_cases h2 : 0 < h ∧ 2 * h < n
    · left; exact ⟨by simp [h2], by omega⟩
    · right; exact ⟨by simp [h2], by omega⟩

theorem filter_lt_range (N M : ℕ) (hMN : M ≤ N) : (List.range N).filter (fun k => decide (k < M)) = List.range M := by
  induction N with
  | zero => rw [Nat.le_zero.mp hMN]; rfl
  | succ N ih =>
    rcases Nat.lt_or_ge M (N + 1) with h | h
    · rw [List.range_succ, List.filter_append, ih (by omega)]
      simp; omega
    · have : M = N + 1 := by omega
      subst this
      rw [List.filter_eq_self]
      intro a ha; simpa using ha

theorem blocks1_activeStarts (n : ℕ) :
    (FusedLasso.blocks1 n).activeStarts = (List.range (n / 2)).map (fun k => 2 * k) := by
  unfold PairBlocks.activeStarts
  rw [blocks1_nBlocks]
  have h1 : (List.range ((n + 1) / 2)).filter (FusedLasso.blocks1 n).active = List.range (n / 2) := by
    rw [← filter_lt_range ((n + 1) / 2) (n / 2) (by omega)]
    refine List.filter_congr fun k hk => ?_
    rw [blocks1_active n k (by simpa using hk)]
    simp; omega
  rw [h1]
  refine List.map_congr_left fun k hk => ?_
  have : k < n / 2 := by simpa using hk
  rw [blocks1_start n k (by omega)]; omega

theorem blocks2_activeStarts (n : ℕ) (hn : 0 < n) :
    (FusedLasso.blocks2 n).activeStarts = (List.range ((n - 1) / 2)).map (fun k => 2 * k + 1) := by
  unfold PairBlocks.activeStarts
  rw [blocks2_nBlocks]
  have h1 : (List.range (n / 2 + 1)).filter (FusedLasso.blocks2 n).active
      = (List.range ((n - 1) / 2)).map (· + 1) := by
    rw [List.range_succ_eq_map, List.filter_cons_of_neg
      (by rw [blocks2_active n 0 hn (by omega) (by omega)]; simp), List.filter_map]
    rw [← filter_lt_range (n / 2) ((n - 1) / 2) (by omega)]
    congr 1
    refine List.filter_congr fun k hk => ?_
    have hk' : k < n / 2 := by simpa using hk
    simp only [Function.comp]
    rw [blocks2_active n (k + 1) hn (by omega) (by omega)]
    simp; omega
  rw [h1, List.map_map]
  refine List.map_congr_left fun k hk => ?_
  have : k < (n - 1) / 2 := by simpa using hk
  simp only [Function.comp]
  rw [blocks2_start n (k + 1) hn (by omega)]; omega

theorem evens_odds_perm : ∀ N : ℕ, (((List.range ((N + 1) / 2)).map (fun k => 2 * k)) ++
    ((List.range (N / 2)).map (fun k => 2 * k + 1))).Perm (List.range N)
  | 0 => by simp
  | N + 1 => by
    have ih := evens_odds_perm N
    rw [List.range_succ]
    rcases Nat.mod_two_eq_zero_or_one N with h | h
    · have e1 : (N + 1 + 1) / 2 = (N + 1) / 2 + 1 := by omega
      have e2 : (N + 1) / 2 = N / 2 := by omega
      have e3 : 2 * ((N + 1) / 2) = N := by omega
      rw [e1, List.range_succ, List.map_append, List.append_assoc]
      refine List.Perm.trans (List.Perm.append_left _ List.perm_append_comm) ?_
      rw [← List.append_assoc, e2] 
      rw [e2] at ih
      simp only [List.map_cons, List.map_nil]
      have e4 : 2 * (N / 2) = N := by omega
      rw [e4]
      exact List.Perm.append_right _ ih
    · have e1 : (N + 1 + 1) / 2 = (N + 1) / 2 := by omega
      have e2 : (N + 1) / 2 = N / 2 + 1 := by omega
      have e3 : 2 * (N / 2) + 1 = N := by omega
      rw [e1]
      have : (List.range ((N + 1) / 2)).map (fun k => 2 * k + 1)
          = (List.range (N / 2)).map (fun k => 2 * k + 1) ++ [N] := by
        rw [e2, List.range_succ, List.map_append]; simp [e3]
      rw [this, ← List.append_assoc]
      exact List.Perm.append_right _ ih

end

section kernel
variable {K : Type} [Field K] [LinearOrder K] [IsStrictOrderedRing K] {n m : ℕ}

/-- First component of the prox of `w |a - b|` at `(a, b)`, as computed by the kernels. -/
def pairFst (w a b : K) : K := if a - w ≥ b + w then a - w else if a + w ≤ b - w then a + w else (a + b) / 2

/-- Second component. -/
def pairSnd (w a b : K) : K := if a - w ≥ b + w then b + w else if a + w ≤ b - w then b - w else (a + b) / 2

theorem pair_subgrad {w : K} (hw : 0 ≤ w) (a b c d : K) :
    w * |pairFst w a b - pairSnd w a b| + ((a - pairFst w a b) * (c - pairFst w a b)
      + (b - pairSnd w a b) * (d - pairSnd w a b)) ≤ w * |c - d| := by
  have h1 := le_abs_self (c - d)
  have h2 := neg_abs_le (c - d)
  unfold pairFst pairSnd
  split_ifs with h h'
  · rw [abs_of_nonneg (by linarith : 0 ≤ a - w - (b + w))]
    nlinarith
  · rw [abs_of_nonpos (by linarith : a + w - (b - w) ≤ 0)]
    nlinarith
  · push Not at h h'
    rw [sub_self, abs_zero, mul_zero, zero_add]
    have e : (a - (a + b) / 2) * (c - (a + b) / 2) + (b - (a + b) / 2) * (d - (a + b) / 2)
        = (a - b) / 2 * (c - d) := by ring
    rw [e]
    calc (a - b) / 2 * (c - d) ≤ |(a - b) / 2 * (c - d)| := le_abs_self _
      _ = |(a - b) / 2| * |c - d| := abs_mul _ _
      _ ≤ w * |c - d| := mul_le_mul_of_nonneg_right (abs_le.mpr ⟨by linarith, by linarith⟩) (abs_nonneg _)

theorem PairInv.mono {B : PairBlocks n} (hI : PairInv B) : ∀ h < B.nBlocks, B.start h < B.start (h + 1) := by
  intro h hh; rcases hI.size h hh with ⟨_, h2⟩ | ⟨_, h2⟩ <;> omega

theorem PairInv.start_le {B : PairBlocks n} (hI : PairInv B) {h : ℕ} (hh : h ≤ B.nBlocks) : B.start h ≤ n := by
  have := ptr_le_of_mono B.start B.nBlocks hI.mono B.nBlocks le_rfl h hh
  rwa [hI.last] at this

theorem PairInv.apart {B : PairBlocks n} (hI : PairInv B) {h h' : ℕ} (hh : h < B.nBlocks) (hh' : h' < B.nBlocks)
    (hne : h ≠ h') (ha : B.active h = true) (ha' : B.active h' = true) :
    B.start h + 1 < B.start h' ∨ B.start h' + 1 < B.start h := by
  have s1 := (hI.size h hh).resolve_right (by simp [ha])
  have s2 := (hI.size h' hh').resolve_right (by simp [ha'])
  rcases Nat.lt_or_ge h h' with h1 | h1
  · left
    have := ptr_le_of_mono _ B.nBlocks hI.mono h' (by omega) (h + 1) (by omega); omega
  · right
    have := ptr_le_of_mono _ B.nBlocks hI.mono h (by omega) (h' + 1) (by omega); omega

theorem FusedLasso.kernel_spec {B : PairBlocks n} (hI : PairInv B) (alpha : K) (d : Fin m → K) (step : K) :
    ∀ (row : List ℕ) (x : Fin n → K), row.Nodup → (∀ h ∈ row, h < B.nBlocks ∧ h < m) →
      ∃ x', FusedLasso.kernel alpha B d step row x = some x' ∧
        (∀ h ∈ row, B.active h = true →
          getD0 x' (B.start h) = pairFst (step * getD0 d h * alpha) (getD0 x (B.start h)) (getD0 x (B.start h + 1)) ∧
          getD0 x' (B.start h + 1) = pairSnd (step * getD0 d h * alpha) (getD0 x (B.start h)) (getD0 x (B.start h + 1))) ∧
        (∀ i, (∀ h ∈ row, B.active h = true → i ≠ B.start h ∧ i ≠ B.start h + 1) → getD0 x' i = getD0 x i)
  | [], x, _, _ => ⟨x, rfl, by simp, by simp⟩
  | h :: row, x, hnd, hb => by
    obtain ⟨hh, hm⟩ := hb h List.mem_cons_self
    have hnd' := List.nodup_cons.mp hnd
    have hlen : h < B.indptr.length := by rw [hI.len]; omega
    have hr1 : B.indptr[h]? = some (B.start h) := by
      unfold PairBlocks.start; rw [List.getElem?_eq_getElem hlen]; rfl
    have hmono := hI.mono h hh
    have hle := hI.start_le (h := h + 1) (by omega)
    have hr2 := rd_eq_getD0 B.data (i := B.start h) (by omega)
    have hr3 := rd_eq_getD0 d (i := h) hm
    have hrow : ∀ k ∈ row, k < B.nBlocks ∧ k < m := fun k hk => hb k (List.mem_cons_of_mem _ hk)
    cases hact : B.active h with
    | false =>
      have hflag : getD0 B.data (B.start h) ≤ 0 := by
        unfold PairBlocks.active at hact; simpa using hact
      obtain ⟨x', e, t1, t2⟩ := FusedLasso.kernel_spec hI alpha d step row x hnd'.2 hrow
      refine ⟨x', ?_, ?_, ?_⟩
      · simp only [FusedLasso.kernel, hr1, hr2, if_pos hflag, Option.bind_eq_bind, Option.bind_some]
        exact e
      · intro k hk hka
        rcases List.mem_cons.mp hk with rfl | hk
        · rw [hact] at hka; exact absurd hka (by simp)
        · exact t1 k hk hka
      · intro i hi
        exact t2 i (fun k hk hka => hi k (List.mem_cons_of_mem _ hk) hka)
    | true =>
      have hflag : ¬ (getD0 B.data (B.start h) ≤ 0) := by
        unfold PairBlocks.active at hact; simpa using hact
      have hsz := (hI.size h hh).resolve_right (by simp [hact])
      have hj : B.start h < n := by omega
      have hj1 : B.start h + 1 < n := by omega
      have hr4 := rd_eq_getD0 x (i := B.start h) hj
      have hr5 := rd_eq_getD0 x (i := B.start h + 1) hj1
      set a := getD0 x (B.start h) with ha
      set b := getD0 x (B.start h + 1) with hb'
      set w := step * getD0 d h * alpha with hw
      set x1 := Function.update (Function.update x ⟨B.start h, hj⟩ (pairFst w a b)) ⟨B.start h + 1, hj1⟩
        (pairSnd w a b) with hx1
      have hg : ∀ i, getD0 x1 i = if i = B.start h + 1 then pairSnd w a b
          else if i = B.start h then pairFst w a b else getD0 x i := by
        intro i; rw [hx1, getD0_update, getD0_update]
      have hunf : FusedLasso.kernel alpha B d step (h :: row) x = FusedLasso.kernel alpha B d step row x1 := by
        simp only [FusedLasso.kernel, hr1, hr2, hr3, hr4, hr5, if_neg hflag, Option.bind_eq_bind,
          Option.bind_some, ← hw]
        rw [hx1]
        unfold pairFst pairSnd
        split_ifs <;> simp only [wr_lt _ hj, wr_lt _ hj1, Option.bind_some]
      obtain ⟨x', e, t1, t2⟩ := FusedLasso.kernel_spec hI alpha d step row x1 hnd'.2 hrow
      have hapart : ∀ k ∈ row, B.active k = true →
          B.start h + 1 < B.start k ∨ B.start k + 1 < B.start h := fun k hk hka =>
        hI.apart hh (hrow k hk).1 (fun he => hnd'.1 (he ▸ hk)) hact hka
      refine ⟨x', by rw [hunf]; exact e, ?_, ?_⟩
      · intro k hk hka
        rcases List.mem_cons.mp hk with rfl | hk
        · rw [t2 _ (fun k' hk' hka' => by have := hapart k' hk' hka'; omega),
            t2 _ (fun k' hk' hka' => by have := hapart k' hk' hka'; omega), hg, hg]
          refine ⟨?_, ?_⟩
          · rw [if_neg (by omega), if_pos rfl]
          · rw [if_pos rfl]
        · obtain ⟨u1, u2⟩ := t1 k hk hka
          have hap := hapart k hk hka
          rw [u1, u2, hg, hg, if_neg (by omega), if_neg (by omega), if_neg (by omega), if_neg (by omega)]
          exact ⟨rfl, rfl⟩
      · intro i hi
        have h1 := hi h List.mem_cons_self hact
        rw [t2 i (fun k hk hka => hi k (List.mem_cons_of_mem _ hk) hka), hg, if_neg h1.2, if_neg h1.1]

end kernel

end Copt
