import Mathlib.Algebra.BigOperators.Group.List.Basic
import Mathlib.Algebra.Module.Basic
import Verif.Proof.FrankWolfe

/-! # The active-set dictionary and the pairwise loop -/

set_option linter.unusedSectionVars false

namespace Copt

open Spec

open scoped InnerProductSpace

section Dict
variable {Rep V : Type} [DecidableEq Rep] [AddCommGroup V] [Module ℝ V]

/-- Weighted sum of the active set. -/
def wsum (φ : Rep → V) (act : ActiveSet Rep ℝ) : V := (act.map fun p => p.2 • φ p.1).sum

/-- Keys of the dictionary. -/
def keys (act : ActiveSet Rep ℝ) : List Rep := act.map Prod.fst

@[simp] theorem dGet_nil (k : Rep) : dGet ([] : ActiveSet Rep ℝ) k = 0 := rfl

theorem dGet_cons (p : Rep × ℝ) (act : ActiveSet Rep ℝ) (k : Rep) :
    dGet (p :: act) k = if p.1 = k then p.2 else dGet act k := by
  unfold dGet
  by_cases h : p.1 = k
  · simp [List.find?_cons, h]
  · simp [List.find?_cons, h]

theorem dGet_of_mem {act : ActiveSet Rep ℝ} (hnd : (keys act).Nodup) {p : Rep × ℝ} (hp : p ∈ act) : dGet act p.1 = p.2 := by
  induction act with
  | nil => cases hp
  | cons q act ih =>
    rw [dGet_cons]
    rcases List.mem_cons.mp hp with rfl | hp
    · rw [if_pos rfl]
    · have hne : q.1 ≠ p.1 := fun h => by
        have := (List.nodup_cons.mp hnd).1
        rw [h] at this
        exact this (List.mem_map_of_mem hp)
      rw [if_neg hne]
      exact ih (List.nodup_cons.mp hnd).2 hp

theorem dGet_not_mem {act : ActiveSet Rep ℝ} {k : Rep} (h : k ∉ keys act) : dGet act k = 0 := by
  induction act with
  | nil => rfl
  | cons q act ih =>
    simp only [keys, List.map_cons, List.mem_cons, not_or] at h
    rw [dGet_cons, if_neg (Ne.symm h.1)]
    exact ih h.2

theorem keys_dTouch (act : ActiveSet Rep ℝ) (k : Rep) : keys (dTouch act k) = if k ∈ keys act then keys act else keys act ++ [k] := by
  unfold dTouch keys
  split <;> simp

theorem mem_keys_dTouch (act : ActiveSet Rep ℝ) (k : Rep) : k ∈ keys (dTouch act k) := by
  rw [keys_dTouch]; split
  · assumption
  · simp

theorem nodup_dTouch {act : ActiveSet Rep ℝ} (h : (keys act).Nodup) (k : Rep) : (keys (dTouch act k)).Nodup := by
  rw [keys_dTouch]; split
  · exact h
  · rename_i hk
    refine List.nodup_append.mpr ⟨h, List.nodup_singleton k, ?_⟩
    intro a ha b hb
    rw [List.mem_singleton.mp hb]
    rintro rfl
    exact hk ha

theorem dGet_dTouch (act : ActiveSet Rep ℝ) (k j : Rep) : dGet (dTouch act k) j = dGet act j := by
  unfold dTouch
  split
  · rfl
  · rename_i hk
    induction act with
    | nil => rw [List.nil_append, dGet_cons]; simp
    | cons q act ih =>
      rw [List.cons_append, dGet_cons, dGet_cons]
      split
      · rfl
      · exact ih (fun h => hk (by rw [List.map_cons]; exact List.mem_cons_of_mem _ h))

theorem wsum_dTouch (φ : Rep → V) (act : ActiveSet Rep ℝ) (k : Rep) : wsum φ (dTouch act k) = wsum φ act := by
  unfold dTouch wsum
  split
  · rfl
  · simp

theorem keys_dAdd (act : ActiveSet Rep ℝ) (k : Rep) (c : ℝ) : keys (dAdd act k c) = keys (dTouch act k) := by
  unfold dAdd keys
  rw [List.map_map]
  refine List.map_congr_left fun p _ => ?_
  simp only [Function.comp_apply]
  split <;> rfl

theorem dGet_map_add (act : ActiveSet Rep ℝ) (k : Rep) (c : ℝ) (j : Rep) :
    dGet (act.map fun p => if p.1 = k then (p.1, p.2 + c) else p) j =
      dGet act j + if j = k ∧ j ∈ keys act then c else 0 := by
  induction act with
  | nil => simp [keys]
  | cons q act ih =>
    rw [List.map_cons, dGet_cons, dGet_cons, ih]
    simp only [keys, List.map_cons, List.mem_cons]
    by_cases h1 : q.1 = j
    · by_cases h2 : q.1 = k
      · rw [if_pos h2, if_pos h1, if_pos h1, if_pos ⟨h1.symm.trans h2, Or.inl h1.symm⟩]
      · rw [if_neg h2, if_pos h1, if_pos h1, if_neg (fun h => h2 (h1.trans h.1)), add_zero]
    · have e : (if q.1 = k then (q.1, q.2 + c) else q).1 = q.1 := by split <;> rfl
      rw [e, if_neg h1, if_neg h1]
      have : (j = q.1 ∨ j ∈ List.map Prod.fst act) ↔ j ∈ List.map Prod.fst act :=
        ⟨fun h => h.resolve_left (Ne.symm h1), Or.inr⟩
      simp only [this]
      congr

theorem dGet_dAdd (act : ActiveSet Rep ℝ) (k : Rep) (c : ℝ) (j : Rep) :
    dGet (dAdd act k c) j = dGet act j + if j = k then c else 0 := by
  unfold dAdd
  rw [dGet_map_add, dGet_dTouch]
  by_cases h : j = k
  · subst h; rw [if_pos ⟨rfl, mem_keys_dTouch act j⟩, if_pos rfl]
  · rw [if_neg (fun hh => h hh.1), if_neg h]

theorem wsum_map_add (φ : Rep → V) {act : ActiveSet Rep ℝ} (hnd : (keys act).Nodup) {k : Rep} (hk : k ∈ keys act) (c : ℝ) :
    wsum φ (act.map fun p => if p.1 = k then (p.1, p.2 + c) else p) = wsum φ act + c • φ k := by
  induction act with
  | nil => simp [keys] at hk
  | cons q act ih =>
    unfold wsum at *
    simp only [List.map_cons, List.sum_cons]
    have hnd' := List.nodup_cons.mp hnd
    by_cases h : q.1 = k
    · rw [if_pos h]
      have hno : ∀ p ∈ act, p.1 ≠ k := fun p hp hpk => hnd'.1 (by
        rw [h, ← hpk]; exact List.mem_map_of_mem hp)
      have e : act.map (fun p => if p.1 = k then (p.1, p.2 + c) else p) = act := by
        conv_rhs => rw [← List.map_id act]
        refine List.map_congr_left fun p hp => ?_
        rw [if_neg (hno p hp)]; rfl
      rw [e, ← h]
      simp only [add_smul]
      abel
    · rw [if_neg h, ih hnd'.2 ((List.mem_cons.mp hk).resolve_left (Ne.symm h)), add_assoc]

theorem wsum_dAdd (φ : Rep → V) {act : ActiveSet Rep ℝ} (hnd : (keys act).Nodup) (k : Rep) (c : ℝ) :
    wsum φ (dAdd act k c) = wsum φ act + c • φ k := by
  unfold dAdd
  rw [wsum_map_add φ (nodup_dTouch hnd k) (mem_keys_dTouch act k), wsum_dTouch]

theorem nodup_dDel {act : ActiveSet Rep ℝ} (h : (keys act).Nodup) (k : Rep) : (keys (dDel act k)).Nodup :=
  h.sublist ((List.filter_sublist (l := act)).map Prod.fst)

theorem keys_dDel (act : ActiveSet Rep ℝ) (k j : Rep) : j ∈ keys (dDel act k) ↔ j ∈ keys act ∧ j ≠ k := by
  unfold keys dDel
  simp only [List.mem_map, List.mem_filter, decide_eq_true_eq]
  constructor
  · rintro ⟨p, ⟨h1, h2⟩, rfl⟩; exact ⟨⟨p, h1, rfl⟩, h2⟩
  · rintro ⟨⟨p, h1, rfl⟩, h2⟩; exact ⟨p, ⟨h1, h2⟩, rfl⟩

theorem dGet_dDel (act : ActiveSet Rep ℝ) (k j : Rep) : dGet (dDel act k) j = if j = k then 0 else dGet act j := by
  unfold dDel
  induction act with
  | nil => simp
  | cons q act ih =>
    rw [List.filter_cons, dGet_cons]
    by_cases h : q.1 = k
    · rw [if_neg (by simpa using h), ih]
      by_cases hj : j = k
      · simp [hj]
      · rw [if_neg hj, if_neg hj, if_neg (fun hh => hj (hh.symm.trans h))]
    · rw [if_pos (by simpa using h), dGet_cons, ih]
      by_cases hj : j = k
      · subst hj; simp [h]
      · simp [hj]

theorem wsum_dDel (φ : Rep → V) {act : ActiveSet Rep ℝ} (hnd : (keys act).Nodup) (k : Rep) :
    wsum φ (dDel act k) = wsum φ act - dGet act k • φ k := by
  unfold dDel
  induction act with
  | nil => simp [wsum]
  | cons q act ih =>
    have hnd' := List.nodup_cons.mp hnd
    rw [List.filter_cons, dGet_cons]
    by_cases h : q.1 = k
    · rw [if_neg (by simpa using h), if_pos h]
      rw [ih hnd'.2, dGet_not_mem (by rw [← h]; exact hnd'.1), zero_smul, sub_zero]
      unfold wsum
      rw [List.map_cons, List.sum_cons, h]; abel
    · rw [if_pos (by simpa using h), if_neg h]
      have := ih hnd'.2
      unfold wsum at *
      rw [List.map_cons, List.sum_cons, this, List.map_cons, List.sum_cons]
      abel

/-- `update_active_set` with a step of at most the away weight. -/
theorem updateActiveSet_ok {act : ActiveSet Rep ℝ} (hnd : (keys act).Nodup)
    {fw away : Rep} {step : ℝ} (h0 : 0 ≤ step) (h1 : step ≤ dGet act away) :
    ∃ act', updateActiveSet act fw away step = .ok act' ∧ (keys act').Nodup ∧
      (∀ k, dGet act' k = dGet act k + (if k = fw then step else 0) + (if k = away then -step else 0)) ∧
      (∀ φ : Rep → V, wsum φ act' = wsum φ act + step • (φ fw - φ away)) ∧
      ∀ k ∈ keys act', k ∈ keys act ∨ k = fw ∨ k = away := by
  set a1 := dTouch act away with ha1
  set a2 := dAdd a1 fw step with ha2
  set a3 := dAdd a2 away (-step) with ha3
  have n1 : (keys a1).Nodup := nodup_dTouch hnd away
  have n2 : (keys a2).Nodup := by rw [ha2, keys_dAdd]; exact nodup_dTouch n1 fw
  have n3 : (keys a3).Nodup := by rw [ha3, keys_dAdd]; exact nodup_dTouch n2 away
  have g3 : ∀ k, dGet a3 k = dGet act k + (if k = fw then step else 0) + (if k = away then -step else 0) := fun k => by
    rw [ha3, dGet_dAdd, ha2, dGet_dAdd, ha1, dGet_dTouch]
  have s3 : ∀ φ : Rep → V, wsum φ a3 = wsum φ act + step • (φ fw - φ away) := fun φ => by
    rw [ha3, wsum_dAdd φ n2, ha2, wsum_dAdd φ n1, ha1, wsum_dTouch, smul_sub, neg_smul]; abel
  have k3 : ∀ k ∈ keys a3, k ∈ keys act ∨ k = fw ∨ k = away := by
    have hT : ∀ (a : ActiveSet Rep ℝ) (k j : Rep), j ∈ keys (dTouch a k) → j ∈ keys a ∨ j = k := by
      intro a k j hj
      rw [keys_dTouch] at hj
      split at hj
      · exact Or.inl hj
      · rcases List.mem_append.mp hj with h | h
        · exact Or.inl h
        · exact Or.inr (List.mem_singleton.mp h)
    intro k hk
    rw [ha3, keys_dAdd] at hk
    rcases hT _ _ _ hk with hk | hk
    · rw [ha2, keys_dAdd] at hk
      rcases hT _ _ _ hk with hk | hk
      · rcases hT _ _ _ hk with hk | hk
        · exact Or.inl hk
        · exact Or.inr (Or.inr hk)
      · exact Or.inr (Or.inl hk)
    · exact Or.inr (Or.inr hk)
  have hge : 0 ≤ dGet a3 away := by
    rw [g3, if_pos rfl]
    split <;> linarith
  by_cases hz : dGet a3 away = 0
  · have e : updateActiveSet act fw away step = .ok (dTouch (dDel a3 away) away) := by
      unfold updateActiveSet
      simp only
      rw [if_pos hz, if_neg]
      rw [dGet_dDel, if_pos rfl]; exact lt_irrefl _
    refine ⟨_, e, nodup_dTouch (nodup_dDel n3 away) away, fun k => ?_, fun φ => ?_, fun k hk => ?_⟩
    · rw [dGet_dTouch, dGet_dDel, ← g3]
      split
      · rename_i h; rw [h, hz]
      · rfl
    · rw [wsum_dTouch, wsum_dDel φ n3, hz, zero_smul, sub_zero, s3]
    · rw [keys_dTouch] at hk
      split at hk
      · exact k3 k ((keys_dDel _ _ _).mp hk).1
      · rcases List.mem_append.mp hk with h | h
        · exact k3 k ((keys_dDel _ _ _).mp h).1
        · exact Or.inr (Or.inr (List.mem_singleton.mp h))
  · have e : updateActiveSet act fw away step = .ok (dTouch a3 away) := by
      unfold updateActiveSet
      simp only
      rw [if_neg hz, if_neg (not_lt.mpr hge)]
    refine ⟨_, e, nodup_dTouch n3 away, fun k => by rw [dGet_dTouch, g3], fun φ => by rw [wsum_dTouch, s3],
      fun k hk => ?_⟩
    rw [keys_dTouch] at hk
    split at hk
    · exact k3 k hk
    · rcases List.mem_append.mp hk with h | h
      · exact k3 k h
      · exact Or.inr (Or.inr (List.mem_singleton.mp h))

end Dict

/-! ### The pairwise loop -/

section Pair
variable {E Rep : Type} [NormedAddCommGroup E] [InnerProductSpace ℝ E] [DecidableEq Rep]

/-- `act` is a convex decomposition of `x` over the vertices `φ`, all of them admissible. -/
structure Decomp (φ : Rep → E) (V : Rep → Prop) (act : ActiveSet Rep ℝ) (x : E) : Prop where
  nodup : (act.map Prod.fst).Nodup
  nonneg : ∀ p ∈ act, 0 ≤ p.2
  sum_one : (act.map Prod.snd).sum = 1
  eq : x = (act.map fun p => p.2 • φ p.1).sum
  valid : ∀ p ∈ act, V p.1

theorem Decomp.ne_nil {φ : Rep → E} {V : Rep → Prop} {act : ActiveSet Rep ℝ} {x : E} (h : Decomp φ V act x) : act ≠ [] := by
  rintro rfl
  have := h.sum_one
  simp at this

theorem Decomp.get_nonneg {φ : Rep → E} {V : Rep → Prop} {act : ActiveSet Rep ℝ} {x : E} (h : Decomp φ V act x) (k : Rep) :
    0 ≤ dGet act k := by
  by_cases hk : k ∈ keys act
  · obtain ⟨p, hp, rfl⟩ := List.mem_map.mp hk
    rw [dGet_of_mem h.nodup hp]; exact h.nonneg p hp
  · rw [dGet_not_mem hk]

theorem wsum_one (act : ActiveSet Rep ℝ) : wsum (fun _ : Rep => (1 : ℝ)) act = (act.map Prod.snd).sum := by
  unfold wsum
  simp

/-- A pairwise step of at most the away weight keeps the decomposition, and does not raise. -/
theorem Decomp.step {φ : Rep → E} {V : Rep → Prop} {act : ActiveSet Rep ℝ} {x : E} (h : Decomp φ V act x) {fw away : Rep}
    {w step : ℝ} (haw : (away, w) ∈ act) (hfw : V fw) (h0 : 0 ≤ step) (h1 : step ≤ w) :
    ∃ act', updateActiveSet act fw away step = .ok act' ∧ Decomp φ V act' (x + step • (φ fw - φ away)) := by
  have hw : dGet act away = w := dGet_of_mem h.nodup haw
  obtain ⟨act', e, hnd, hget, hsum, hkeys⟩ := updateActiveSet_ok (V := E) (fw := fw) h.nodup h0 (hw ▸ h1)
  obtain ⟨act'', e', -, -, hsum1, -⟩ := updateActiveSet_ok (V := ℝ) (fw := fw) h.nodup h0 (hw ▸ h1)
  rw [e] at e'
  simp only [Except.ok.injEq] at e'
  subst e'
  refine ⟨act', e, hnd, fun p hp => ?_, ?_, ?_, fun p hp => ?_⟩
  · rw [← dGet_of_mem hnd hp, hget]
    have := h.get_nonneg p.1
    by_cases h2 : p.1 = away
    · rw [if_pos h2, h2, hw]
      split <;> linarith
    · rw [if_neg h2]
      split <;> linarith
  · rw [← wsum_one, hsum1, wsum_one, h.sum_one]; simp
  · rw [h.eq]; exact (hsum φ).symm
  · rcases hkeys p.1 (List.mem_map_of_mem hp) with hk | hk | hk
    · obtain ⟨q, hq, hqe⟩ := List.mem_map.mp hk
      rw [← hqe]; exact h.valid q hq
    · rw [hk]; exact hfw
    · rw [hk]; exact h.valid _ haw

/-- Pairwise runs: total correctness with the decomposition invariant, for every pairwise LMO. -/
theorem pairwise_run (P : FWArgs E Rep) (φ : Rep → E) (V : Rep → Prop)
    (hlmo : ∀ it u x act, act ≠ [] → ∃ o fw away, P.lmo it u x (some act) = .ok o ∧ o.fwRep = some fw ∧
      o.awayRep = some away ∧ (away, o.maxStep) ∈ act ∧ o.dir = φ fw - φ away ∧ V fw)
    (hv : P.variant = "pairwise") {r0 : Rep} (hr0 : P.x0Rep = some r0) (hV0 : V r0) (hx0 : P.x0 = φ r0)
    (hstep : P.step = .str "backtracking" ∨ (P.step = .str "DR" ∧ P.lipschitz ≠ none))
    (hlip : ∀ L, P.lipschitz = some L → 0 ≤ L) (htol : 0 ≤ P.tol) (hmi : 1 ≤ P.maxIter) :
    ∃ res, minimizeFrankWolfe P = .ok res ∧ (∃ act, res.active = some act ∧ Decomp φ V act res.x) ∧
      ∀ l ∈ res.cbs, ∃ act, l.active = some act ∧ Decomp φ V act l.x := by
  let I : ℕ → FWState E Rep → Prop := fun _ st => (∃ act, st.active = some act ∧ Decomp φ V act st.x) ∧
    (∀ L, st.lip = some L → 0 ≤ L) ∧ ∀ l ∈ st.cbs, ∃ act, l.active = some act ∧ Decomp φ V act l.x
  have hstep' : P.step = .str "backtracking" ∨ P.step = .str "DR" := hstep.imp_right And.left
  have hsok : ∀ l oldF, ∃ s, fwStepSize P l oldF = .ok s := by
    intro l oldF
    unfold fwStepSize
    rcases hstep with h | ⟨h, h'⟩
    · rw [h]; exact ⟨_, by simp only [if_true]; rfl⟩
    · rw [h]; simp only [show ("DR" = "backtracking") = False by decide, if_false, if_true, if_neg h']; exact ⟨_, rfl⟩
  -- one iteration
  have hiter : ∀ it st, I it st → ∃ st' w, fwBody P it st = .ok (st', w) ∧ I (it + 1) st' ∧ st'.last ≠ none := by
    rintro it st ⟨⟨act, hact, hD⟩, hl, hcb⟩
    obtain ⟨o, fw, away, ho, hfw, haw, hmem, hdir, hVfw⟩ := hlmo it (-st.grad) st.x act hD.ne_nil
    have hm : 0 ≤ o.maxStep := hD.nonneg _ hmem
    obtain ⟨s, hs⟩ := hsok (fwLocals P it st o) st.oldF
    have hlip0 := fwLip_nonneg (P := P) hl o.dir
    unfold fwBody
    rw [hact, ho]
    simp only [bind, Except.bind, pure, Except.pure]
    by_cases hc : (fwLocals P it st o).certificate ≤ P.tol
    · rw [if_pos hc]
      refine ⟨_, _, rfl, ⟨⟨act, rfl, hD⟩, ?_, hcb⟩, by simp⟩
      intro L hL
      simp only [Option.some.injEq] at hL
      rw [← hL]; exact hlip0
    · rw [if_neg hc, hs]
      have hcp : 0 < (fwLocals P it st o).certificate := lt_of_le_of_lt htol (not_le.mp hc)
      have hs01 := fwStepSize_le_max hstep' hs hcp hlip0 hm
      have hslip := (fwStepSize_eval hs hcp hlip0 hm).2.2
      have hcb2 : ∀ l ∈ (fwCallback P it { fwLocals P it st o with lip := s.lip, stepSize := some s.step } st.cbs).1,
          ∃ act, l.active = some act ∧ Decomp φ V act l.x := by
        unfold fwCallback
        cases P.callback with
        | none => exact hcb
        | some cb =>
          intro l hl
          rcases List.mem_append.mp hl with hl | hl
          · exact hcb l hl
          · rw [List.mem_singleton.mp hl]; exact ⟨act, hact, hD⟩
      have hlip2 : ∀ L, some s.lip = some L → 0 ≤ L := fun L hL => by
        simp only [Option.some.injEq] at hL; rw [← hL]; exact hslip
      simp only
      split
      · exact ⟨_, _, rfl, ⟨⟨act, rfl, hD⟩, hlip2, hcb2⟩, by simp⟩
      · obtain ⟨act', hu, hD'⟩ := hD.step hmem hVfw hs01.1 hs01.2
        have hup : fwUpdateActive st.active o s.step = .ok (some act') := by
          unfold fwUpdateActive
          rw [hact, hfw, haw]
          simp only [hu]; rfl
        simp only [fwMove, hup, bind, Except.bind, pure, Except.pure]
        refine ⟨_, _, rfl, ⟨⟨act', rfl, ?_⟩, hlip2, hcb2⟩, by simp⟩
        show Decomp φ V act' (st.x + s.step • o.dir)
        rw [hdir]; exact hD'
  have hD0 : Decomp φ V [(r0, (1 : ℝ))] P.x0 :=
    ⟨by simp, by simp, by simp, by simp [hx0], by simpa using hV0⟩
  have hI0 : I 0 (fwInit P (some [(r0, 1)])) := ⟨⟨_, rfl, hD0⟩, hlip, by simp [fwInit]⟩
  obtain ⟨⟨st, w⟩, hr⟩ := fwLoop_total (P := P) I (fun it st h => by
      obtain ⟨st', w, h1, -⟩ := hiter it st h; exact ⟨_, h1⟩)
    (fun it st st' h hb => by
      obtain ⟨st'', w, h1, h2, -⟩ := hiter it st h
      rw [hb] at h1
      simp only [Except.ok.injEq, Prod.mk.injEq] at h1
      rw [h1.1]; exact h2) P.maxIter 0 _ hI0
  have key := fwLoop_induct (P := P) (fun it st => I it st ∧ (it ≠ 0 → st.last ≠ none)) (fun it st _ => I it st ∧ st.last ≠ none)
    (fun it st st' h hb => by
      obtain ⟨st'', w, h1, h2, h3⟩ := hiter it st h.1
      rw [hb] at h1
      simp only [Except.ok.injEq, Prod.mk.injEq] at h1
      rw [h1.1]; exact ⟨h2, fun _ => h3⟩)
    (fun it st st' w' h hb => by
      obtain ⟨st'', w, h1, h2, h3⟩ := hiter it st h.1
      rw [hb] at h1
      simp only [Except.ok.injEq, Prod.mk.injEq] at h1
      rw [h1.1]; exact ⟨h2, h3⟩) P.maxIter 0 _ ⟨hI0, by simp⟩ st w hr
  have hfin : I 0 st ∧ st.last ≠ none := by
    rcases key with ⟨_, -, -, h1⟩ | ⟨-, h1, h2⟩
    · exact h1
    · exact ⟨h1, h2 (by omega)⟩
  obtain ⟨⟨⟨act, hact, hD⟩, -, hcb⟩, hlast⟩ := hfin
  obtain ⟨l, hl⟩ := Option.ne_none_iff_exists'.mp hlast
  have ha0 : fwActive0 P = .ok (some [(r0, 1)]) := by
    unfold fwActive0
    rw [hv, hr0]
    simp only [show ("pairwise" = "vanilla") = False by decide, if_false, if_true]
  have hrun : minimizeFrankWolfe P = fwFinish P (st, w) := by
    rw [minimizeFrankWolfe, if_neg (not_lt.mpr htol), ha0]
    simp only [bind, Except.bind]
    rw [hr]
  rw [hrun]
  unfold fwFinish
  simp only [hl]
  refine ⟨_, rfl, ⟨act, hact, hD⟩, ?_⟩
  simp only
  cases P.callback with
  | none => exact hcb
  | some cb =>
    intro l hl
    rcases List.mem_append.mp hl with hl | hl
    · exact hcb l hl
    · rw [List.mem_singleton.mp hl]; exact ⟨act, hact, hD⟩

end Pair

end Copt
