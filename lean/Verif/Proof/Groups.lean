import Verif.Proof.PenaltyL1

/-! # Helper lemmas for group structures -/

set_option linter.unusedSectionVars false

namespace Copt

open Spec

theorem diffAllOne_iff_isRun (g : List ℕ) : diffAllOne g = true ↔ IsRun g := by
  cases g with
  | nil => simp [diffAllOne, IsRun]
  | cons a l =>
    rw [diffAllOne_iff]
    constructor
    · intro h; exact ⟨a, by simpa using h⟩
    · rintro ⟨b, hb⟩
      have : a = b := by
        rw [List.length_cons, List.range'_succ] at hb
        exact (List.cons.inj hb).1
      subst this; simpa using hb

theorem initLoop_iff : ∀ (groups : List (List ℕ)) (prev : Option (List ℕ)),
    (∀ g ∈ groups, g ≠ []) → (∀ p ∈ prev, p ≠ []) →
    ((GroupL1.initLoop prev groups = .ok () ∧ (∀ g ∈ groups, IsRun g) ∧
        (prev.toList ++ groups).IsChain StartsAfter) ∨
     (GroupL1.initLoop prev groups = .error .valueError ∧ ¬ ((∀ g ∈ groups, IsRun g) ∧
        (prev.toList ++ groups).IsChain StartsAfter)))
  | [], prev, _, _ => by left; cases prev <;> simp [GroupL1.initLoop]
  | g :: gs, prev, hne, hp => by
    have hg := hne g List.mem_cons_self
    have ih := initLoop_iff gs (some g) (fun h hh => hne h (List.mem_cons_of_mem _ hh))
      (by intro p hp; simp at hp; subst hp; exact hg)
    by_cases hrun : IsRun g
    · have hd := (diffAllOne_iff_isRun g).mpr hrun
      cases prev with
      | none =>
        have e : GroupL1.initLoop none (g :: gs) = GroupL1.initLoop (some g) gs := by
          simp [GroupL1.initLoop, hd]
        rw [e]
        simpa [hrun] using ih
      | some p =>
        have hpne := hp p rfl
        obtain ⟨a, ha⟩ : ∃ a, p.getLast? = some a := by
          cases h : p.getLast? with
          | none => exact absurd (List.getLast?_eq_none_iff.mp h) hpne
          | some a => exact ⟨a, rfl⟩
        obtain ⟨b, hb⟩ : ∃ b, g.head? = some b := by
          cases g with
          | nil => exact absurd rfl hg
          | cons b l => exact ⟨b, rfl⟩
        have e : GroupL1.initLoop (some p) (g :: gs) =
            if a ≥ b then .error .valueError else GroupL1.initLoop (some g) gs := by
          simp [GroupL1.initLoop, hd, ha, hb]
        have hsa : StartsAfter p g ↔ a < b := by simp [StartsAfter, ha, hb]
        rw [e]
        by_cases hab : a ≥ b
        · right
          rw [if_pos hab]
          refine ⟨rfl, fun h => ?_⟩
          have := h.2
          simp [List.isChain_cons_cons, hsa] at this
          omega
        · rw [if_neg hab]
          have hab' : a < b := by omega
          simpa [hrun, List.isChain_cons_cons, hsa, hab'] using ih
    · right
      have hd : diffAllOne g = false := by
        cases h : diffAllOne g with
        | false => rfl
        | true => exact absurd ((diffAllOne_iff_isRun g).mp h) hrun
      refine ⟨by simp [GroupL1.initLoop, hd], fun h => hrun (h.1 g List.mem_cons_self)⟩

theorem isRun_mem_bounds {g : List ℕ} (hne : g ≠ []) (hr : IsRun g) :
    ∃ a, g = List.range' a g.length ∧ 0 < g.length ∧ g.head? = some a ∧
      g.getLast? = some (a + g.length - 1) ∧ ∀ i, i ∈ g ↔ a ≤ i ∧ i < a + g.length := by
  obtain ⟨a, ha⟩ := hr
  have hl : 0 < g.length := List.length_pos_iff.mpr hne
  refine ⟨a, ha, hl, ?_, ?_, ?_⟩
  · cases g with
    | nil => exact absurd rfl hne
    | cons b l =>
      rw [List.length_cons, List.range'_succ] at ha
      rw [(List.cons.inj ha).1]; rfl
  · rw [ha, List.getLast?_range']; simp [hne]
  · intro i; rw [ha, List.mem_range'_1]; simp

/-- In well-formed groups all indices of a group are smaller than those of any later group. -/
theorem Spec.GoodGroups.pairwise {groups : List (List ℕ)} (h : GoodGroups groups) :
    groups.Pairwise (fun g g' => ∀ i ∈ g, ∀ j ∈ g', i < j) := by
  obtain ⟨h1, h2⟩ := h
  induction groups with
  | nil => exact List.Pairwise.nil
  | cons g gs ih =>
    have ih' := ih (fun k hk => h1 k (List.mem_cons_of_mem _ hk)) h2.tail
    refine List.pairwise_cons.mpr ⟨?_, ih'⟩
    cases gs with
    | nil => simp
    | cons k gs =>
      obtain ⟨hgne, hgr⟩ := h1 g List.mem_cons_self
      obtain ⟨hkne, hkr⟩ := h1 k (List.mem_cons_of_mem _ List.mem_cons_self)
      obtain ⟨a, -, hal, -, hlast, hamem⟩ := isRun_mem_bounds hgne hgr
      obtain ⟨b, -, hbl, hhead, -, hbmem⟩ := isRun_mem_bounds hkne hkr
      have hsa := (List.isChain_cons_cons.mp h2).1 _ (by rw [hlast]; rfl) _ (by rw [hhead]; rfl)
      have hfirst : ∀ i ∈ g, i < b := by intro i hi; have := (hamem i).mp hi; omega
      intro g' hg' i hi j hj
      rcases List.mem_cons.mp hg' with rfl | hg'
      · have := (hbmem j).mp hj; have := hfirst i hi; omega
      · have hbk : b ∈ k := (hbmem b).mpr ⟨le_rfl, by omega⟩
        have := (List.pairwise_cons.mp ih').1 g' hg' b hbk j hj
        have := hfirst i hi; omega

end Copt
