import Verif.Proof.BlockProx

/-! # `GroupL1.prox` computes block soft-thresholding -/

set_option linter.unusedSectionVars false

namespace Copt

open Spec

variable {n : ℕ}

theorem mem_featSet {g : List ℕ} {i : Fin n} : i ∈ featSet g ↔ i.val ∈ g := by simp [featSet]

theorem featSet_cons (j : ℕ) (hj : j < n) (g : List ℕ) :
    (featSet (j :: g) : Finset (Fin n)) = insert ⟨j, hj⟩ (featSet g) := by
  ext i; simp [mem_featSet, Fin.ext_iff]

theorem Spec.IsRun.nodup {g : List ℕ} (h : IsRun g) : g.Nodup := by
  obtain ⟨a, ha⟩ := h; rw [ha]; exact List.nodup_range'

theorem fancyNorm_mapM (x : Fin n → ℝ) : ∀ (g : List ℕ), g.Nodup → (∀ i ∈ g, i < n) →
    ∃ sq : List ℝ, g.mapM (m := Except PyErr) (fun i => do return (← rdE x i) ^ 2) = Except.ok sq ∧ sq.sum = ∑ i ∈ featSet g, x i ^ 2
  | [], _, _ => ⟨[], by simp [pure, Except.pure], by simp [featSet]⟩
  | j :: g, hnd, hb => by
    have hj := hb j List.mem_cons_self
    have hnd' := List.nodup_cons.mp hnd
    obtain ⟨sq, h1, h2⟩ := fancyNorm_mapM x g hnd'.2 (fun i hi => hb i (List.mem_cons_of_mem _ hi))
    refine ⟨x ⟨j, hj⟩ ^ 2 :: sq, ?_, ?_⟩
    · rw [List.mapM_cons, h1, rdE_lt x hj]; rfl
    · rw [featSet_cons j hj, Finset.sum_insert (by simp [mem_featSet, hnd'.1]), List.sum_cons, h2]

theorem fancyNorm_ok (x : Fin n → ℝ) (g : List ℕ) (hnd : g.Nodup) (hb : ∀ i ∈ g, i < n) :
    fancyNorm x g = .ok (blockNorm (featSet g) x) := by
  obtain ⟨sq, h1, h2⟩ := fancyNorm_mapM x g hnd hb
  unfold fancyNorm
  rw [h1]
  show Except.ok (Real.sqrt sq.sum) = _
  rw [h2]; rfl

/-- Block soft-thresholding of coordinate `i` of `x` in the group `g`. -/
noncomputable def softVal (w : ℝ) (x : Fin n → ℝ) (g : List ℕ) (i : Fin n) : ℝ :=
  if blockNorm (featSet g) x > w then x i * (1 - w / blockNorm (featSet g) x) else 0

theorem GroupL1.prox_fold (alpha step : ℝ) (x : Fin n → ℝ) : ∀ (gs : List (List ℕ)) (out : Fin n → ℝ),
    (∀ g ∈ gs, g.Nodup ∧ ∀ i ∈ g, i < n) →
    gs.Pairwise (fun g g' => ∀ i ∈ g, i ∉ g') →
    (∀ g ∈ gs, ∀ i : Fin n, i.val ∈ g → out i = x i) →
    ∃ p, gs.foldlM (fun out g => GroupL1.proxGroup alpha step x out g) out = Except.ok p ∧
      (∀ g ∈ gs, ∀ i : Fin n, i.val ∈ g → p i = softVal (step * alpha) x g i) ∧
      ∀ i : Fin n, (∀ g ∈ gs, i.val ∉ g) → p i = out i
  | [], out, _, _, _ => ⟨out, rfl, by simp, by simp⟩
  | g :: gs, out, hg, hd, ho => by
    obtain ⟨hnd, hb⟩ := hg g List.mem_cons_self
    have hd' := List.pairwise_cons.mp hd
    have hstep : ∃ out', GroupL1.proxGroup alpha step x out g = Except.ok out' ∧
        (∀ i : Fin n, i.val ∈ g → out' i = softVal (step * alpha) x g i) ∧
        (∀ i : Fin n, i.val ∉ g → out' i = out i) := by
      unfold GroupL1.proxGroup
      rw [fancyNorm_ok x g hnd hb]
      by_cases h : blockNorm (featSet g) x > alpha * step
      · refine ⟨_, (if_pos h), ?_, ?_⟩
        · intro i hi
          have h' : blockNorm (featSet g) x > step * alpha := by rwa [mul_comm]
          simp only [softVal, hi, if_true, if_pos h', ho g List.mem_cons_self i hi]
          ring
        · intro i hi; simp [hi]
      · refine ⟨_, (if_neg h), ?_, ?_⟩
        · intro i hi
          have h' : ¬ blockNorm (featSet g) x > step * alpha := by rwa [mul_comm step]
          simp only [softVal, hi, if_true, if_neg h']
        · intro i hi; simp [hi]
    obtain ⟨out', h1, h2, h3⟩ := hstep
    obtain ⟨p, p1, p2, p3⟩ := GroupL1.prox_fold alpha step x gs out'
      (fun k hk => hg k (List.mem_cons_of_mem _ hk)) hd'.2 (by
        intro k hk i hi
        rw [h3 i (fun hig => hd'.1 k hk _ hig hi)]
        exact ho k (List.mem_cons_of_mem _ hk) i hi)
    refine ⟨p, ?_, ?_, ?_⟩
    · rw [List.foldlM_cons, h1]; exact p1
    · intro k hk i hi
      rcases List.mem_cons.mp hk with rfl | hk
      · rw [p3 i (fun k' hk' => hd'.1 k' hk' _ hi)]; exact h2 i hi
      · exact p2 k hk i hi
    · intro i hi
      rw [p3 i (fun k hk => hi k (List.mem_cons_of_mem _ hk))]
      exact h3 i (hi g List.mem_cons_self)

theorem Spec.GoodGroups.disjoint {groups : List (List ℕ)} (h : GoodGroups groups) :
    groups.Pairwise (fun g g' => ∀ i ∈ g, i ∉ g') :=
  h.pairwise.imp fun {a b} hab i hi hi' => by have := hab i hi i hi'; omega

theorem featSet_disjoint {g g' : List ℕ} (h : ∀ i ∈ g, i ∉ g') :
    Disjoint (featSet g : Finset (Fin n)) (featSet g') := by
  rw [Finset.disjoint_left]
  intro i hi hi'
  exact h i.val (mem_featSet.mp hi) (mem_featSet.mp hi')

end Copt
