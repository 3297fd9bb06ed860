import Verif.Spec.Rounding
import Verif.Model.Mem
import Mathlib.Tactic.Linarith
import Mathlib.Tactic.Positivity
import Mathlib.Tactic.Ring
import Mathlib.Algebra.Order.BigOperators.Group.Finset
import Mathlib.Data.Fintype.BigOperators
import Mathlib.Algebra.Order.Archimedean.Real.Basic

/-!
# Families of computations with rounded arithmetic

A family is indexed by all the runs under consideration; `Appr w a b` says that `a` is within a constant times `w` of the bounded family `b`.
-/

namespace Copt

open Spec

variable {ι : Type}

/-- Rounding functions of precision `w`. -/
structure FlFam (fl : ι → ℝ → ℝ) (w : ι → ℝ) : Prop where
  nonneg : ∀ i, 0 ≤ w i
  le : ∀ i, w i ≤ 1
  round : ∀ i x, |fl i x - x| ≤ w i * |x| + w i

/-- `a` approximates the bounded family `b` with precision of the order of `w`. -/
def Appr (w a b : ι → ℝ) : Prop := ∃ C, 0 ≤ C ∧ ∀ i, |a i - b i| ≤ C * w i ∧ |b i| ≤ C

namespace Appr

variable {fl : ι → ℝ → ℝ} {w a b a' b' : ι → ℝ}

theorem refl_of_le (hw : ∀ i, 0 ≤ w i) {C : ℝ} (h : ∀ i, |b i| ≤ C) : Appr w b b :=
  ⟨|C|, abs_nonneg _, fun i => ⟨by rw [sub_self, abs_zero]; exact mul_nonneg (abs_nonneg _) (hw i), (h i).trans (le_abs_self C)⟩⟩

theorem const (hw : ∀ i, 0 ≤ w i) (c : ℝ) : Appr w (fun _ => c) (fun _ => c) := refl_of_le hw (C := |c|) fun _ => le_rfl

theorem bound (hf : ∀ i, w i ≤ 1) (h : Appr w a b) : ∃ C, 0 ≤ C ∧ ∀ i, |a i| ≤ C := by
  obtain ⟨C, hC, h⟩ := h
  refine ⟨C + C, by positivity, fun i => ?_⟩
  have h1 := (h i).1
  have h2 := (h i).2
  have h3 : C * w i ≤ C * 1 := mul_le_mul_of_nonneg_left (hf i) hC
  calc |a i| = |(a i - b i) + b i| := by ring_nf
    _ ≤ |a i - b i| + |b i| := abs_add_le _ _
    _ ≤ C + C := by linarith

theorem add (h : Appr w a b) (h' : Appr w a' b') : Appr w (fun i => a i + a' i) (fun i => b i + b' i) := by
  obtain ⟨C, hC, h⟩ := h
  obtain ⟨C', hC', h'⟩ := h'
  refine ⟨C + C', by positivity, fun i => ⟨?_, (abs_add_le _ _).trans (add_le_add (h i).2 (h' i).2)⟩⟩
  calc |a i + a' i - (b i + b' i)| = |(a i - b i) + (a' i - b' i)| := by ring_nf
    _ ≤ |a i - b i| + |a' i - b' i| := abs_add_le _ _
    _ ≤ (C + C') * w i := by linarith [(h i).1, (h' i).1]

theorem neg (h : Appr w a b) : Appr w (fun i => -a i) (fun i => -b i) := by
  obtain ⟨C, hC, h⟩ := h
  refine ⟨C, hC, fun i => ⟨?_, by rw [abs_neg]; exact (h i).2⟩⟩
  rw [show -a i - -b i = -(a i - b i) by ring, abs_neg]
  exact (h i).1

theorem sub (h : Appr w a b) (h' : Appr w a' b') : Appr w (fun i => a i - a' i) (fun i => b i - b' i) := by
  simpa only [sub_eq_add_neg] using h.add h'.neg

theorem mul (hw : ∀ i, 0 ≤ w i) (hw1 : ∀ i, w i ≤ 1) (h : Appr w a b) (h' : Appr w a' b') : Appr w (fun i => a i * a' i) (fun i => b i * b' i) := by
  obtain ⟨D, hD, hbd⟩ := h'.bound hw1
  obtain ⟨C, hC, h⟩ := h
  obtain ⟨C', hC', h'⟩ := h'
  refine ⟨C * D + C * C', by positivity, fun i => ⟨?_, ?_⟩⟩
  · calc |a i * a' i - b i * b' i| = |(a i - b i) * a' i + b i * (a' i - b' i)| := by ring_nf
      _ ≤ |(a i - b i) * a' i| + |b i * (a' i - b' i)| := abs_add_le _ _
      _ = |a i - b i| * |a' i| + |b i| * |a' i - b' i| := by rw [abs_mul, abs_mul]
      _ ≤ (C * w i) * D + C * (C' * w i) := add_le_add
          (mul_le_mul (h i).1 (hbd i) (abs_nonneg _) (mul_nonneg hC (hw i))) (mul_le_mul (h i).2 (h' i).1 (abs_nonneg _) hC)
      _ = _ := by ring
  · rw [abs_mul]
    have := mul_le_mul (h i).2 (h' i).2 (abs_nonneg _) hC
    have : 0 ≤ C * D := by positivity
    linarith

theorem cmul (hw : ∀ i, 0 ≤ w i) (hw1 : ∀ i, w i ≤ 1) (c : ℝ) (h : Appr w a b) : Appr w (fun i => c * a i) (fun i => c * b i) := (const hw c).mul hw hw1 h

theorem mulc (hw : ∀ i, 0 ≤ w i) (hw1 : ∀ i, w i ≤ 1) (c : ℝ) (h : Appr w a b) : Appr w (fun i => a i * c) (fun i => b i * c) := h.mul hw hw1 (const hw c)

theorem divc (hw : ∀ i, 0 ≤ w i) (hw1 : ∀ i, w i ≤ 1) (c : ℝ) (h : Appr w a b) : Appr w (fun i => a i / c) (fun i => b i / c) := by
  simpa only [div_eq_mul_inv] using h.mulc hw hw1 c⁻¹

/-- A map at bounded distance from a Lipschitz one. -/
theorem map (hw : ∀ i, 0 ≤ w i) (hw1 : ∀ i, w i ≤ 1) {g : ι → ℝ → ℝ} {f : ℝ → ℝ} {K M : ℝ} (hK : 0 ≤ K) (hM : 0 ≤ M) (hg : ∀ i t, |g i t - f t| ≤ K * w i * (1 + |t|))
    (hf : ∀ s t, |f s - f t| ≤ M * |s - t|) (h : Appr w a b) : Appr w (fun i => g i (a i)) (fun i => f (b i)) := by
  obtain ⟨D, hD, hbd⟩ := h.bound hw1
  obtain ⟨C, hC, h⟩ := h
  refine ⟨K * (1 + D) + M * C + |f 0|, by positivity, fun i => ⟨?_, ?_⟩⟩
  · have h1 := hg i (a i)
    have h2 : K * w i * (1 + |a i|) ≤ K * w i * (1 + D) := mul_le_mul_of_nonneg_left (by linarith [hbd i]) (mul_nonneg hK (hw i))
    have h3 := hf (a i) (b i)
    have h4 := mul_le_mul_of_nonneg_left (h i).1 hM
    have h5 : 0 ≤ |f 0| * w i := mul_nonneg (abs_nonneg _) (hw i)
    calc |g i (a i) - f (b i)| = |(g i (a i) - f (a i)) + (f (a i) - f (b i))| := by ring_nf
      _ ≤ |g i (a i) - f (a i)| + |f (a i) - f (b i)| := abs_add_le _ _
      _ ≤ (K * (1 + D) + M * C + |f 0|) * w i := by linarith
  · have h3 := hf (b i) 0
    rw [sub_zero] at h3
    have h4 := mul_le_mul_of_nonneg_left (h i).2 hM
    have h6 : 0 ≤ K * (1 + D) := by positivity
    calc |f (b i)| = |(f (b i) - f 0) + f 0| := by ring_nf
      _ ≤ |f (b i) - f 0| + |f 0| := abs_add_le _ _
      _ ≤ _ := by linarith

theorem max_zero (h : Appr w a b) : Appr w (fun i => max (a i) 0) (fun i => max (b i) 0) := by
  obtain ⟨C, hC, h⟩ := h
  refine ⟨C, hC, fun i => ⟨(abs_max_sub_max_le_abs _ _ _).trans (h i).1, ?_⟩⟩
  have := abs_max_sub_max_le_abs (b i) 0 (0 : ℝ)
  rw [max_self, sub_zero, sub_zero] at this
  exact this.trans (h i).2

theorem abs' (h : Appr w a b) : Appr w (fun i => |a i|) (fun i => |b i|) := by
  obtain ⟨C, hC, h⟩ := h
  exact ⟨C, hC, fun i => ⟨(abs_abs_sub_abs_le_abs_sub _ _).trans (h i).1, by rw [abs_abs]; exact (h i).2⟩⟩

theorem round (hf : FlFam fl w) (h : Appr w a b) : Appr w (fun i => fl i (a i)) b := by
  obtain ⟨D, hD, hbd⟩ := h.bound hf.le
  obtain ⟨C, hC, h⟩ := h
  refine ⟨C + D + 1, by positivity, fun i => ⟨?_, by linarith [(h i).2]⟩⟩
  have h1 := hf.round i (a i)
  have h2 := mul_le_mul_of_nonneg_left (hbd i) (hf.nonneg i)
  have h3 := (h i).1
  calc |fl i (a i) - b i| = |(fl i (a i) - a i) + (a i - b i)| := by ring_nf
    _ ≤ |fl i (a i) - a i| + |a i - b i| := abs_add_le _ _
    _ ≤ (C + D + 1) * w i := by linarith

end Appr

/-- Vectors, entry by entry. -/
def ApprV {p : ℕ} (w : ι → ℝ) (a b : ι → Fin p → ℝ) : Prop := ∀ c, Appr w (fun i => a i c) (fun i => b i c)

section Runs

theorem bind_fam {α β : Type} {A : ι → Option α} {B : ι → α → Option β} {r : ι → β} (h : ∀ i, (A i >>= B i) = some (r i)) :
    ∃ a : ι → α, (∀ i, A i = some (a i)) ∧ ∀ i, B i (a i) = some (r i) := by
  have : ∀ i, ∃ a, A i = some a ∧ B i a = some (r i) := fun i => Option.bind_eq_some_iff.mp (h i)
  choose a h1 h2 using this
  exact ⟨a, h1, h2⟩

/-- Two families of loops over the same list. -/
theorem foldlM_fam {σ τ α : Type} (Rel : (ι → σ) → (ι → τ) → Prop) (f : ι → σ → α → Option σ) (g : ι → τ → α → Option τ) :
    ∀ (l : List α), (∀ a ∈ l, ∀ s t t', Rel s t → (∀ i, g i (t i) a = some (t' i)) → ∃ s', (∀ i, f i (s i) a = some (s' i)) ∧ Rel s' t') →
      ∀ s t t', Rel s t → (∀ i, l.foldlM (g i) (t i) = some (t' i)) → ∃ s', (∀ i, l.foldlM (f i) (s i) = some (s' i)) ∧ Rel s' t' := by
  intro l
  induction l with
  | nil =>
    intro _ s t t' hR h
    refine ⟨s, fun i => rfl, ?_⟩
    have : t = t' := funext fun i => Option.some.inj (h i)
    rwa [← this]
  | cons a l ih =>
    intro hstep s t t' hR h
    simp only [List.foldlM_cons] at h ⊢
    obtain ⟨t1, h1, h2⟩ := bind_fam h
    obtain ⟨s1, h3, hR1⟩ := hstep a List.mem_cons_self s t t1 hR h1
    obtain ⟨s', h4, hR'⟩ := ih (fun a ha => hstep a (List.mem_cons_of_mem _ ha)) s1 t1 t' hR1 h2
    exact ⟨s', fun i => by rw [h3 i]; exact h4 i, hR'⟩

variable {p : ℕ} {w : ι → ℝ}

theorem rd_fam {x x' : ι → Fin p → ℝ} {j : ℕ} {v : ι → ℝ} (hx : ∀ hj : j < p, Appr w (fun i => x' i ⟨j, hj⟩) (fun i => x i ⟨j, hj⟩)) (h : ∀ i, rd (x i) j = some (v i)) :
    ∃ v' : ι → ℝ, (∀ i, rd (x' i) j = some (v' i)) ∧ Appr w v' v := by
  by_cases hj : j < p
  · refine ⟨fun i => x' i ⟨j, hj⟩, fun i => rd_lt _ hj, ?_⟩
    have : v = fun i => x i ⟨j, hj⟩ := funext fun i => by have := h i; rw [rd_lt _ hj] at this; exact (Option.some.inj this).symm
    rw [this]
    exact hx hj
  · have : ∀ i : ι, False := fun i => by have := h i; simp [rd, hj] at this
    exact ⟨v, fun i => (this i).elim, 0, le_rfl, fun i => (this i).elim⟩

theorem wr_fam {x x' : ι → Fin p → ℝ} {j : ℕ} {v v' : ι → ℝ} {y : ι → Fin p → ℝ} (hv : Appr w v' v) (h : ∀ i, wr (x i) j (v i) = some (y i)) :
    ∃ y' : ι → Fin p → ℝ, (∀ i, wr (x' i) j (v' i) = some (y' i)) ∧
      ∀ c : Fin p, (c.val = j → Appr w (fun i => y' i c) (fun i => y i c)) ∧
        (Appr w (fun i => x' i c) (fun i => x i c) → Appr w (fun i => y' i c) (fun i => y i c)) ∧
        (c.val ≠ j → ∀ i, y' i c = x' i c ∧ y i c = x i c) := by
  by_cases hj : j < p
  · have hy : y = fun i => Function.update (x i) ⟨j, hj⟩ (v i) := funext fun i => by have := h i; rw [wr_lt _ hj] at this; exact (Option.some.inj this).symm
    refine ⟨fun i => Function.update (x' i) ⟨j, hj⟩ (v' i), fun i => wr_lt _ hj _, fun c => ?_⟩
    rw [hy]
    by_cases hc : c = ⟨j, hj⟩
    · subst hc
      simp only [Function.update_self]
      exact ⟨fun _ => hv, fun _ => hv, fun hn => absurd rfl hn⟩
    · simp only [Function.update_of_ne hc]
      exact ⟨fun he => absurd (Fin.ext he) hc, fun h => h, fun _ _ => ⟨trivial, trivial⟩⟩
  · have : ∀ i : ι, False := fun i => by have := h i; simp [wr, hj] at this
    exact ⟨y, fun i => (this i).elim, fun c => ⟨fun _ => ⟨0, le_rfl, fun i => (this i).elim⟩, fun _ => ⟨0, le_rfl, fun i => (this i).elim⟩, fun _ i => (this i).elim⟩⟩

theorem wr_famV {x x' : ι → Fin p → ℝ} {j : ℕ} {v v' : ι → ℝ} {y : ι → Fin p → ℝ} (hx : ApprV w x' x) (hv : Appr w v' v) (h : ∀ i, wr (x i) j (v i) = some (y i)) :
    ∃ y' : ι → Fin p → ℝ, (∀ i, wr (x' i) j (v' i) = some (y' i)) ∧ ApprV w y' y := by
  obtain ⟨y', h1, h2⟩ := wr_fam (x' := x') hv h
  exact ⟨y', h1, fun c => (h2 c).2.1 (hx c)⟩

end Runs

end Copt
