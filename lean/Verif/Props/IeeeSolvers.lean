import Verif.Model.IeeeSolvers
import Verif.Props.FloatPdSearch

/-!
# Property C137: nan and infinity in the proximal gradient method and the three operator splitting
-/

set_option exponentiation.threshold 2000

namespace Copt

open Spec

variable {d : ℕ} {rd : ℝ → ℝ} {Om : ℝ}

/-! ### Numbers -/

/-- Neither infinite nor nan. -/
def Ieee.IsFin : Ieee → Prop
  | .fin _ => True
  | _ => False

/-- Not below zero (nan is allowed). -/
def Ieee.NotNeg : Ieee → Prop
  | .fin r => 0 ≤ r
  | .inf s => s = false
  | .nan => True

/-- Above zero. -/
def Ieee.Pos : Ieee → Prop
  | .fin r => 0 < r
  | .inf s => s = false
  | .nan => False

theorem Ieee.add_isFin {a b : Ieee} (h : (Ieee.add rd Om a b).IsFin) : a.IsFin ∧ b.IsFin := by
  cases a with
  | fin x => cases b with
    | fin y => exact ⟨trivial, trivial⟩
    | inf s => exact h.elim
    | nan => exact h.elim
  | inf s => cases b with
    | fin y => exact h.elim
    | inf t =>
      exfalso
      simp only [Ieee.add] at h
      split_ifs at h <;> exact h
    | nan => exact h.elim
  | nan => cases b <;> exact h.elim

theorem Ieee.neg_isFin {a : Ieee} (h : a.neg.IsFin) : a.IsFin := by cases a <;> first | trivial | exact h.elim

theorem Ieee.mul_isFin {a b : Ieee} (h : (Ieee.mul rd Om a b).IsFin) : a.IsFin ∧ b.IsFin := by
  cases a with
  | fin x => cases b with
    | fin y => exact ⟨trivial, trivial⟩
    | inf s =>
      exfalso
      simp only [Ieee.mul] at h
      split_ifs at h <;> exact h
    | nan => exact h.elim
  | inf s => cases b with
    | fin y =>
      exfalso
      simp only [Ieee.mul] at h
      split_ifs at h <;> exact h
    | inf t => exact h.elim
    | nan => exact h.elim
  | nan => cases b <;> exact h.elim

theorem Ieee.div_isFin {a b : Ieee} (h : (Ieee.div rd Om a b).IsFin) : a.IsFin := by
  cases a with
  | fin x => trivial
  | inf s => cases b <;> exact h.elim
  | nan => cases b <;> exact h.elim

theorem Ieee.sqrt_isFin {a : Ieee} (h : (Ieee.sqrt rd Om a).IsFin) : a.IsFin := by
  cases a with
  | fin x => trivial
  | inf s =>
    exfalso
    simp only [Ieee.sqrt] at h
    split_ifs at h <;> exact h
  | nan => exact h.elim

theorem Ieee.round_nonneg_cases {x : ℝ} (hx : 0 ≤ x) : Ieee.round rd Om x = .fin (rd x) ∨ Ieee.round rd Om x = .inf false := by
  unfold Ieee.round
  split_ifs
  · exact .inl rfl
  · exact .inr (by rw [decide_eq_false (not_lt.mpr hx)])

/-- A root is finite, plus infinity or nan. -/
theorem Ieee.sqrt_cases (a : Ieee) : (Ieee.sqrt rd Om a).IsFin ∨ Ieee.sqrt rd Om a = .inf false ∨ Ieee.sqrt rd Om a = .nan := by
  cases a with
  | fin x =>
    simp only [Ieee.sqrt]
    split_ifs
    · exact .inr (.inr rfl)
    · rcases Ieee.round_nonneg_cases (rd := rd) (Om := Om) (Real.sqrt_nonneg x) with h | h
      · rw [h]; exact .inl trivial
      · exact .inr (.inl h)
  | inf s =>
    simp only [Ieee.sqrt]
    split_ifs
    · exact .inr (.inr rfl)
    · exact .inr (.inl rfl)
  | nan => exact .inr (.inr rfl)

/-- A number below another one is not nan nor plus infinity. -/
theorem Ieee.lt_cases {a t : Ieee} (h : Ieee.lt a t) : a.IsFin ∨ a = .inf true := by
  cases a with
  | fin x => exact .inl trivial
  | inf s =>
    cases s with
    | true => exact .inr rfl
    | false =>
      exfalso
      cases t with
      | fin y => exact Bool.false_ne_true h
      | inf t => exact Bool.false_ne_true h.1
      | nan => exact h
  | nan => cases t <;> exact h.elim

theorem OpsSum.isFin {l : List Ieee} {a : Ieee} (h : OpsSum (ieee rd Om) l a) (ha : a.IsFin) : ∀ b ∈ l, b.IsFin := by
  induction h with
  | single x => intro b hb; rw [List.mem_singleton.mp hb]; exact ha
  | add h1 h2 ih1 ih2 =>
    intro b hb
    obtain ⟨h3, h4⟩ := Ieee.add_isFin ha
    exact (List.mem_append.mp hb).elim (ih1 h3 b) (ih2 h4 b)
  | perm hp _ ih => exact fun b hb => ih ha b (hp.mem_iff.mpr hb)

theorem OpsNorm.isFin {m : ℕ} {v : Fin m → Ieee} {s : Ieee} (h : OpsNorm (ieee rd Om) v s) (hs : s.IsFin) (i : Fin m) : (v i).IsFin := by
  obtain ⟨q, hq, rfl⟩ := h
  exact (Ieee.mul_isFin (hq.isFin (Ieee.sqrt_isFin hs) _ ((List.mem_ofFn' _ _).mpr ⟨i, rfl⟩))).1

theorem OpsNorm.cases {m : ℕ} {v : Fin m → Ieee} {s : Ieee} (h : OpsNorm (ieee rd Om) v s) : s.IsFin ∨ s = .inf false ∨ s = .nan := by
  obtain ⟨q, _, rfl⟩ := h
  exact Ieee.sqrt_cases q

theorem OpsNorm.notNeg (hrd : ∀ x, 0 ≤ x → 0 ≤ rd x) {m : ℕ} {v : Fin m → Ieee} {s : Ieee} (h : OpsNorm (ieee rd Om) v s) : s.NotNeg := by
  obtain ⟨q, _, rfl⟩ := h
  show (Ieee.sqrt rd Om q).NotNeg
  cases q with
  | fin x =>
    simp only [Ieee.sqrt]
    split_ifs
    · trivial
    · rcases Ieee.round_nonneg_cases (rd := rd) (Om := Om) (Real.sqrt_nonneg x) with h | h
      · rw [h]; exact hrd _ (Real.sqrt_nonneg x)
      · rw [h]; exact rfl
  | inf s =>
    simp only [Ieee.sqrt]
    split_ifs
    · trivial
    · exact rfl
  | nan => trivial

theorem Ieee.round_notNeg (hrd : ∀ x, 0 ≤ x → 0 ≤ rd x) {x : ℝ} (hx : 0 ≤ x) : (Ieee.round rd Om x).NotNeg := by
  rcases Ieee.round_nonneg_cases (rd := rd) (Om := Om) hx with h | h
  · rw [h]; exact hrd x hx
  · rw [h]; exact rfl

theorem Ieee.mul_notNeg (hrd : ∀ x, 0 ≤ x → 0 ≤ rd x) {a b : Ieee} (ha : a.NotNeg) (hb : b.NotNeg) : (Ieee.mul rd Om a b).NotNeg := by
  cases a with
  | fin x => cases b with
    | fin y => exact Ieee.round_notNeg hrd (mul_nonneg ha hb)
    | inf s =>
      simp only [Ieee.mul]
      split_ifs
      · trivial
      · have hb : s = false := hb
        show Bool.xor s (decide (x < 0)) = false
        rw [hb, decide_eq_false (not_lt.mpr ha)]; rfl
    | nan => trivial
  | inf s =>
    have ha : s = false := ha
    cases b with
    | fin y =>
      simp only [Ieee.mul]
      split_ifs
      · trivial
      · show Bool.xor s (decide (y < 0)) = false
        rw [ha, decide_eq_false (not_lt.mpr hb)]; rfl
    | inf t =>
      have hb : t = false := hb
      show Bool.xor s t = false
      rw [ha, hb]; rfl
    | nan => trivial
  | nan => cases b <;> trivial

theorem Ieee.div_notNeg (hrd : ∀ x, 0 ≤ x → 0 ≤ rd x) {a b : Ieee} (ha : a.NotNeg) (hb : b.NotNeg) : (Ieee.div rd Om a b).NotNeg := by
  cases a with
  | fin x => cases b with
    | fin y =>
      simp only [Ieee.div]
      split_ifs
      · trivial
      · show decide (x < 0) = false
        exact decide_eq_false (not_lt.mpr ha)
      · exact Ieee.round_notNeg hrd (div_nonneg ha hb)
    | inf s => exact le_refl (0 : ℝ)
    | nan => trivial
  | inf s =>
    have ha : s = false := ha
    cases b with
    | fin y =>
      show Bool.xor s (decide (y < 0)) = false
      rw [ha, decide_eq_false (not_lt.mpr hb)]; rfl
    | inf t => trivial
    | nan => trivial
  | nan => cases b <;> trivial

theorem Ieee.nan_div (a : Ieee) : Ieee.div rd Om .nan a = .nan := by cases a <;> rfl

theorem Ieee.nan_mul (a : Ieee) : Ieee.mul rd Om .nan a = .nan := by cases a <;> rfl

theorem Ieee.not_nan_lt (a : Ieee) : ¬ Ieee.lt .nan a := by cases a <;> exact id

theorem Ieee.not_lt_nan (a : Ieee) : ¬ Ieee.lt a .nan := by cases a <;> exact id

/-- The result of a comparison `a < t` where `a` is not negative. -/
theorem Ieee.lt_notNeg {a t : Ieee} (h : Ieee.lt a t) (ha : a.NotNeg) : ∃ c, a = .fin c ∧ 0 ≤ c := by
  cases a with
  | fin x => exact ⟨x, rfl, ha⟩
  | inf s =>
    rcases Ieee.lt_cases h with h | h
    · exact h.elim
    · rw [h] at ha; exact absurd ha (by simp [Ieee.NotNeg])
  | nan => exact (Ieee.not_nan_lt t h).elim

/-! ### Success comes with finite numbers -/

/-- **C137 (success of the proximal gradient method).** In IEEE arithmetic, whatever the oracles return, whatever the step sizes and the tolerance: if `minimize_proximal_gradient` reports success,
then all coordinates of the result are finite, and the certificate is a finite number below the tolerance. -/
theorem C137_success_finite (P : GpgArgs Ieee d) (hnorm : ∀ k v, OpsNorm (ieee rd Om) v (P.norm k v)) {r : GpgResult Ieee d} (h : gpgRun (ieee rd Om) P = .ok r) (hs : r.success = true) :
    (∀ j, (r.x j).IsFin) ∧ (∃ c, r.certificate = .fin c) ∧ Ieee.lt r.certificate P.tol := by
  have key : ∀ m nit x fk g step, gpgLoop (ieee rd Om) P m nit x fk g step = .ok r → (∀ j, (r.x j).IsFin) ∧ (∃ c, r.certificate = .fin c) ∧ Ieee.lt r.certificate P.tol := by
    intro m
    induction m with
    | zero =>
      intro nit x fk g step h
      rw [gpgLoop] at h
      simp only [bind, Except.bind] at h
      cases e : gpgNext (ieee rd Om) P nit x fk g step with
      | error e' => rw [e] at h; simp at h
      | ok o =>
        rw [e] at h
        simp only [] at h
        split_ifs at h with hlt
        · obtain rfl := Except.ok.inj h
          have hn := hnorm nit (fun j => (ieee rd Om).div ((ieee rd Om).sub (x j) (o.xNext j)) o.step)
          have hf : (P.norm nit (fun j => (ieee rd Om).div ((ieee rd Om).sub (x j) (o.xNext j)) o.step)).IsFin := by
            rcases hn.cases with h1 | h1 | h1
            · exact h1
            · rcases Ieee.lt_cases hlt with h2 | h2
              · exact h2
              · rw [h1] at h2; cases h2
            · rcases Ieee.lt_cases hlt with h2 | h2
              · exact h2
              · rw [h1] at h2; cases h2
          refine ⟨fun j => Ieee.neg_isFin (Ieee.add_isFin (Ieee.div_isFin (hn.isFin hf j))).2, ?_, hlt⟩
          show ∃ c, P.norm nit _ = .fin c
          cases e2 : P.norm nit (fun j => (ieee rd Om).div ((ieee rd Om).sub (x j) (o.xNext j)) o.step) with
          | fin c => exact ⟨c, rfl⟩
          | inf s => rw [e2] at hf; exact hf.elim
          | nan => rw [e2] at hf; exact hf.elim
        · obtain rfl := Except.ok.inj h
          exact absurd hs Bool.false_ne_true
    | succ m ih =>
      intro nit x fk g step h
      rw [gpgLoop] at h
      simp only [bind, Except.bind] at h
      cases e : gpgNext (ieee rd Om) P nit x fk g step with
      | error e' => rw [e] at h; simp at h
      | ok o =>
        rw [e] at h
        simp only [] at h
        split_ifs at h with hlt
        · obtain rfl := Except.ok.inj h
          have hn := hnorm nit (fun j => (ieee rd Om).div ((ieee rd Om).sub (x j) (o.xNext j)) o.step)
          have hf : (P.norm nit (fun j => (ieee rd Om).div ((ieee rd Om).sub (x j) (o.xNext j)) o.step)).IsFin := by
            rcases hn.cases with h1 | h1 | h1
            · exact h1
            · rcases Ieee.lt_cases hlt with h2 | h2
              · exact h2
              · rw [h1] at h2; cases h2
            · rcases Ieee.lt_cases hlt with h2 | h2
              · exact h2
              · rw [h1] at h2; cases h2
          refine ⟨fun j => Ieee.neg_isFin (Ieee.add_isFin (Ieee.div_isFin (hn.isFin hf j))).2, ?_, hlt⟩
          show ∃ c, P.norm nit _ = .fin c
          cases e2 : P.norm nit (fun j => (ieee rd Om).div ((ieee rd Om).sub (x j) (o.xNext j)) o.step) with
          | fin c => exact ⟨c, rfl⟩
          | inf s => rw [e2] at hf; exact hf.elim
          | nan => rw [e2] at hf; exact hf.elim
        · exact ih _ _ _ _ _ h
  unfold gpgRun at h
  split_ifs at h
  exact key _ _ _ _ _ _ h

/-- `init_lipschitz` never returns a negative number. -/
theorem gInitLipschitz_notNeg (hrd : ∀ x, 0 ≤ x → 0 ≤ rd x) (f : ℕ → (Fin d → Ieee) → Ieee × (Fin d → Ieee)) (x0 : Fin d → Ieee) : (gInitLipschitz (ieee rd Om) f x0).NotNeg := by
  have key : ∀ k i L0 fT, Ieee.NotNeg L0 → (gInitLoop (ieee rd Om) f x0 k i L0 fT).NotNeg := by
    intro k
    induction k with
    | zero => intro i L0 fT h; exact h
    | succ k ih =>
      intro i L0 fT h
      rw [gInitLoop]
      split_ifs
      · exact h
      · exact ih _ _ _ (Ieee.mul_notNeg hrd h (Ieee.round_notNeg hrd (by norm_num)))
  exact key _ _ _ _ (Ieee.round_notNeg hrd (by norm_num))

/-- Points after the line search: the norm is that of `x - z` and the step is not negative. -/
theorem gtsSearch_out (hrd : ∀ x, 0 ≤ x → 0 ≤ rd x) (P : GtsArgs Ieee d) (hnorm : ∀ k i v, OpsNorm (ieee rd Om) v (P.norm k i v)) (hfac : P.factor.NotNeg) (it : ℕ) (z u : Fin d → Ieee) (fk : Ieee)
    (grad : Fin d → Ieee) : ∀ k i t t', gtsSearch (ieee rd Om) P it z u fk grad k i t = .ok t' → t.step.NotNeg → OpsNorm (ieee rd Om) (fun j => (ieee rd Om).sub (t.x j) (z j)) t.nrm →
      t'.step.NotNeg ∧ OpsNorm (ieee rd Om) (fun j => (ieee rd Om).sub (t'.x j) (z j)) t'.nrm := by
  intro k
  induction k with
  | zero =>
    intro i t t' h h1 h2
    rw [gtsSearch] at h
    obtain rfl := Except.ok.inj h
    exact ⟨h1, h2⟩
  | succ k ih =>
    intro i t t' h h1 h2
    rw [gtsSearch] at h
    simp only [bind, Except.bind] at h
    cases e : P.prox1 (it + 1) (i + 1) (gtsArg (ieee rd Om) t.step grad z u) t.step with
    | error e' => rw [e] at h; simp at h
    | ok x =>
      rw [e] at h
      simp only [] at h
      split_ifs at h
      · obtain rfl := Except.ok.inj h
        exact ⟨h1, hnorm _ _ _⟩
      · exact ih _ _ _ h (Ieee.mul_notNeg hrd h1 hfac) (hnorm _ _ _)

theorem gtsTrial_out (hrd : ∀ x, 0 ≤ x → 0 ≤ rd x) (P : GtsArgs Ieee d) (hnorm : ∀ k i v, OpsNorm (ieee rd Om) v (P.norm k i v)) (hfac : P.factor.NotNeg) {search : Bool} {it : ℕ} {z u : Fin d → Ieee}
    {step : Ieee} {t : GtsTrial Ieee d × Bool} (h : gtsTrial (ieee rd Om) P search it z u step = .ok t) (hst : step.NotNeg) :
    t.1.step.NotNeg ∧ OpsNorm (ieee rd Om) (fun j => (ieee rd Om).sub (t.1.x j) (z j)) t.1.nrm := by
  unfold gtsTrial at h
  simp only [bind, Except.bind] at h
  cases e : P.prox1 (it + 1) 0 (gtsArg (ieee rd Om) step (P.fg it z).2 z u) step with
  | error e' => rw [e] at h; simp at h
  | ok x =>
    rw [e] at h
    simp only [] at h
    split_ifs at h
    · cases e2 : gtsSearch (ieee rd Om) P it z u (P.fg it z).1 (P.fg it z).2 P.lsIter 0 ⟨x, P.norm it 0 (fun j => (ieee rd Om).sub (x j) (z j)), step⟩ with
      | error e' => rw [e2] at h; simp at h
      | ok t' =>
        rw [e2] at h
        obtain rfl := Except.ok.inj h
        exact gtsSearch_out hrd P hnorm hfac it z u _ _ _ _ _ _ e2 hst (hnorm _ _ _)
    · obtain rfl := Except.ok.inj h
      exact ⟨hst, hnorm _ _ _⟩

/-- **C137 (success of the three operator splitting).** In IEEE arithmetic, whatever the oracles return: if `minimize_three_split` reports success, then all coordinates of the result are finite, and
the certificate is a finite number, not negative and below the tolerance.  The step size (if given) and `backtracking_factor` must not be negative. -/
theorem C137_success_finite_split (hrd : ∀ x, 0 ≤ x → 0 ≤ rd x) (P : GtsArgs Ieee d) (hnorm : ∀ k i v, OpsNorm (ieee rd Om) v (P.norm k i v)) (hfac : P.factor.NotNeg) (hst : ∀ s, P.step = some s → s.NotNeg)
    {r : GtsResult Ieee d} (h : gtsRun (ieee rd Om) P = .ok r) (hs : r.success = true) :
    (∀ j, (r.x j).IsFin) ∧ (∃ c, r.certificate = .fin c ∧ 0 ≤ c) ∧ Ieee.lt r.certificate P.tol ∧ 0 < r.nit := by
  have key : ∀ search m it z u step, Ieee.NotNeg step → gtsLoop (ieee rd Om) P search m it z u step = .ok r →
      (∀ j, (r.x j).IsFin) ∧ (∃ c, r.certificate = .fin c ∧ 0 ≤ c) ∧ Ieee.lt r.certificate P.tol ∧ 0 < r.nit := by
    intro search m
    induction m with
    | zero =>
      intro it z u step hst h
      rw [gtsLoop] at h
      simp only [bind, Except.bind] at h
      cases e : gtsTrial (ieee rd Om) P search it z u step with
      | error e' => rw [e] at h; simp at h
      | ok t =>
        obtain ⟨h1, h2⟩ := gtsTrial_out hrd P hnorm hfac e hst
        rw [e] at h
        simp only [] at h
        cases e2 : P.prox2 (it + 1) (fun j => (ieee rd Om).add (t.1.x j) ((ieee rd Om).mul t.1.step (u j))) t.1.step with
        | error e' => rw [e2] at h; simp at h
        | ok zN =>
          rw [e2] at h
          simp only [] at h
          by_cases hlt : 0 < it ∧ (ieee rd Om).lt ((ieee rd Om).div t.1.nrm t.1.step) P.tol
          · rw [if_pos hlt] at h
            obtain rfl := Except.ok.inj h
            obtain ⟨c, hc, hc0⟩ := Ieee.lt_notNeg hlt.2 (Ieee.div_notNeg hrd (h2.notNeg hrd) h1)
            refine ⟨fun j => (Ieee.add_isFin (h2.isFin (Ieee.div_isFin (rd := rd) (Om := Om) (b := t.1.step) ?_) j)).1, ⟨c, hc, hc0⟩, hlt.2, hlt.1⟩
            show Ieee.IsFin ((ieee rd Om).div t.1.nrm t.1.step)
            rw [hc]; trivial
          · rw [if_neg hlt] at h
            obtain rfl := Except.ok.inj h
            exact absurd hs Bool.false_ne_true
    | succ m ih =>
      intro it z u step hst h
      rw [gtsLoop] at h
      simp only [bind, Except.bind] at h
      cases e : gtsTrial (ieee rd Om) P search it z u step with
      | error e' => rw [e] at h; simp at h
      | ok t =>
        obtain ⟨h1, h2⟩ := gtsTrial_out hrd P hnorm hfac e hst
        rw [e] at h
        simp only [] at h
        cases e2 : P.prox2 (it + 1) (fun j => (ieee rd Om).add (t.1.x j) ((ieee rd Om).mul t.1.step (u j))) t.1.step with
        | error e' => rw [e2] at h; simp at h
        | ok zN =>
          rw [e2] at h
          simp only [] at h
          by_cases hlt : 0 < it ∧ (ieee rd Om).lt ((ieee rd Om).div t.1.nrm t.1.step) P.tol
          · rw [if_pos hlt] at h
            obtain rfl := Except.ok.inj h
            obtain ⟨c, hc, hc0⟩ := Ieee.lt_notNeg hlt.2 (Ieee.div_notNeg hrd (h2.notNeg hrd) h1)
            refine ⟨fun j => (Ieee.add_isFin (h2.isFin (Ieee.div_isFin (rd := rd) (Om := Om) (b := t.1.step) ?_) j)).1, ⟨c, hc, hc0⟩, hlt.2, hlt.1⟩
            show Ieee.IsFin ((ieee rd Om).div t.1.nrm t.1.step)
            rw [hc]; trivial
          · rw [if_neg hlt] at h
            refine ih _ _ _ _ ?_ h
            split_ifs
            · exact Ieee.mul_notNeg hrd h1 (Ieee.round_notNeg hrd (by norm_num))
            · exact h1
  unfold gtsRun at h
  split_ifs at h
  simp only [bind, Except.bind] at h
  have h0 : Ieee.NotNeg (gtsStep (ieee rd Om) P) := by
    unfold gtsStep
    cases e : P.step with
    | none => exact Ieee.div_notNeg hrd (Ieee.round_notNeg hrd (by norm_num)) (gInitLipschitz_notNeg hrd _ _)
    | some s => exact hst s e
  obtain ⟨step, hstep⟩ : ∃ step, step = gtsStep (ieee rd Om) P := ⟨_, rfl⟩
  rw [← hstep] at h h0
  cases e : P.prox2 0 P.x0 step with
  | error e' => rw [e] at h; simp at h
  | ok z =>
    rw [e] at h
    simp only [] at h
    cases e2 : P.prox1 0 0 (gStep (ieee rd Om) z (P.start z) step) step with
    | error e' => rw [e2] at h; simp at h
    | ok w =>
      rw [e2] at h
      simp only [] at h
      cases e3 : P.maxIter with
      | zero => rw [e3] at h; simp at h
      | succ m => rw [e3] at h; exact key _ _ _ _ _ _ h0 h

/-! ### A nan is not reported as success if the proximal operators pass it on -/

theorem gStep_nan {x g : Fin d → Ieee} {j : Fin d} (h : x j = .nan ∨ g j = .nan) (t : Ieee) : gStep (ieee rd Om) x g t j = .nan := by
  show Ieee.add rd Om (x j) (Ieee.mul rd Om t (g j)).neg = .nan
  rcases h with h | h
  · rw [h]; exact Ieee.nan_add rd Om _
  · rw [h, Ieee.mul_nan]; exact Ieee.add_nan rd Om _

/-- **C137 (nan in the proximal gradient method, proximal operators which pass nan on).** If the starting point, or the first gradient, has a nan in a coordinate where the proximal operator passes it on,
then `minimize_proximal_gradient` returns after `max_iter` iterations with `success=False`; the coordinate and the certificate are nan. -/
theorem C137_nan_partial (P : GpgArgs Ieee d) (hnorm : ∀ k v, OpsNorm (ieee rd Om) v (P.norm k v)) (hbt : 0 < P.btIter) {j : Fin d}
    (hprox : ∀ k i v s, v j = .nan → ∃ y, P.prox k i v s = .ok y ∧ y j = .nan) (hj : P.x0 j = .nan ∨ (P.start P.x0).2 j = .nan) :
    ∃ r, gpgRun (ieee rd Om) P = .ok r ∧ r.success = false ∧ r.nit = P.maxIter ∧ r.x j = .nan ∧ r.certificate = .nan := by
  have hsearch : ∀ k x g fk, (x j = .nan ∨ g j = .nan) → ∀ m i (y : Fin d → Ieee) step, y j = .nan → ∃ o, gpgSearch (ieee rd Om) P k x g fk m i y step = .ok o ∧ o.xNext j = .nan := by
    intro k x g fk hx m
    induction m with
    | zero =>
      intro i y step hy
      rw [gpgSearch]
      simp only []
      split_ifs
      · exact ⟨_, rfl, hy⟩
      · obtain ⟨y', e, hy'⟩ := hprox k (i + 1) _ ((ieee rd Om).mul step P.factor) (gStep_nan hx ((ieee rd Om).mul step P.factor))
        simp only [bind, Except.bind]
        rw [e]
        exact ⟨_, rfl, hy'⟩
    | succ m ih =>
      intro i y step hy
      rw [gpgSearch]
      simp only []
      split_ifs
      · exact ⟨_, rfl, hy⟩
      · obtain ⟨y', e, hy'⟩ := hprox k (i + 1) _ ((ieee rd Om).mul step P.factor) (gStep_nan hx ((ieee rd Om).mul step P.factor))
        simp only [bind, Except.bind]
        rw [e]
        exact ih _ _ _ hy'
  have hnext : ∀ k x fk g step, (x j = .nan ∨ g j = .nan) → ∃ o, gpgNext (ieee rd Om) P k x fk g step = .ok o ∧ o.xNext j = .nan := by
    intro k x fk g step hx
    unfold gpgNext
    cases P.step with
    | some s =>
      simp only [bind, Except.bind]
      obtain ⟨y, e, hy⟩ := hprox k 0 _ (s k x) (gStep_nan hx (s k x))
      rw [e]
      exact ⟨_, rfl, hy⟩
    | none =>
      simp only [bind, Except.bind]
      obtain ⟨y, e, hy⟩ := hprox k 0 _ step (gStep_nan hx step)
      rw [e]
      exact hsearch k x g fk hx _ _ _ _ hy
  have hcert : ∀ k (x y : Fin d → Ieee) s, y j = .nan → P.norm k (fun j => (ieee rd Om).div ((ieee rd Om).sub (x j) (y j)) s) = .nan := by
    intro k x y s hy
    refine (hnorm k _).nan (i := j) ?_
    show Ieee.div rd Om (Ieee.add rd Om (x j) (y j).neg) s = .nan
    rw [hy]
    show Ieee.div rd Om (Ieee.add rd Om (x j) .nan) s = .nan
    rw [Ieee.add_nan, Ieee.nan_div]
  have key : ∀ m nit x fk g step, (x j = .nan ∨ g j = .nan) →
      ∃ r, gpgLoop (ieee rd Om) P m nit x fk g step = .ok r ∧ r.success = false ∧ r.nit = nit + m ∧ r.x j = .nan ∧ r.certificate = .nan := by
    intro m
    induction m with
    | zero =>
      intro nit x fk g step hx
      obtain ⟨o, e, ho⟩ := hnext nit x fk g step hx
      have hc := hcert nit x o.xNext o.step ho
      rw [gpgLoop]
      simp only [bind, Except.bind]
      rw [e]
      simp only []
      rw [hc, if_neg (show ¬ (ieee rd Om).lt .nan P.tol from Ieee.not_nan_lt P.tol)]
      exact ⟨_, rfl, rfl, rfl, ho, rfl⟩
    | succ m ih =>
      intro nit x fk g step hx
      obtain ⟨o, e, ho⟩ := hnext nit x fk g step hx
      have hc := hcert nit x o.xNext o.step ho
      rw [gpgLoop]
      simp only [bind, Except.bind]
      rw [e]
      simp only []
      rw [hc, if_neg (show ¬ (ieee rd Om).lt .nan P.tol from Ieee.not_nan_lt P.tol)]
      obtain ⟨r, h1, h2, h3, h4⟩ := ih (nit + 1) o.xNext o.fNext o.gradNext o.step (.inl ho)
      exact ⟨r, h1, h2, by rw [h3]; omega, h4⟩
  unfold gpgRun
  rw [if_neg (by omega)]
  obtain ⟨r, h1, h2, h3, h4⟩ := key P.maxIter 0 P.x0 (P.start P.x0).1 (P.start P.x0).2 ((ieee rd Om).div ((ieee rd Om).lit (18 / 10)) (gInitLipschitz (ieee rd Om) P.init P.x0)) hj
  exact ⟨r, h1, h2, by rw [h3]; omega, h4⟩

/-- **C137 (nan in the three operator splitting, proximal operators which pass nan on).** The same for `minimize_three_split`: if the starting point, or all gradients of the first iteration, have a nan in a
coordinate where the proximal operators pass it on (and return otherwise), it returns after `max_iter` iterations with `success=False`, although the primal-dual method does not return (C133). -/
theorem C137_nan_split_partial (P : GtsArgs Ieee d) (hnorm : ∀ k i v, OpsNorm (ieee rd Om) v (P.norm k i v)) (hls : 0 < P.lsIter) (hmax : 0 < P.maxIter) {j : Fin d}
    (h1 : ∀ k i v s, ∃ y, P.prox1 k i v s = .ok y ∧ (v j = .nan → y j = .nan)) (h2 : ∀ k v s, ∃ y, P.prox2 k v s = .ok y ∧ (v j = .nan → y j = .nan))
    (hj : P.x0 j = .nan ∨ ∀ z, (P.fg 0 z).2 j = .nan) :
    ∃ r, gtsRun (ieee rd Om) P = .ok r ∧ r.success = false ∧ r.nit + 1 = P.maxIter ∧ r.x j = .nan ∧ r.certificate = .nan := by
  have harg : ∀ it (z u : Fin d → Ieee) step, (z j = .nan ∨ (P.fg it z).2 j = .nan) → gtsArg (ieee rd Om) step (P.fg it z).2 z u j = .nan := by
    intro it z u step hz
    show Ieee.add rd Om (z j) (Ieee.mul rd Om step (Ieee.add rd Om (u j) ((P.fg it z).2 j))).neg = .nan
    rcases hz with hz | hz
    · rw [hz]; exact Ieee.nan_add rd Om _
    · rw [hz, Ieee.add_nan, Ieee.mul_nan]; exact Ieee.add_nan rd Om _
  have htrial : ∀ search it z u step, (z j = .nan ∨ (P.fg it z).2 j = .nan) → ∃ t, gtsTrial (ieee rd Om) P search it z u step = .ok t ∧ t.1.x j = .nan ∧ t.1.nrm = .nan := by
    intro search it z u step hz
    obtain ⟨x, e, hx⟩ := h1 (it + 1) 0 (gtsArg (ieee rd Om) step (P.fg it z).2 z u) step
    have hx := hx (harg it z u step hz)
    have hn : P.norm it 0 (fun j => (ieee rd Om).sub (x j) (z j)) = .nan := by
      refine (hnorm it 0 _).nan (i := j) ?_
      show Ieee.add rd Om (x j) (z j).neg = .nan
      rw [hx]; exact Ieee.nan_add rd Om _
    unfold gtsTrial
    simp only [bind, Except.bind]
    rw [e]
    simp only []
    rw [if_neg (fun h => Ieee.not_lt_nan ((ieee rd Om).lit (1 / 10 ^ 7)) (hn ▸ h.1))]
    exact ⟨_, rfl, hx, hn⟩
  have key : ∀ search m it z u step, (z j = .nan ∨ (P.fg it z).2 j = .nan) →
      ∃ r, gtsLoop (ieee rd Om) P search m it z u step = .ok r ∧ r.success = false ∧ r.nit = it + m ∧ r.x j = .nan ∧ r.certificate = .nan := by
    intro search m
    induction m with
    | zero =>
      intro it z u step hz
      obtain ⟨t, e, hx, hn⟩ := htrial search it z u step hz
      obtain ⟨zN, e2, _⟩ := h2 (it + 1) (fun j => (ieee rd Om).add (t.1.x j) ((ieee rd Om).mul t.1.step (u j))) t.1.step
      have hc : (ieee rd Om).div t.1.nrm t.1.step = .nan := by rw [hn]; exact Ieee.nan_div (rd := rd) (Om := Om) t.1.step
      rw [gtsLoop]
      simp only [bind, Except.bind]
      rw [e]
      simp only []
      rw [e2]
      simp only []
      rw [hc, if_neg (fun h => Ieee.not_nan_lt P.tol h.2)]
      exact ⟨_, rfl, rfl, rfl, hx, rfl⟩
    | succ m ih =>
      intro it z u step hz
      obtain ⟨t, e, hx, hn⟩ := htrial search it z u step hz
      obtain ⟨zN, e2, hzN⟩ := h2 (it + 1) (fun j => (ieee rd Om).add (t.1.x j) ((ieee rd Om).mul t.1.step (u j))) t.1.step
      have hc : (ieee rd Om).div t.1.nrm t.1.step = .nan := by rw [hn]; exact Ieee.nan_div (rd := rd) (Om := Om) t.1.step
      have hzN : zN j = .nan := hzN (by show Ieee.add rd Om (t.1.x j) _ = .nan; rw [hx]; exact Ieee.nan_add rd Om (Ieee.mul rd Om t.1.step (u j)))
      rw [gtsLoop]
      simp only [bind, Except.bind]
      rw [e]
      simp only []
      rw [e2]
      simp only []
      rw [hc, if_neg (fun h => Ieee.not_nan_lt P.tol h.2)]
      obtain ⟨r, h3, h4, h5, h6⟩ := ih (it + 1) zN (fun j => (ieee rd Om).add (u j) ((ieee rd Om).div ((ieee rd Om).sub (t.1.x j) (zN j)) t.1.step))
        (if t.2 = true ∧ P.hZero = true then (ieee rd Om).mul t.1.step ((ieee rd Om).lit (102 / 100)) else t.1.step) (.inl hzN)
      exact ⟨r, h3, h4, by rw [h5]; omega, h6⟩
  unfold gtsRun
  rw [if_neg (by omega)]
  simp only [bind, Except.bind]
  obtain ⟨step, hstep⟩ : ∃ step, step = gtsStep (ieee rd Om) P := ⟨_, rfl⟩
  rw [← hstep]
  obtain ⟨z, e, hz⟩ := h2 0 P.x0 step
  rw [e]
  simp only []
  obtain ⟨w, e2, _⟩ := h1 0 0 (gStep (ieee rd Om) z (P.start z) step) step
  rw [e2]
  simp only []
  obtain ⟨m, hm⟩ : ∃ m, P.maxIter = m + 1 := ⟨P.maxIter - 1, by omega⟩
  rw [hm]
  simp only []
  obtain ⟨r, h3, h4, h5, h6⟩ := key (gtsFlag P) m 0 z (fun _ => (ieee rd Om).lit 0) step (hj.elim (fun h => .inl (hz h)) (fun h => .inr (h z)))
  exact ⟨r, h3, h4, by rw [h5]; omega, h6⟩

/-! ### `L1Norm` hides a nan -/

/-- `np.fmax`, which ignores nan. -/
noncomputable def Ieee.fmax : Ieee → Ieee → Ieee
  | .nan, b => b
  | a, .nan => a
  | .fin a, .fin b => .fin (max a b)
  | .inf s, .fin b => if s then .fin b else .inf false
  | .fin a, .inf t => if t then .fin a else .inf false
  | .inf s, .inf t => .inf (s && t)

/-- `L1Norm.prox`, penalty.py:31-34, in IEEE arithmetic. -/
noncomputable def ieeeL1Prox (rd : ℝ → ℝ) (Om : ℝ) (alpha : Ieee) (v : Fin d → Ieee) (s : Ieee) : Fin d → Ieee := fun j =>
  (ieee rd Om).sub (Ieee.fmax ((ieee rd Om).sub (v j) ((ieee rd Om).mul alpha s)) (.fin 0)) (Ieee.fmax ((ieee rd Om).sub (v j).neg ((ieee rd Om).mul alpha s)) (.fin 0))

/-- `L1Norm.prox` maps nan to zero. -/
theorem ieeeL1Prox_nan (h0 : rd 0 = 0) (hOm : 0 ≤ Om) (alpha : Ieee) {v : Fin d → Ieee} {j : Fin d} (hv : v j = .nan) (s : Ieee) : ieeeL1Prox rd Om alpha v s j = .fin 0 := by
  have e : ∀ a : Ieee, (ieee rd Om).sub .nan a = .nan := fun a => Ieee.nan_add rd Om a.neg
  have e2 : Ieee.neg .nan = .nan := rfl
  unfold ieeeL1Prox
  rw [hv, e2, e]
  show Ieee.round rd Om (0 + -0) = .fin 0
  unfold Ieee.round
  rw [neg_zero, add_zero, h0, abs_zero, if_pos hOm]

/-- `SquareLoss.f_grad`, loss.py:236-243, on one sample with one feature: `f(x) = (A x - b) ** 2 / 2` and its gradient.  Simplified: no mean over the single sample and no term in `alpha`. -/
noncomputable def ieeeSquare (rd : ℝ → ℝ) (Om : ℝ) (A b : Ieee) (x : Fin 1 → Ieee) : Ieee × (Fin 1 → Ieee) :=
  let O := ieee rd Om
  let z := O.sub (O.mul A (x 0)) b
  (O.mul (O.lit (1 / 2)) (O.mul z z), fun _ => O.mul A z)

/-- `minimize_proximal_gradient(f.f_grad, [0.], prox=L1Norm(1.).prox, jac=True)`, all other arguments being the default ones, for one sample `A`, `b`. -/
noncomputable def gpgNanArgs (rd : ℝ → ℝ) (Om : ℝ) (A b : Ieee) : GpgArgs Ieee 1 :=
  { init := fun _ => ieeeSquare rd Om A b
    start := ieeeSquare rd Om A b
    fg := fun _ _ => ieeeSquare rd Om A b
    prox := fun _ _ v s => .ok (ieeeL1Prox rd Om (Ieee.round rd Om 1) v s)
    dotG := fun _ _ a c => Ieee.mul rd Om (a 0) (c 0), dotD := fun _ _ a c => Ieee.mul rd Om (a 0) (c 0)
    norm := fun _ v => Ieee.sqrt rd Om (Ieee.mul rd Om (v 0) (v 0))
    step := none, x0 := fun _ => .fin 0, tol := Ieee.round rd Om (1 / 10 ^ 6), maxIter := 500, btIter := 1000, factor := Ieee.round rd Om (6 / 10) }

theorem ieeeSquare_nan (b : Ieee) (x : Fin 1 → Ieee) : ieeeSquare rd Om .nan b x = (.nan, fun _ => .nan) := by
  have e : ∀ a : Ieee, (ieee rd Om).mul .nan a = .nan := fun a => Ieee.nan_mul (rd := rd) (Om := Om) a
  have e2 : ∀ a : Ieee, (ieee rd Om).sub .nan a = .nan := fun a => Ieee.nan_add rd Om a.neg
  have e3 : ∀ a : Ieee, (ieee rd Om).mul a .nan = .nan := fun a => Ieee.mul_nan rd Om a
  unfold ieeeSquare
  simp only [e, e2, e3]

theorem Ieee.round_pos {x : ℝ} (hrd : ∀ x, 0 < x → 0 < rd x) (hx : 0 < x) : (Ieee.round rd Om x).Pos := by
  rcases Ieee.round_nonneg_cases (rd := rd) (Om := Om) hx.le with h | h
  · rw [h]; exact hrd x hx
  · rw [h]; exact rfl

theorem Ieee.mul_pos (hrd : ∀ x, 0 < x → 0 < rd x) {a b : Ieee} (ha : a.Pos) (hb : b.Pos) : (Ieee.mul rd Om a b).Pos := by
  cases a with
  | fin x =>
    have ha : 0 < x := ha
    cases b with
    | fin y => exact Ieee.round_pos hrd (_root_.mul_pos ha hb)
    | inf s =>
      have hb : s = false := hb
      simp only [Ieee.mul, if_neg ha.ne', hb, decide_eq_false (not_lt.mpr ha.le)]
      exact rfl
    | nan => exact hb.elim
  | inf s =>
    have ha : s = false := ha
    cases b with
    | fin y =>
      have hb : 0 < y := hb
      simp only [Ieee.mul, if_neg hb.ne', ha, decide_eq_false (not_lt.mpr hb.le)]
      exact rfl
    | inf t =>
      have hb : t = false := hb
      rw [ha, hb]; exact rfl
    | nan => exact hb.elim
  | nan => exact ha.elim

theorem Ieee.zero_div_pos (h0 : rd 0 = 0) (hOm : 0 ≤ Om) {b : Ieee} (hb : b.Pos) : Ieee.div rd Om (.fin 0) b = .fin 0 := by
  cases b with
  | fin y =>
    have hb : 0 < y := hb
    simp only [Ieee.div, if_neg hb.ne', zero_div, Ieee.round, h0, abs_zero, if_pos hOm]
  | inf s => rfl
  | nan => exact hb.elim

/-- Rounding which is accurate for numbers that are not tiny; round to nearest in double precision satisfies it (its subnormal numbers are multiples of `2 ** -1074 < 5e-324`). -/
structure DoubleLike (rd : ℝ → ℝ) (Om : ℝ) : Prop where
  zero : rd 0 = 0
  lower : ∀ x, 1 / 10 ^ 320 ≤ x → 999 / 1000 * x ≤ rd x
  upper : ∀ x, 1 / 10 ^ 320 ≤ x → rd x ≤ 1001 / 1000 * x
  big : 10 ^ 200 ≤ Om

theorem DoubleLike.pos (h : DoubleLike rd Om) {x : ℝ} (hx : 1 / 10 ^ 320 ≤ x) : 0 < rd x := by
  have h1 : (0 : ℝ) < 1 / 10 ^ 320 := by positivity
  have := h.lower x hx
  linarith

theorem DoubleLike.round (h : DoubleLike rd Om) {x : ℝ} (hx : 1 / 10 ^ 320 ≤ x) (hx2 : x ≤ 10 ^ 100) : Ieee.round rd Om x = .fin (rd x) := by
  unfold Ieee.round
  rw [if_pos]
  rw [abs_of_pos (h.pos hx)]
  have h1 : (1001 / 1000 * 10 ^ 100 : ℝ) ≤ 10 ^ 200 := by norm_num
  have := h.upper x hx
  have := h.big
  linarith

theorem DoubleLike.nonneg (h : DoubleLike rd Om) : 0 ≤ Om := le_trans (by positivity) h.big

/-- `init_lipschitz` on a nan objective multiplies by ten a hundred times. -/
theorem gInitLipschitz_nan (h : DoubleLike rd Om) (f : ℕ → (Fin d → Ieee) → Ieee × (Fin d → Ieee)) (x0 : Fin d → Ieee) (hf : ∀ k x, (f k x).1 = .nan) :
    ∃ r, gInitLipschitz (ieee rd Om) f x0 = .fin r ∧ 1 / 2000 ≤ r ∧ r ≤ 2 * 10 ^ 97 := by
  have ht : (1 / 10 ^ 320 : ℝ) ≤ 1 / 2000 := by norm_num
  have h10 : Ieee.round rd Om 10 = .fin (rd 10) := h.round (by norm_num) (by norm_num)
  have h10l := h.lower 10 (by norm_num)
  have h10u := h.upper 10 (by norm_num)
  have key : ∀ k i r fT, (1 / 2000 : ℝ) ≤ r → r * (1004 / 100) ^ k ≤ 2 * 10 ^ 97 →
      ∃ r', gInitLoop (ieee rd Om) f x0 k i (.fin r) fT = .fin r' ∧ 1 / 2000 ≤ r' ∧ r' ≤ 2 * 10 ^ 97 := by
    intro k
    induction k with
    | zero => intro i r fT h1 h2; exact ⟨r, rfl, h1, by simpa using h2⟩
    | succ k ih =>
      intro i r fT h1 h2
      rw [gInitLoop, if_neg (by rw [hf]; exact Ieee.not_le_nan _)]
      have hk : (1 : ℝ) ≤ (1004 / 100) ^ k := one_le_pow₀ (by norm_num)
      have e1 : r * (1004 / 100) ^ (k + 1) = r * (1004 / 100) * (1004 / 100) ^ k := by ring
      have hr0 : 0 ≤ r * (1004 / 100) := by linarith
      have hr1 : r * (1004 / 100) ≤ 2 * 10 ^ 97 := by nlinarith only [e1, h2, hk, hr0]
      have hu : r * rd 10 ≤ r * (1001 / 100) := mul_le_mul_of_nonneg_left (by linarith) (by linarith)
      have hl : r * (999 / 100) ≤ r * rd 10 := mul_le_mul_of_nonneg_left (by linarith) (by linarith)
      have hx : (1 / 10 ^ 320 : ℝ) ≤ r * rd 10 := by linarith
      have e2 : (ieee rd Om).mul (.fin r) ((ieee rd Om).lit 10) = .fin (rd (r * rd 10)) := by
        show Ieee.mul rd Om (.fin r) (Ieee.round rd Om 10) = _
        rw [h10]
        exact h.round hx (le_trans (by linarith : r * rd 10 ≤ 2 * 10 ^ 97) (by norm_num))
      rw [e2]
      have h3 := h.lower _ hx
      have h4 := h.upper _ hx
      refine ih _ _ _ (by linarith) ?_
      rw [e1] at h2
      exact le_trans (mul_le_mul_of_nonneg_right (by linarith) (by linarith)) h2
  unfold gInitLipschitz
  have e3 : (ieee rd Om).lit (1 / 1000) = .fin (rd (1 / 1000)) := h.round (by norm_num) (by norm_num)
  rw [e3]
  have h5 := h.lower (1 / 1000) (by norm_num)
  have h6 := h.upper (1 / 1000) (by norm_num)
  refine key _ _ _ _ (by linarith) (le_trans (mul_le_mul_of_nonneg_right h6 (by positivity)) ?_)
  norm_num

/-- The line search on a nan objective ends with the point zero and a positive step. -/
theorem gpgSearch_nan (h : DoubleLike rd Om) (b : Ieee) (k : ℕ) (x : Fin 1 → Ieee) (fk : Ieee) : ∀ m i (y : Fin 1 → Ieee) (s : ℝ), y 0 = .fin 0 → s ≤ 10 ^ 4 →
    1 / 10 ^ 320 ≤ s * (5988 / 10000) ^ (m + 1) →
    ∃ o, gpgSearch (ieee rd Om) (gpgNanArgs rd Om .nan b) k x (fun _ => .nan) fk m i y (.fin s) = .ok o ∧ o.xNext 0 = .fin 0 ∧ ∃ s', o.step = .fin s' ∧ 0 < s' := by
  have hf : Ieee.round rd Om (6 / 10) = .fin (rd (6 / 10)) := h.round (by norm_num) (by norm_num)
  have hfl := h.lower (6 / 10) (by norm_num)
  have hfu := h.upper (6 / 10) (by norm_num)
  have hstep : ∀ s : ℝ, s ≤ 10 ^ 4 → 1 / 10 ^ 320 ≤ s * (5988 / 10000) → ∃ s', (ieee rd Om).mul (.fin s) (Ieee.round rd Om (6 / 10)) = .fin s' ∧ s * (5988 / 10000) ≤ s' ∧ s' ≤ 10 ^ 4 := by
    intro s hs1 hs2
    have h0 : (0 : ℝ) < 1 / 10 ^ 320 := by positivity
    have hs0 : 0 < s := by
      by_contra hc
      have : s * (5988 / 10000) ≤ 0 := mul_nonpos_of_nonpos_of_nonneg (not_lt.mp hc) (by norm_num)
      linarith
    have hl : s * (5994 / 10000) ≤ s * rd (6 / 10) := mul_le_mul_of_nonneg_left (by linarith) hs0.le
    have hu : s * rd (6 / 10) ≤ s * (7 / 10) := mul_le_mul_of_nonneg_left (by linarith) hs0.le
    have hx : (1 / 10 ^ 320 : ℝ) ≤ s * rd (6 / 10) := by
      linarith
    refine ⟨rd (s * rd (6 / 10)), ?_, ?_, ?_⟩
    · rw [hf]
      exact h.round hx (le_trans (by linarith : s * rd (6 / 10) ≤ 10 ^ 4) (by norm_num))
    · have := h.lower _ hx; linarith
    · have := h.upper _ hx; linarith
  have hprox : ∀ s, (gpgNanArgs rd Om .nan b).prox k s = fun v t => .ok (ieeeL1Prox rd Om (Ieee.round rd Om 1) v t) := fun _ => rfl
  have hfac : (gpgNanArgs rd Om .nan b).factor = Ieee.round rd Om (6 / 10) := rfl
  have hnext : ∀ i y, (gpgNanArgs rd Om .nan b).fg k i y = (.nan, fun _ => .nan) := fun i y => ieeeSquare_nan b y
  have hnle : ∀ i y t, ¬ (ieee rd Om).le ((gpgNanArgs rd Om .nan b).fg k i y).1 t := by intro i y t; rw [hnext]; exact Ieee.not_nan_le t
  intro m
  induction m with
  | zero =>
    intro i y s hy hs1 hs2
    obtain ⟨s', e, h1, h2⟩ := hstep s hs1 (by simpa using hs2)
    rw [gpgSearch]
    simp only [hnext, hprox, hfac, e, bind, Except.bind]
    rw [if_neg (hnle _ _ _)]
    refine ⟨_, rfl, ieeeL1Prox_nan h.zero h.nonneg _ (gStep_nan (.inr rfl) _) _, s', rfl, ?_⟩
    have h0 : (0 : ℝ) < 1 / 10 ^ 320 := by positivity
    rw [zero_add, pow_one] at hs2
    linarith
  | succ m ih =>
    intro i y s hy hs1 hs2
    have hp : ((5988 / 10000 : ℝ)) ^ (m + 1) ≤ 1 := pow_le_one₀ (by norm_num) (by norm_num)
    have hp0 : (0 : ℝ) ≤ (5988 / 10000 : ℝ) ^ (m + 1) := by positivity
    have h0 : (0 : ℝ) < 1 / 10 ^ 320 := by positivity
    have e1 : s * (5988 / 10000) ^ (m + 1 + 1) = s * (5988 / 10000) * (5988 / 10000) ^ (m + 1) := by ring
    have hs3 : (1 : ℝ) / 10 ^ 320 ≤ s * (5988 / 10000) := by
      rw [e1] at hs2
      by_contra hc
      rcases le_or_gt 0 (s * (5988 / 10000)) with h5 | h5
      · exact hc (hs2.trans (mul_le_of_le_one_right h5 hp))
      · have := mul_nonpos_of_nonpos_of_nonneg h5.le hp0
        linarith
    obtain ⟨s', e, h1, h2⟩ := hstep s hs1 hs3
    rw [gpgSearch]
    simp only [hnext, hprox, hfac, e, bind, Except.bind]
    rw [if_neg (hnle _ _ _)]
    refine ih _ _ _ (ieeeL1Prox_nan h.zero h.nonneg _ (gStep_nan (.inr rfl) _) _) h2 ?_
    rw [e1] at hs2
    exact hs2.trans (mul_le_mul_of_nonneg_right h1 hp0)

/-- **C137 (refuted for the proximal gradient method).** It is not true that a nan in the data is never reported as success: `np.fmax` in `L1Norm.prox` turns nan into zero.  With default arguments, the l1
penalty and a nan in the data matrix, `minimize_proximal_gradient` started at zero returns zero with `success=True` and certificate zero, although objective and gradient are nan there.  This holds in
particular in double precision, underflow and overflow included. -/
theorem C137_refuted (h : DoubleLike rd Om) (b : Ieee) : ∃ r, gpgRun (ieee rd Om) (gpgNanArgs rd Om .nan b) = .ok r ∧ r.success = true ∧ r.x 0 = .fin 0 ∧ r.certificate = .fin 0 ∧
    (ieeeSquare rd Om .nan b r.x).1 = .nan ∧ (ieeeSquare rd Om .nan b r.x).2 0 = .nan := by
  obtain ⟨L, hL, hL1, hL2⟩ := gInitLipschitz_nan h (gpgNanArgs rd Om .nan b).init (gpgNanArgs rd Om .nan b).x0 (fun k x => by show (ieeeSquare rd Om .nan b x).1 = .nan; rw [ieeeSquare_nan])
  have h18 : Ieee.round rd Om (18 / 10) = .fin (rd (18 / 10)) := h.round (by norm_num) (by norm_num)
  have h18l := h.lower (18 / 10) (by norm_num)
  have h18u := h.upper (18 / 10) (by norm_num)
  have hL0 : 0 < L := by linarith
  have hq : (89 / 10 ^ 99 : ℝ) ≤ rd (18 / 10) / L := by
    rw [le_div_iff₀ hL0]
    have : (89 / 10 ^ 99 : ℝ) * L ≤ 89 / 10 ^ 99 * (2 * 10 ^ 97) := mul_le_mul_of_nonneg_left hL2 (by positivity)
    have h2 : (89 / 10 ^ 99 : ℝ) * (2 * 10 ^ 97) = 178 / 100 := by norm_num
    linarith
  have hq2 : rd (18 / 10) / L ≤ 4000 := by rw [div_le_iff₀ hL0]; linarith
  have hqt : (1 / 10 ^ 320 : ℝ) ≤ rd (18 / 10) / L := le_trans (by norm_num) hq
  have e1 : (ieee rd Om).div ((ieee rd Om).lit (18 / 10)) (.fin L) = .fin (rd (rd (18 / 10) / L)) := by
    show Ieee.div rd Om (Ieee.round rd Om (18 / 10)) (.fin L) = _
    rw [h18]
    simp only [Ieee.div, if_neg hL0.ne']
    exact h.round hqt (hq2.trans (by norm_num))
  obtain ⟨s0, hs0⟩ : ∃ s0, s0 = rd (rd (18 / 10) / L) := ⟨_, rfl⟩
  have hs0l : (88 / 10 ^ 99 : ℝ) ≤ s0 := by
    have := h.lower _ hqt
    rw [hs0]
    have h2 : (88 / 10 ^ 99 : ℝ) ≤ 999 / 1000 * (89 / 10 ^ 99) := by norm_num
    linarith
  have hs0u : s0 ≤ 4004 := by
    have := h.upper _ hqt
    rw [hs0]
    linarith
  rw [← hs0] at e1
  have h11 : Ieee.round rd Om (11 / 10) = .fin (rd (11 / 10)) := h.round (by norm_num) (by norm_num)
  have h11l := h.lower (11 / 10) (by norm_num)
  have h11u := h.upper (11 / 10) (by norm_num)
  have hs0p : 0 < s0 := lt_of_lt_of_le (by positivity) hs0l
  have hml : s0 * (1098 / 1000) ≤ s0 * rd (11 / 10) := mul_le_mul_of_nonneg_left (by linarith) hs0p.le
  have hmu : s0 * rd (11 / 10) ≤ s0 * 2 := mul_le_mul_of_nonneg_left (by linarith) hs0p.le
  have hmt : (1 / 10 ^ 320 : ℝ) ≤ s0 * rd (11 / 10) := by
    have : (1 / 10 ^ 320 : ℝ) ≤ 88 / 10 ^ 99 := by norm_num
    linarith
  have e2 : (ieee rd Om).mul (.fin s0) ((ieee rd Om).lit (11 / 10)) = .fin (rd (s0 * rd (11 / 10))) := by
    show Ieee.mul rd Om (.fin s0) (Ieee.round rd Om (11 / 10)) = _
    rw [h11]
    exact h.round hmt (le_trans (by linarith : s0 * rd (11 / 10) ≤ 10 ^ 5) (by norm_num))
  obtain ⟨s1, hs1⟩ : ∃ s1, s1 = rd (s0 * rd (11 / 10)) := ⟨_, rfl⟩
  have hs1l : (96 / 10 ^ 99 : ℝ) ≤ s1 := by
    have := h.lower _ hmt
    rw [hs1]
    have h2 : (96 / 10 ^ 99 : ℝ) ≤ 999 / 1000 * (88 / 10 ^ 99 * (1098 / 1000)) := by norm_num
    linarith
  have hs1u : s1 ≤ 10 ^ 4 := by
    have := h.upper _ hmt
    rw [hs1]
    linarith
  rw [← hs1] at e2
  obtain ⟨o, e3, ho, s', hs', hs'0⟩ := gpgSearch_nan h b 0 (fun _ => .fin 0) .nan 999 0
    (ieeeL1Prox rd Om (Ieee.round rd Om 1) (gStep (ieee rd Om) (fun _ => .fin 0) (fun _ => .nan) (.fin s0)) (.fin s0)) s1 (ieeeL1Prox_nan h.zero h.nonneg _ (gStep_nan (.inr rfl) _) _) hs1u
    (le_trans (by norm_num) (mul_le_mul_of_nonneg_right hs1l (by positivity)))
  have hz : Ieee.round rd Om 0 = .fin 0 := by unfold Ieee.round; rw [h.zero, abs_zero, if_pos h.nonneg]
  have hcert : (gpgNanArgs rd Om .nan b).norm 0 (fun j => (ieee rd Om).div ((ieee rd Om).sub (.fin 0) (o.xNext j)) o.step) = .fin 0 := by
    have e4 : (ieee rd Om).div ((ieee rd Om).sub (.fin 0) (o.xNext 0)) o.step = .fin 0 := by
      rw [ho, hs']
      show Ieee.div rd Om (Ieee.round rd Om (0 + -0)) (.fin s') = _
      rw [neg_zero, add_zero, hz]
      exact Ieee.zero_div_pos h.zero h.nonneg hs'0
    show Ieee.sqrt rd Om (Ieee.mul rd Om ((ieee rd Om).div ((ieee rd Om).sub (.fin 0) (o.xNext 0)) o.step) ((ieee rd Om).div ((ieee rd Om).sub (.fin 0) (o.xNext 0)) o.step)) = .fin 0
    rw [e4]
    show Ieee.sqrt rd Om (Ieee.round rd Om (0 * 0)) = .fin 0
    rw [mul_zero, hz]
    simp only [Ieee.sqrt, lt_irrefl, if_false, Real.sqrt_zero, hz]
  have hlt : (ieee rd Om).lt (.fin 0) (gpgNanArgs rd Om .nan b).tol := by
    show Ieee.lt (.fin 0) (Ieee.round rd Om (1 / 10 ^ 6))
    rw [h.round (by norm_num) (by norm_num)]
    exact h.pos (by norm_num)
  have enext : gpgNext (ieee rd Om) (gpgNanArgs rd Om .nan b) 0 (fun _ => .fin 0) .nan (fun _ => .nan) (.fin s0) = .ok o := by
    unfold gpgNext
    show (do
      let xNext ← (gpgNanArgs rd Om .nan b).prox 0 0 (gStep (ieee rd Om) (fun _ => .fin 0) (fun _ => .nan) (.fin s0)) (.fin s0)
      gpgSearch (ieee rd Om) (gpgNanArgs rd Om .nan b) 0 (fun _ => .fin 0) (fun _ => .nan) .nan 999 0 xNext ((ieee rd Om).mul (.fin s0) ((ieee rd Om).lit (11 / 10)))) = _
    rw [e2]
    exact e3
  refine ⟨⟨o.xNext, true, .fin 0, 0⟩, ?_, rfl, ho, rfl, by rw [ieeeSquare_nan], by rw [ieeeSquare_nan]⟩
  unfold gpgRun
  rw [if_neg (by show ¬ (1000 = 0); norm_num), hL, e1]
  have estart : (gpgNanArgs rd Om .nan b).start (gpgNanArgs rd Om .nan b).x0 = (.nan, fun _ => .nan) := ieeeSquare_nan b _
  rw [estart]
  show gpgLoop (ieee rd Om) (gpgNanArgs rd Om .nan b) 500 0 (fun _ => .fin 0) .nan (fun _ => .nan) (.fin s0) = _
  rw [gpgLoop]
  simp only [bind, Except.bind]
  rw [enext]
  simp only []
  rw [hcert, if_pos hlt]
  rfl

/-- `minimize_three_split(f.f_grad, [0.], prox_1=L1Norm(1.).prox, step_size=1.)`, all other arguments being the default ones, for one sample `A`, `b`. -/
noncomputable def gtsNanArgs (rd : ℝ → ℝ) (Om : ℝ) (A b : Ieee) : GtsArgs Ieee 1 :=
  { init := fun _ => ieeeSquare rd Om A b
    start := fun x => (ieeeSquare rd Om A b x).2
    fg := fun _ => ieeeSquare rd Om A b
    fval := fun _ _ x => (ieeeSquare rd Om A b x).1
    prox1 := fun _ _ v s => .ok (ieeeL1Prox rd Om (Ieee.round rd Om 1) v s)
    prox2 := fun _ v _ => .ok v
    norm := fun _ _ v => Ieee.sqrt rd Om (Ieee.mul rd Om (v 0) (v 0)), dot := fun _ _ a c => Ieee.mul rd Om (a 0) (c 0)
    x0 := fun _ => .fin 0, tol := Ieee.round rd Om (1 / 10 ^ 6), maxIter := 1000, lineSearch := true, step := some (.fin 1), lsIter := 100, factor := Ieee.round rd Om (7 / 10), hZero := false }

/-- **C137 (refuted for the three operator splitting).** The same for `minimize_three_split`: with a nan in the data matrix and `prox_1=L1Norm(1.).prox` it returns zero with `success=True`. -/
theorem C137_refuted_split (h : DoubleLike rd Om) (b : Ieee) : ∃ r, gtsRun (ieee rd Om) (gtsNanArgs rd Om .nan b) = .ok r ∧ r.success = true ∧ r.x 0 = .fin 0 ∧ r.certificate = .fin 0 ∧
    (ieeeSquare rd Om .nan b r.x).1 = .nan ∧ (ieeeSquare rd Om .nan b r.x).2 0 = .nan := by
  have hz : Ieee.round rd Om 0 = .fin 0 := by unfold Ieee.round; rw [h.zero, abs_zero, if_pos h.nonneg]
  have hsub : (ieee rd Om).sub (.fin 0) (.fin 0) = .fin 0 := by
    show Ieee.round rd Om (0 + -0) = _
    rw [neg_zero, add_zero, hz]
  have hadd : (ieee rd Om).add (.fin 0) (.fin 0) = .fin 0 := by
    show Ieee.round rd Om (0 + 0) = _
    rw [add_zero, hz]
  have hmul : ∀ a, (ieee rd Om).mul (.fin a) (.fin 0) = .fin 0 := by
    intro a
    show Ieee.round rd Om (a * 0) = _
    rw [mul_zero, hz]
  have hdiv : (ieee rd Om).div (.fin 0) (.fin 1) = .fin 0 := Ieee.zero_div_pos h.zero h.nonneg (b := .fin 1) (show (0 : ℝ) < 1 by norm_num)
  have hsqrt : Ieee.sqrt rd Om (.fin 0) = .fin 0 := by simp only [Ieee.sqrt, lt_irrefl, if_false, Real.sqrt_zero, hz]
  have hl1 : ∀ v : Fin 1 → Ieee, v 0 = .nan → ∀ s, ieeeL1Prox rd Om (Ieee.round rd Om 1) v s = fun _ => .fin 0 := by
    intro v hv s
    funext j
    rw [Subsingleton.elim j 0]
    exact ieeeL1Prox_nan h.zero h.nonneg _ hv s
  have hgt : ¬ (ieee rd Om).lt ((ieee rd Om).lit (1 / 10 ^ 7)) (.fin 0) := by
    show ¬ Ieee.lt (Ieee.round rd Om (1 / 10 ^ 7)) (.fin 0)
    rw [h.round (by norm_num) (by norm_num)]
    exact not_lt.mpr (h.pos (by norm_num)).le
  have hlt : (ieee rd Om).lt (.fin 0) (gtsNanArgs rd Om .nan b).tol := by
    show Ieee.lt (.fin 0) (Ieee.round rd Om (1 / 10 ^ 6))
    rw [h.round (by norm_num) (by norm_num)]
    exact h.pos (by norm_num)
  have htrial : ∀ it, gtsTrial (ieee rd Om) (gtsNanArgs rd Om .nan b) true it (fun _ => .fin 0) (fun _ => .fin 0) (.fin 1) = .ok (⟨fun _ => .fin 0, .fin 0, .fin 1⟩, false) := by
    intro it
    have e1 : (gtsNanArgs rd Om .nan b).prox1 (it + 1) 0 (gtsArg (ieee rd Om) (.fin 1) ((gtsNanArgs rd Om .nan b).fg it (fun _ => .fin 0)).2 (fun _ => .fin 0) (fun _ => .fin 0)) (.fin 1) =
        .ok (fun _ => .fin 0) := by
      refine congrArg Except.ok (hl1 _ ?_ _)
      show Ieee.add rd Om (.fin 0) (Ieee.mul rd Om (.fin 1) (Ieee.add rd Om (.fin 0) ((ieeeSquare rd Om .nan b (fun _ => .fin 0)).2 0))).neg = .nan
      rw [ieeeSquare_nan]
      rfl
    have e2 : (gtsNanArgs rd Om .nan b).norm it 0 (fun _ => .fin 0) = .fin 0 := by
      show Ieee.sqrt rd Om ((ieee rd Om).mul (.fin 0) (.fin 0)) = _
      rw [hmul, hsqrt]
    have e3 : (gtsNanArgs rd Om .nan b).norm it 0 (fun _ => (ieee rd Om).sub (.fin 0) (.fin 0)) = .fin 0 := by rw [hsub]; exact e2
    unfold gtsTrial
    simp only [bind, Except.bind]
    rw [e1]
    simp only []
    rw [e3, if_neg (fun h => hgt h.1)]
    rfl
  refine ⟨⟨fun _ => .fin 0, true, 1, .fin 0, .fin 1⟩, ?_, rfl, rfl, rfl, by rw [ieeeSquare_nan], by rw [ieeeSquare_nan]⟩
  show gtsLoop (ieee rd Om) (gtsNanArgs rd Om .nan b) true 999 0 (fun _ => .fin 0) (fun _ => (ieee rd Om).lit 0) (.fin 1) = _
  have hl0 : (ieee rd Om).lit 0 = .fin 0 := hz
  have hp2 : ∀ k v s, (gtsNanArgs rd Om .nan b).prox2 k v s = .ok v := fun _ _ _ => rfl
  rw [hl0, gtsLoop]
  simp only [bind, Except.bind, htrial, hp2, hmul, hadd, hsub, hdiv, lt_irrefl, false_and, if_false, Bool.false_eq_true]
  rw [gtsLoop]
  simp only [bind, Except.bind, htrial, hp2, hmul, hadd, hdiv, false_and, if_false, Bool.false_eq_true]
  rw [if_pos ⟨Nat.succ_pos 0, by rw [hdiv]; exact hlt⟩]
  rfl

/-! ### Examples -/

/-- Rounding to 53 significant bits is an instance of `DoubleLike`. -/
theorem doubleLike_bits : DoubleLike (flBits 52) (2 ^ 1023) where
  zero := (flBits_rounding (p := 52) le_rfl).zero
  lower := fun x hx => by
    have h := (flBits_rounding (p := 52) le_rfl).err x
    have hx0 : 0 ≤ x := le_trans (by positivity) hx
    rw [abs_of_nonneg hx0] at h
    have h2 : (2⁻¹ : ℝ) ^ (52 + 1) * x ≤ 1 / 1000 * x := mul_le_mul_of_nonneg_right (by norm_num) hx0
    have := (abs_le.mp h).1
    linarith
  upper := fun x hx => by
    have h := (flBits_rounding (p := 52) le_rfl).err x
    have hx0 : 0 ≤ x := le_trans (by positivity) hx
    rw [abs_of_nonneg hx0] at h
    have h2 : (2⁻¹ : ℝ) ^ (52 + 1) * x ≤ 1 / 1000 * x := mul_le_mul_of_nonneg_right (by norm_num) hx0
    have := (abs_le.mp h).2
    linarith
  big := by norm_num

theorem opsNorm_one (O : FlOps Ieee) (v : Fin 1 → Ieee) : OpsNorm O v (O.sqrt (O.mul (v 0) (v 0))) :=
  ⟨_, by rw [List.ofFn_succ, List.ofFn_zero]; exact .single _, rfl⟩

/-- The hypotheses of `C137_success_finite` are met by a run which ends with success. -/
example : ∃ r, gpgRun (ieee (flBits 52) (2 ^ 1023)) (gpgNanArgs (flBits 52) (2 ^ 1023) .nan (.fin 1)) = .ok r ∧ r.success = true ∧ ∀ j, (r.x j).IsFin := by
  obtain ⟨r, h1, h2, _⟩ := C137_refuted doubleLike_bits (.fin 1)
  exact ⟨r, h1, h2, (C137_success_finite _ (fun _ v => opsNorm_one (ieee (flBits 52) (2 ^ 1023)) v) h1 h2).1⟩

/-- The hypotheses of `C137_success_finite_split` are met by a run which ends with success. -/
example : ∃ r, gtsRun (ieee (flBits 52) (2 ^ 1023)) (gtsNanArgs (flBits 52) (2 ^ 1023) .nan (.fin 1)) = .ok r ∧ r.success = true ∧ ∀ j, (r.x j).IsFin := by
  have hrd : ∀ x, 0 ≤ x → 0 ≤ flBits 52 x := fun x hx => (flBits_rounding (p := 52) le_rfl).nonneg hx
  obtain ⟨r, h1, h2, _⟩ := C137_refuted_split doubleLike_bits (.fin 1)
  exact ⟨r, h1, h2, (C137_success_finite_split hrd _ (fun _ _ v => opsNorm_one (ieee (flBits 52) (2 ^ 1023)) v) (Ieee.round_notNeg hrd (by norm_num))
    (fun s hs => by obtain rfl := Option.some.inj hs; exact zero_le_one) h1 h2).1⟩

/-- Least squares on one sample with a nan, no penalty: no success. -/
example : ∃ r, gpgRun (ieee (flBits 52) (2 ^ 1023)) { gpgNanArgs (flBits 52) (2 ^ 1023) .nan (.fin 1) with prox := fun _ _ v _ => .ok v } = .ok r ∧ r.success = false ∧ r.nit = 500 := by
  obtain ⟨r, h1, h2, h3, _⟩ := C137_nan_partial (rd := flBits 52) (Om := 2 ^ 1023) { gpgNanArgs (flBits 52) (2 ^ 1023) .nan (.fin 1) with prox := fun _ _ v _ => .ok v }
    (fun _ v => opsNorm_one (ieee (flBits 52) (2 ^ 1023)) v) (by show 0 < 1000; norm_num) (j := 0) (fun _ _ v _ hv => ⟨v, rfl, hv⟩)
    (.inr (by show (ieeeSquare (flBits 52) (2 ^ 1023) .nan (.fin 1) (fun _ => .fin 0)).2 0 = .nan; rw [ieeeSquare_nan]))
  exact ⟨r, h1, h2, h3⟩

/-- The same with the three operator splitting. -/
example : ∃ r, gtsRun (ieee (flBits 52) (2 ^ 1023)) { gtsNanArgs (flBits 52) (2 ^ 1023) .nan (.fin 1) with prox1 := fun _ _ v _ => .ok v } = .ok r ∧ r.success = false ∧ r.nit = 999 := by
  obtain ⟨r, h1, h2, h3, _⟩ := C137_nan_split_partial (rd := flBits 52) (Om := 2 ^ 1023) { gtsNanArgs (flBits 52) (2 ^ 1023) .nan (.fin 1) with prox1 := fun _ _ v _ => .ok v }
    (fun _ _ v => opsNorm_one (ieee (flBits 52) (2 ^ 1023)) v) (by show 0 < 100; norm_num) (by show 0 < 1000; norm_num) (j := 0) (fun _ _ v _ => ⟨v, rfl, id⟩) (fun _ v _ => ⟨v, rfl, id⟩)
    (.inr (fun z => by show (ieeeSquare (flBits 52) (2 ^ 1023) .nan (.fin 1) z).2 0 = .nan; rw [ieeeSquare_nan]))
  exact ⟨r, h1, h2, by have : r.nit + 1 = 1000 := h3; omega⟩

end Copt
