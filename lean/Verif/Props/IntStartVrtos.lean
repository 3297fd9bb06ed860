import Verif.Props.IntStart

/-! # C120: the type of the starting array in VRTOS -/

set_option linter.unusedSectionVars false

namespace Copt

open Spec

variable {K : Type} [Field K] [LinearOrder K] {n p : ℕ}

theorem vrtosBodyS_refines {s t : K → Option K} (hst : Refines s t) {D : ℕ} {d : Fin D → K} {avg tmp z y : Fin p → K} {alpha step : K} {h : ℕ}
    (x : Fin p → K) (j : ℕ) (r : Fin p → K) (hr : vrtosBodyS s d avg tmp z y alpha step h x j = some r) :
    vrtosBodyS t d avg tmp z y alpha step h x j = some r := by
  unfold vrtosBodyS at hr ⊢
  simp only [Option.bind_eq_bind, Option.bind_eq_some_iff] at hr ⊢
  obtain ⟨dh, h1, a, h2, v, h3, yj, h3', tt, h4, w, h5, h6⟩ := hr
  exact ⟨dh, h1, a, h2, v, h3, yj, h3', tt, h4, w, hst _ _ h5, h6⟩

theorem vrtosZS_refines {s t : K → Option K} (hst : Refines s t) {D1 D2 l1 l2 : ℕ} {d1 : Fin D1 → K} {d2 : Fin D2 → K} {r1 : Fin l1 → ℕ}
    {r2 : Fin l2 → ℕ} {y1 y2 : Fin p → K} {h : ℕ} (z : Fin p → K) (j : ℕ) (r : Fin p → K) (hr : vrtosZS s d1 d2 r1 r2 y1 y2 h z j = some r) :
    vrtosZS t d1 d2 r1 r2 y1 y2 h z j = some r := by
  unfold vrtosZS at hr ⊢
  simp only [Option.bind_eq_bind, Option.bind_eq_some_iff] at hr ⊢
  obtain ⟨a1, h1, a2, h2, a3, h3, a4, h4, a5, h5, a6, h6, w, h7, h8⟩ := hr
  exact ⟨a1, h1, a2, h2, a3, h3, a4, h4, a5, h5, a6, h6, w, hst _ _ h7, h8⟩

theorem bind_mono {α β : Type} {m m' : Option α} {f g : α → Option β} (hm : ∀ a, m = some a → m' = some a)
    (h : ∀ a r, f a = some r → g a = some r) (r : β) : (m >>= f) = some r → (m' >>= g) = some r := by
  intro hr
  obtain ⟨a, h1, h2⟩ := Option.bind_eq_some_iff.mp hr
  exact Option.bind_eq_some_iff.mpr ⟨a, hm a h1, h a r h2⟩

theorem bind_same {α β : Type} {m m' : Option α} {f g : α → Option β} (hm : m = m') (h : ∀ a, f a = g a) : (m >>= f) = (m' >>= g) := by
  rw [hm, funext h]

theorem vrtosStepS_refines {s t : K → Option K} (hst : Refines s t) {P : VrtosArgs K n p} {S1 : Support n P.blocks1.nb}
    {S2 : Support n P.blocks2.nb} (st : VrtosState K n p) (i : ℕ) (r : VrtosState K n p) (hr : vrtosStepS s P S1 S2 st i = some r) :
    vrtosStepS t P S1 S2 st i = some r := by
  unfold vrtosStepS at hr ⊢
  revert hr
  refine bind_mono (fun _ h => h) (fun row => bind_mono (fun _ h => h) fun dot => bind_mono (fun _ h => h) fun bi =>
    bind_mono (fun _ h => h) fun mi => bind_mono (fun _ h => h) fun tmp => bind_mono (fun _ h => h) fun hs1 => bind_mono (fun _ h => h) fun hs2 =>
    bind_mono (fun a => forBlocks_refines (fun k => vrtosBodyS_refines hst) _ _ a) fun x1 => bind_mono (fun _ h => h) fun x1' =>
    bind_mono (fun a => storeAll_refines hst _ a) fun x1'' => bind_mono (fun _ h => h) fun y1 =>
    bind_mono (fun a => forBlocks_refines (fun k => vrtosBodyS_refines hst) _ _ a) fun x2 => bind_mono (fun _ h => h) fun x2' =>
    bind_mono (fun a => storeAll_refines hst _ a) fun x2'' => bind_mono (fun _ h => h) fun y2 =>
    bind_mono (fun a => forBlocks_refines (fun k => vrtosZS_refines hst) _ _ a) fun z =>
    bind_mono (fun a => forBlocks_refines (fun k => vrtosZS_refines hst) _ _ a) fun z' => bind_mono (fun _ h => h) fun m =>
    bind_mono (fun _ h => h) fun mem => fun _ h => h) r

theorem vrtosLoopS_refines {s t : K → Option K} (hst : Refines s t) {P : VrtosArgs K n p} {S1 : Support n P.blocks1.nb}
    {S2 : Support n P.blocks2.nb} : ∀ (rem it : ℕ) (st r : VrtosState K n p),
      vrtosLoopS s P S1 S2 rem it st = some r → vrtosLoopS t P S1 S2 rem it st = some r := by
  intro rem
  induction rem with
  | zero => intro it st r hr; exact hr
  | succ rem ih =>
    intro it st r hr
    unfold vrtosLoopS at hr ⊢
    obtain ⟨a, h1, h2⟩ := Option.bind_eq_some_iff.mp hr
    exact Option.bind_eq_some_iff.mpr ⟨a, foldlM_refines (vrtosStepS_refines hst) _ _ _ h1, ih _ _ _ h2⟩

theorem minimizeVrtosS_refines {s t : K → Option K} (hst : Refines s t) {P : VrtosArgs K n p} {r : VrtosResult K n p}
    (hr : minimizeVrtosS s P = .ok r) : minimizeVrtosS t P = .ok r := by
  unfold minimizeVrtosS at hr ⊢
  split at hr
  · simp at hr
  rename_i h1
  rw [if_neg h1]
  split at hr
  · simp at hr
  rename_i h2
  rw [if_neg h2]
  cases hS1 : orFault (supportMatrix P.A.indices P.A.indptr P.rb1 P.blocks1.nb) with
  | error e => rw [hS1] at hr; simp [bind, Except.bind] at hr
  | ok S1 =>
    cases hS2 : orFault (supportMatrix P.A.indices P.A.indptr P.rb2 P.blocks2.nb) with
    | error e => rw [hS1, hS2] at hr; simp [bind, Except.bind] at hr
    | ok S2 =>
      rw [hS1, hS2] at hr
      simp only [bind, Except.bind] at hr ⊢
      split at hr
      · simp at hr
      rename_i h3
      rw [if_neg h3]
      cases h4 : [0].foldlM (vrtosStepS s P S1 S2) (vrtosInit P) with
      | none => rw [h4] at hr; simp [orFault] at hr
      | some st =>
        rw [h4] at hr
        rw [foldlM_refines (vrtosStepS_refines hst) _ _ _ h4]
        simp only [orFault] at hr ⊢
        cases hm : P.maxIter with
        | zero => rw [hm] at hr; simp at hr
        | succ k =>
          rw [hm] at hr
          simp only at hr ⊢
          cases h5 : vrtosLoopS s P S1 S2 (k + 1) 0 st with
          | none => rw [h5] at hr; simp at hr
          | some st' =>
            rw [h5] at hr
            rw [vrtosLoopS_refines hst _ _ _ _ h5]
            exact hr

theorem vrtosStepS_some (P : VrtosArgs K n p) (S1 : Support n P.blocks1.nb) (S2 : Support n P.blocks2.nb) :
    vrtosStepS some P S1 S2 = vrtosStep P S1 S2 := by
  funext st i
  have h : ∀ x : Fin p → K, storeAll some x = some x := fun x => storeAll_eq.mpr fun _ => rfl
  have hb : ∀ (D : ℕ) (d : Fin D → K) (avg tmp z y : Fin p → K) (alpha step : K),
      vrtosBodyS some d avg tmp z y alpha step = vrtosBody d avg tmp z y alpha step := by
    intros; funext h x j; rfl
  have hz : ∀ (D1 D2 l1 l2 : ℕ) (d1 : Fin D1 → K) (d2 : Fin D2 → K) (r1 : Fin l1 → ℕ) (r2 : Fin l2 → ℕ) (y1 y2 : Fin p → K),
      vrtosZS some d1 d2 r1 r2 y1 y2 = vrtosZ d1 d2 r1 r2 y1 y2 := by
    intros; funext h x j; rfl
  unfold vrtosStepS vrtosStep
  refine bind_same rfl fun row => bind_same rfl fun dot => bind_same rfl fun bi => bind_same rfl fun mi => bind_same rfl fun tmp =>
    bind_same rfl fun hs1 => bind_same rfl fun hs2 => bind_same (by rw [hb]) fun x1 => bind_same rfl fun x1' => ?_
  rw [h, Option.bind_eq_bind, Option.bind_some]
  refine bind_same rfl fun y1 => bind_same (by rw [hb]) fun x2 => bind_same rfl fun x2' => ?_
  rw [h, Option.bind_eq_bind, Option.bind_some]
  exact bind_same rfl fun y2 => bind_same (by rw [hz]) fun z => bind_same (by rw [hz]) fun z' => rfl

theorem minimizeVrtosS_some (P : VrtosArgs K n p) : minimizeVrtosS some P = minimizeVrtos P := by
  have h : ∀ (S1 : Support n P.blocks1.nb) (S2 : Support n P.blocks2.nb) (rem it : ℕ) (st : VrtosState K n p),
      vrtosLoopS some P S1 S2 rem it st = vrtosLoop P S1 S2 rem it st := by
    intro S1 S2 rem
    induction rem with
    | zero => intro it st; rfl
    | succ rem ih => intro it st; unfold vrtosLoopS vrtosLoop vrtosEpoch; simp only [vrtosStepS_some, ih]
  unfold minimizeVrtosS minimizeVrtos vrtosEpoch
  simp only [h, vrtosStepS_some]
  rfl

/-- **C120 (partial, VRTOS).** `minimize_vrtos` does not depend on the type of the starting array as long as every number assigned to an entry
of `x1`, `x2` or `z` is represented exactly by that type.  Missing: other assignments, for which the claim is false (`C120_vrtos_refuted`). -/
theorem C120_vrtos_exact_partial (P : VrtosArgs K n p) {I : Set K} {conv : K → K} (hconv : ∀ v ∈ I, conv v = v) :
    ∀ r, minimizeVrtosS (onlyExact I) P = .ok r → minimizeVrtos P = .ok r ∧ minimizeVrtosS (fun v => some (conv v)) P = .ok r := by
  refine fun r h => ⟨?_, minimizeVrtosS_refines (onlyExact_refines hconv) h⟩
  rw [← minimizeVrtosS_some]
  exact minimizeVrtosS_refines (onlyExact_refines (conv := id) fun _ _ => rfl) h

/-- One sample, one feature, no penalty: `f(x) = (x - c)²/2`, starting point 0, step 1, with `epochs` epochs. -/
def halfVrtos (c : ℚ) (epochs : ℕ) : VrtosArgs ℚ 1 1 :=
  { A := { nnz := 1, data := ![1], indices := ![0], indptr := ![0, 1] }, bSize := 1, b := ![c], deriv := fun t b => t - b, alpha := 0,
    x0 := ![0], stepSize := 1, blocks1 := BlockMat.eye 1, blocks2 := BlockMat.eye 1, prox1 := noProx, prox2 := noProx, maxIter := epochs,
    tol := 1 / 1000, order := fun _ => [0] }

theorem vrtosS_get {P : VrtosArgs ℚ 1 1} {s : ℚ → Option ℚ} {u v : ℚ}
    (h : (minimizeVrtosS s P).toOption.map (fun r => (r.x 0, r.callerX0 0)) = some (u, v)) :
    ∃ r, minimizeVrtosS s P = .ok r ∧ r.x 0 = u ∧ r.callerX0 0 = v := by
  cases hr : minimizeVrtosS s P with
  | error e => rw [hr] at h; simp [Except.toOption] at h
  | ok r =>
    rw [hr] at h
    simp only [Except.toOption, Option.map_some, Option.some.injEq, Prod.mk.injEq] at h
    exact ⟨r, rfl, h.1, h.2⟩

/-- The state in which the integer run is stuck. -/
def stuckVrtos : VrtosState ℚ 1 1 :=
  { y1 := ![0], y2 := ![0], x1 := ![0], x2 := ![0], z := ![0], mem := ![-1 / 2], avg := ![-1 / 2], tmp := ![0] }

theorem fin1_eq {a b : Fin 1 → ℚ} (h : a 0 = b 0) : a = b := by
  funext c; rw [Subsingleton.elim c 0, h]

theorem vrtosState_eq1 {s t : VrtosState ℚ 1 1} (h : [s.y1 0, s.y2 0, s.x1 0, s.x2 0, s.z 0, s.mem 0, s.avg 0, s.tmp 0] =
    [t.y1 0, t.y2 0, t.x1 0, t.x2 0, t.z 0, t.mem 0, t.avg 0, t.tmp 0]) : s = t := by
  simp only [List.cons.injEq] at h
  obtain ⟨h1, h2, h3, h4, h5, h6, h7, h8, -⟩ := h
  cases s; cases t
  simp only [VrtosState.mk.injEq]
  exact ⟨fin1_eq h1, fin1_eq h2, fin1_eq h3, fin1_eq h4, fin1_eq h5, fin1_eq h6, fin1_eq h7, fin1_eq h8⟩

/-- The supports of that problem. -/
def halfSupport (e : ℕ) : Option (Support 1 (halfVrtos (1 / 2) e).blocks1.nb) :=
  supportMatrix (halfVrtos (1 / 2) e).A.indices (halfVrtos (1 / 2) e).A.indptr (halfVrtos (1 / 2) e).rb1 (halfVrtos (1 / 2) e).blocks1.nb

theorem halfSupport_some : (halfSupport 0).isSome = true := by decide +kernel

theorem stuck_steps (e : ℕ) : ∃ S, halfSupport e = some S ∧ S.bs ≠ [] ∧
    vrtosStepS (fun v => some (truncK v)) (halfVrtos (1 / 2) e) S S (vrtosInit (halfVrtos (1 / 2) e)) 0 = some stuckVrtos ∧
    vrtosStepS (fun v => some (truncK v)) (halfVrtos (1 / 2) e) S S stuckVrtos 0 = some stuckVrtos := by
  have key : ∀ o : Option (VrtosState ℚ 1 1), o.map (fun s => [s.y1 0, s.y2 0, s.x1 0, s.x2 0, s.z 0, s.mem 0, s.avg 0, s.tmp 0]) =
      some [stuckVrtos.y1 0, stuckVrtos.y2 0, stuckVrtos.x1 0, stuckVrtos.x2 0, stuckVrtos.z 0, stuckVrtos.mem 0, stuckVrtos.avg 0, stuckVrtos.tmp 0] →
      o = some stuckVrtos := by
    intro o ho
    cases o with
    | none => simp at ho
    | some s => simp only [Option.map_some, Option.some.injEq] at ho; rw [vrtosState_eq1 ho]
  refine ⟨(halfSupport 0).get halfSupport_some, (Option.some_get halfSupport_some).symm, ?_, ?_, ?_⟩
  · have : ((halfSupport 0).get halfSupport_some).bs = [0] := by decide +kernel
    rw [this]; simp
  · refine key _ ?_
    show (vrtosStepS (fun v => some (truncK v)) (halfVrtos (1 / 2) 0) ((halfSupport 0).get halfSupport_some) ((halfSupport 0).get halfSupport_some)
      (vrtosInit (halfVrtos (1 / 2) 0)) 0).map _ = _
    decide +kernel
  · refine key _ ?_
    show (vrtosStepS (fun v => some (truncK v)) (halfVrtos (1 / 2) 0) ((halfSupport 0).get halfSupport_some) ((halfSupport 0).get halfSupport_some) stuckVrtos 0).map _ = _
    decide +kernel

/-- **C120 (refuted, VRTOS).** One sample, one feature: from the floating point array `[0.0]` ten epochs of `minimize_vrtos` come within 1/4096 of the
minimiser 1/2; from the integer array `[0]` the call returns 0 however many epochs are made. -/
theorem C120_vrtos_refuted : (∃ r, minimizeVrtosS some (halfVrtos (1 / 2) 10) = .ok r ∧ |r.x 0 - 1 / 2| ≤ 1 / 4096) ∧
    ∀ e, ∃ r, minimizeVrtosS (fun v => some (truncK v)) (halfVrtos (1 / 2) (e + 1)) = .ok r ∧ r.x 0 = 0 := by
  constructor
  · obtain ⟨r, h1, h2, -⟩ := vrtosS_get (P := halfVrtos (1 / 2) 10) (s := some) (u := 2047 / 4096) (v := 2047 / 4096) (by decide +kernel)
    refine ⟨r, h1, ?_⟩
    rw [h2]; norm_num [abs_le]
  · intro e
    obtain ⟨S, hS, hne, h1, h2⟩ := stuck_steps (e + 1)
    have hloop : ∀ k it, vrtosLoopS (fun v => some (truncK v)) (halfVrtos (1 / 2) (e + 1)) S S k it stuckVrtos = some stuckVrtos := by
      intro k
      induction k with
      | zero => intro it; rfl
      | succ k ih =>
        intro it
        have h3 : ((halfVrtos (1 / 2) (e + 1)).order it).foldlM (vrtosStepS (fun v => some (truncK v)) (halfVrtos (1 / 2) (e + 1)) S S) stuckVrtos =
            some stuckVrtos := by
          rw [show (halfVrtos (1 / 2) (e + 1)).order it = [0] from rfl, List.foldlM_cons, h2]; rfl
        show (((halfVrtos (1 / 2) (e + 1)).order it).foldlM (vrtosStepS (fun v => some (truncK v)) (halfVrtos (1 / 2) (e + 1)) S S) stuckVrtos).bind
          (fun st => vrtosLoopS _ _ S S k (it + 1) st) = _
        rw [h3]
        exact ih _
    refine ⟨⟨![0], false, e, ![0], stuckVrtos⟩, ?_, rfl⟩
    unfold minimizeVrtosS
    rw [if_neg (by simp [halfVrtos]), if_neg (by norm_num [halfVrtos])]
    change halfSupport (e + 1) = some S at hS
    have hS' := hS
    unfold halfSupport at hS'
    rw [hS', show supportMatrix (halfVrtos (1 / 2) (e + 1)).A.indices (halfVrtos (1 / 2) (e + 1)).A.indptr (halfVrtos (1 / 2) (e + 1)).rb2
      (halfVrtos (1 / 2) (e + 1)).blocks2.nb = some S from hS']
    simp only [orFault, bind, Except.bind]
    rw [if_neg (by simp [hne])]
    have h3 : [0].foldlM (vrtosStepS (fun v => some (truncK v)) (halfVrtos (1 / 2) (e + 1)) S S) (vrtosInit (halfVrtos (1 / 2) (e + 1))) =
        some stuckVrtos := by
      rw [List.foldlM_cons, h1]; rfl
    rw [h3]
    simp only [show (halfVrtos (1 / 2) (e + 1)).maxIter = e + 1 from rfl, hloop]
    rfl

/-- The hypothesis of `C120_vrtos_exact_partial` holds for the integers with the target 4 and one epoch; both types give 3. -/
example : ∃ r, minimizeVrtosS (onlyExact (Set.range ((↑) : ℤ → ℚ))) (halfVrtos 4 1) = .ok r ∧ r.x 0 = 3 ∧ minimizeVrtos (halfVrtos 4 1) = .ok r ∧
    minimizeVrtosS (fun v => some (truncK v)) (halfVrtos 4 1) = .ok r := by
  have hre : Refines (fun v : ℚ => if (⌊v⌋ : ℚ) = v then some v else none) (onlyExact (Set.range ((↑) : ℤ → ℚ))) := by
    intro v w h
    simp only at h
    split at h
    · rename_i hv
      unfold onlyExact
      rw [if_pos ⟨_, hv⟩]; exact h
    · simp at h
  obtain ⟨r, h1, h2, -⟩ := vrtosS_get (P := halfVrtos 4 1) (s := fun v : ℚ => if (⌊v⌋ : ℚ) = v then some v else none) (u := 3) (v := 3)
    (by decide +kernel)
  have h3 := minimizeVrtosS_refines hre h1
  obtain ⟨h4, h5⟩ := C120_vrtos_exact_partial (halfVrtos 4 1) (conv := truncK) (by
    rintro v ⟨m, rfl⟩
    unfold truncK
    split <;> simp) r h3
  exact ⟨r, h3, h2, h4, h5⟩

end Copt
