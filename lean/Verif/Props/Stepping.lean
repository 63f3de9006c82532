import Verif.Props.Programs
import Mathlib.Tactic.Ring
import Mathlib.Tactic.Linarith
import Mathlib.Tactic.FieldSimp

/-!
# C30, C32 (linearity), C33 – C36, C38: add modes, time steppers and forcing
-/

set_option linter.unusedVariables false
set_option linter.unusedSectionVars false

namespace Omega
namespace Props

open Prog Model Refine

variable {R : Type} [Scalar R]

/-! ### C30 -/

theorem tend_replace (S : Sys R) (t : R) (o o' s : Fld R) :
    (S.sw.prm.disable_h = false → (S.tend .replace t o s).h = (S.tend .replace t o' s).h) ∧
    (S.sw.prm.disable_vn = false → (S.tend .replace t o s).vn = (S.tend .replace t o' s).vn) ∧
    (S.tend .replace t o s).tr = (S.tend .replace t o' s).tr := by
  refine ⟨fun h => ?_, fun h => ?_, ?_⟩
  · simp [Sys.tend, h, Sys.termsH, Sys.start]
  · simp [Sys.tend, h, Sys.termsVn, Sys.start]
  · simp [Sys.tend, Sys.termsTr, Sys.start]

/-- In replace mode the tendency of an enabled equation does not depend on the previous contents of
the output (nor on the work arrays), bit for bit. -/
theorem C30_replace_overwrites {d : Dims} {m m' : Mem R} (hd : DimsOK d) (hc : ConnOK d m)
    {sw : SWModel R} (hn : sw.NoHook) (split : Bool) {tn st : StateId} (hne : st ≠ tn) (t : R)
    (hsame : Agree (tendSet tn) m' m) {m1 m1' : Mem R}
    (he : Exec d (compute_tendency d ⟨defaultKernels d.vl, split⟩ sw .replace tn st t) m m1)
    (he' : Exec d (compute_tendency d ⟨defaultKernels d.vl, split⟩ sw .replace tn st t) m' m1') :
    (sw.prm.disable_h = false → ∀ c k, 0 ≤ c → c < d.ncells → 0 ≤ k → k < d.nlayers →
      (m1'.fld tn).h c k = (m1.fld tn).h c k) ∧
    (sw.prm.disable_vn = false → ∀ e k, 0 ≤ e → e < d.nedges → 0 ≤ k → k < d.nlayers →
      (m1'.fld tn).vn e k = (m1.fld tn).vn e k) ∧
    (∀ l c k, 0 ≤ l → l < d.ntracers → 0 ≤ c → c < d.ncells → 0 ≤ k → k < d.nlayers →
      (m1'.fld tn).tr l c k = (m1.fld tn).tr l c k) := by
  have hS := genSetup hd hc (hookOK_noHook hn d m)
  have hS' := hS.static (hsame.mono fun _ h => tendSet_dyn h)
  obtain ⟨-, v⟩ := hS.tendency hne he
  obtain ⟨-, v'⟩ := hS'.tendency hne he'
  have hst : m'.fld st = m.fld st := fld_congr fun b hb =>
    hsame.real b (tendSet_disj (Ne.symm hne) hb)
  rw [hst] at v'
  have key := tend_replace (genSys d sw noHook m) t (m'.fld tn) (m.fld tn) (m.fld st)
  refine ⟨fun h c k g0 g1 g2 g3 => ?_, fun h c k g0 g1 g2 g3 => ?_, fun l c k l0 l1 g0 g1 g2 g3 => ?_⟩
  · rw [v'.h c k g0 g1 g2 g3, v.h c k g0 g1 g2 g3, key.1 h]
  · rw [v'.vn c k g0 g1 g2 g3, v.vn c k g0 g1 g2 g3, key.2.1 h]
  · rw [v'.tr l c k l0 l1 g0 g1 g2 g3, v.tr l c k l0 l1 g0 g1 g2 g3, key.2.2]

theorem tend_increment (S : Sys ℝ) (hH : S.H = noHook) (t : ℝ) (o s : Fld ℝ) :
    (S.sw.prm.disable_h = false → ∀ c k,
      (S.tend .increment t o s).h c k = o.h c k + (S.tend .replace t o s).h c k) ∧
    (S.sw.prm.disable_vn = false → ∀ e k,
      (S.tend .increment t o s).vn e k = o.vn e k + (S.tend .replace t o s).vn e k) ∧
    ∀ l c k, (S.tend .increment t o s).tr l c k = o.tr l c k + (S.tend .replace t o s).tr l c k := by
  refine ⟨fun h c k => ?_, fun h c k => ?_, fun l c k => ?_⟩
  · simp only [Sys.tend, h, hH, noHook, Sys.termsH, Sys.start]
    simp only [reduceCtorEq, decide_false, Bool.false_eq_true, if_false, decide_true, if_true,
      lit_real, Int.cast_zero]
    split_ifs <;> ring
  · simp only [Sys.tend, h, hH, noHook, Sys.termsVn, Sys.start]
    simp only [reduceCtorEq, decide_false, Bool.false_eq_true, if_false, decide_true, if_true,
      lit_real, Int.cast_zero]
    split_ifs <;> ring
  · simp only [Sys.tend, Sys.termsTr, Sys.start]
    simp only [reduceCtorEq, decide_false, Bool.false_eq_true, if_false, decide_true, if_true,
      lit_real, Int.cast_zero]
    split_ifs <;> ring

/-- In increment mode the output is the previous contents plus what replace mode stores (exact
arithmetic). -/
theorem C30_increment_adds {d : Dims} {m : Mem ℝ} (hd : DimsOK d) (hc : ConnOK d m)
    {sw : SWModel ℝ} (hn : sw.NoHook) (split : Bool) {tn st : StateId} (hne : st ≠ tn) (t : ℝ)
    {mi mr : Mem ℝ}
    (hi : Exec d (compute_tendency d ⟨defaultKernels d.vl, split⟩ sw .increment tn st t) m mi)
    (hr : Exec d (compute_tendency d ⟨defaultKernels d.vl, split⟩ sw .replace tn st t) m mr) :
    (sw.prm.disable_h = false → ∀ c k, 0 ≤ c → c < d.ncells → 0 ≤ k → k < d.nlayers →
      (mi.fld tn).h c k = (m.fld tn).h c k + (mr.fld tn).h c k) ∧
    (sw.prm.disable_vn = false → ∀ e k, 0 ≤ e → e < d.nedges → 0 ≤ k → k < d.nlayers →
      (mi.fld tn).vn e k = (m.fld tn).vn e k + (mr.fld tn).vn e k) ∧
    (∀ l c k, 0 ≤ l → l < d.ntracers → 0 ≤ c → c < d.ncells → 0 ≤ k → k < d.nlayers →
      (mi.fld tn).tr l c k = (m.fld tn).tr l c k + (mr.fld tn).tr l c k) := by
  have hS := genSetup hd hc (hookOK_noHook hn d m)
  obtain ⟨-, v⟩ := hS.tendency hne hi
  obtain ⟨-, w⟩ := hS.tendency hne hr
  have key := tend_increment (genSys d sw noHook m) rfl t (m.fld tn) (m.fld st)
  refine ⟨fun h c k g0 g1 g2 g3 => ?_, fun h c k g0 g1 g2 g3 => ?_, fun l c k l0 l1 g0 g1 g2 g3 => ?_⟩
  · rw [v.h c k g0 g1 g2 g3, w.h c k g0 g1 g2 g3, key.1 h]
  · rw [v.vn c k g0 g1 g2 g3, w.vn c k g0 g1 g2 g3, key.2.1 h]
  · rw [v.tr l c k l0 l1 g0 g1 g2 g3, w.tr l c k l0 l1 g0 g1 g2 g3, key.2.2]

/-- a memory whose tendency is not zero, with executions of both modes -/
example (dc : ℝ) (prm : Params ℝ) :
    ∃ m mi mr : Mem ℝ, DimsOK p46.dims ∧ ConnOK p46.dims m ∧
      Exec p46.dims (compute_tendency p46.dims ⟨defaultKernels 2, false⟩ (SWModel.ofParams prm)
        .increment .tend .state 0) m mi ∧
      Exec p46.dims (compute_tendency p46.dims ⟨defaultKernels 2, false⟩ (SWModel.ofParams prm)
        .replace .tend .state 0) m mr ∧
      (m.fld .tend).h 0 0 = 7 := by
  obtain ⟨m, h, h1, h2⟩ := exists_ready p46_valid dc prm
    ⟨fun c _ => 1 + c, fun e _ => e, fun _ _ _ => 3⟩ ⟨fun _ _ => 7, fun _ _ => 8, fun _ _ _ => 9⟩
  obtain ⟨hd, hc⟩ := ready_ok p46_run h
  have hs := (C40_safe_deterministic hd hc (noHook_ofParams prm) false).1
  obtain ⟨mi, hi, -⟩ := (hs .increment .tend .state 0 (by decide)).2
  obtain ⟨mr, hr, -⟩ := (hs .replace .tend .state 0 (by decide)).2
  exact ⟨m, mi, mr, hd, hc, hi, hr, by rw [h2]⟩

/-! ### C33 -/

theorem freeze_h (S : Sys ℝ) (hH : S.H = noHook) (hdis : S.sw.prm.disable_h = true)
    (x : Int → Int → ℝ) :
    StepRel S S (fun y _ => y.h = fun _ _ => 0) (fun y _ => y.h = x) := by
  refine StepRel.of_inv (Pt := fun y => y.h = fun _ _ => 0) (Ps := fun y => y.h = x) ?_ ?_ ?_
  · intro mode t o s ho hs
    simp [Sys.tend, hdis, hH, noHook, ho]
  · intro y a hy
    simp [Fld.map, hy]
  · intro y y' c hy hy'
    simp [Fld.axpy, Fld.zip, hy, hy']

theorem freeze_vn (S : Sys ℝ) (hH : S.H = noHook) (hdis : S.sw.prm.disable_vn = true)
    (x : Int → Int → ℝ) :
    StepRel S S (fun y _ => y.vn = fun _ _ => 0) (fun y _ => y.vn = x) := by
  refine StepRel.of_inv (Pt := fun y => y.vn = fun _ _ => 0) (Ps := fun y => y.vn = x) ?_ ?_ ?_
  · intro mode t o s ho hs
    simp [Sys.tend, hdis, hH, noHook, ho]
  · intro y a hy
    simp [Fld.map, hy]
  · intro y y' c hy hy'
    simp [Fld.axpy, Fld.zip, hy, hy']

/-- With the thickness (velocity) equation disabled, any number of steps of a new stepper leaves the
thickness (velocity) unchanged. -/
theorem C33_disabled_freezes {d : Dims} {m : Mem ℝ} (hd : DimsOK d) (hc : ConnOK d m)
    {sw : SWModel ℝ} (hn : sw.NoHook) (split : Bool) (stp : Stepper) (sched : List (ℝ × ℝ))
    {m1 : Mem ℝ}
    (he : Exec d (stp.ctor d ++ stp.run d ⟨defaultKernels d.vl, split⟩ sw sched) m m1) :
    (sw.prm.disable_h = true → ∀ c k, 0 ≤ c → c < d.ncells → 0 ≤ k → k < d.nlayers →
      (m1.fld .state).h c k = (m.fld .state).h c k) ∧
    (sw.prm.disable_vn = true → ∀ e k, 0 ≤ e → e < d.nedges → 0 ≤ k → k < d.nlayers →
      (m1.fld .state).vn e k = (m.fld .state).vn e k) := by
  have hS := genSetup hd hc (hookOK_noHook hn d m)
  obtain ⟨-, -, v⟩ := hS.newRun he
  refine ⟨fun h c k g0 g1 g2 g3 => ?_, fun h c k g0 g1 g2 g3 => ?_⟩
  · have := ((freeze_h (genSys d sw noHook m) rfl h (m.fld .state).h).run stp sched
      (p := (zeroFld, m.fld .state)) (q := (zeroFld, m.fld .state)) (by simp [zeroFld]) rfl).2
    rw [v.h c k g0 g1 g2 g3, this]
  · have := ((freeze_vn (genSys d sw noHook m) rfl h (m.fld .state).vn).run stp sched
      (p := (zeroFld, m.fld .state)) (q := (zeroFld, m.fld .state)) (by simp [zeroFld]) rfl).2
    rw [v.vn c k g0 g1 g2 g3, this]

/-- a configuration with both equations disabled and a run of three steps -/
example (dc : ℝ) : ∃ (sw : SWModel ℝ) (m m1 : Mem ℝ), sw.NoHook ∧ sw.prm.disable_h = true ∧
    sw.prm.disable_vn = true ∧ ConnOK p46.dims m ∧
    Exec p46.dims (Stepper.rk4.ctor p46.dims ++ Stepper.rk4.run p46.dims ⟨defaultKernels 2, true⟩ sw
      [(0, 1), (1, 1), (2, 1)]) m m1 := by
  obtain ⟨m, h, h1, h2⟩ := exists_ready p46_valid dc ⟨1, 9, 1, 1, 1, 1, true, true⟩
    ⟨fun c _ => 1 + c, fun e _ => e, fun _ _ _ => 3⟩ ⟨fun _ _ => 7, fun _ _ => 8, fun _ _ _ => 9⟩
  obtain ⟨hd, hc⟩ := ready_ok p46_run h
  have hs := (C40_safe_deterministic hd hc
    (noHook_ofParams (⟨1, 9, 1, 1, 1, 1, true, true⟩ : Params ℝ)) true).2.2
  obtain ⟨m1, he, -⟩ := (hs .rk4 [(0, 1), (1, 1), (2, 1)]).2
  exact ⟨_, m, m1, noHook_ofParams _, rfl, rfl, hc, he⟩

/-! ### C34 -/

theorem lsrkCoef_a0 (n : Nat) : (lsrkCoef n : Coef ℝ).a 0 = 0 := by
  unfold lsrkCoef
  split_ifs <;> simp [nth]

theorem lsrkStep_forget (S : Sys ℝ) (n : Nat) (hn : n ≠ 0) (t dt : ℝ) (o o' s : Fld ℝ) :
    S.lsrkStep n t dt (o, s) = S.lsrkStep n t dt (o', s) := by
  obtain ⟨k, rfl⟩ := Nat.exists_eq_succ_of_ne_zero hn
  unfold Sys.lsrkStep
  rw [List.range_succ_eq_map, List.foldl_cons, List.foldl_cons]
  congr 1
  simp only [Sys.lsrkStage, lsrkCoef_a0]
  have : ∀ x : Fld ℝ, x.map (fun v => v * 0) = zeroFld := fun x => by
    simp [Fld.map, zeroFld]
  rw [this, this]

theorem lsrk_run_forget (S : Sys ℝ) (n : Nat) (sched : List (ℝ × ℝ)) (o o' s : Fld ℝ) :
    (S.run (.lsrk n) sched (o, s)).2 = (S.run (.lsrk n) sched (o', s)).2 := by
  by_cases hn : n = 0
  · subst hn
    have : ∀ p, (S.run (.lsrk 0) sched p) = p := by
      induction sched with
      | nil => intro p; rfl
      | cons x L ih => intro p; exact ih p
    rw [this, this]
  · cases sched with
    | nil => rfl
    | cons x L =>
      unfold Sys.run
      rw [List.foldl_cons, List.foldl_cons]
      simp only [Sys.step]
      rw [lsrkStep_forget S n hn x.1 x.2 o o' s]

theorem rk4_run_forget (S : Sys R) (h1 : S.sw.prm.disable_h = false)
    (h2 : S.sw.prm.disable_vn = false) (sched : List (R × R)) (o o' s : Fld R) :
    (S.run .rk4 sched (o, s)).2 = (S.run .rk4 sched (o', s)).2 := by
  cases sched with
  | nil => rfl
  | cons x L =>
    unfold Sys.run
    rw [List.foldl_cons, List.foldl_cons]
    have key := tend_replace S x.1 o o' s
    have : S.tend .replace x.1 o s = S.tend .replace x.1 o' s := by
      have e : ∀ y : Fld R, y = ⟨y.h, y.vn, y.tr⟩ := fun _ => rfl
      rw [e (S.tend .replace x.1 o s), e (S.tend .replace x.1 o' s), key.1 h1, key.2.1 h2, key.2.2]
    simp only [Sys.step, Sys.rk4Step, this]

/-- The low-storage stepper has no memory (exact arithmetic): whatever its work arrays contain, the
state after any number of steps is the same. -/
theorem C34_lsrk_no_memory {d : Dims} {m m' : Mem ℝ} (hd : DimsOK d) (hc : ConnOK d m)
    {sw : SWModel ℝ} (hn : sw.NoHook) (split : Bool) (hsame : Static m' m) (nstages : Nat)
    (hst : EqFld d (m'.fld .state) (m.fld .state)) (sched : List (ℝ × ℝ)) {m1 m1' : Mem ℝ}
    (he : Exec d ((Stepper.lsrk nstages).run d ⟨defaultKernels d.vl, split⟩ sw sched) m m1)
    (he' : Exec d ((Stepper.lsrk nstages).run d ⟨defaultKernels d.vl, split⟩ sw sched) m' m1') :
    EqFld d (m1'.fld .state) (m1.fld .state) := by
  have hS := genSetup hd hc (hookOK_noHook hn d m)
  have hS' := hS.static hsame
  obtain ⟨-, -, v⟩ := hS.run he
  obtain ⟨-, -, v'⟩ := hS'.run he'
  have h1 := lsrk_run_forget (genSys d sw noHook m) nstages sched (m'.fld .tend) zeroFld (m'.fld .state)
  have h2 := lsrk_run_forget (genSys d sw noHook m) nstages sched (m.fld .tend) zeroFld (m.fld .state)
  rw [h1] at v'
  rw [h2] at v
  have := (run_local hS.sys (.lsrk nstages) sched (p := (zeroFld, m'.fld .state))
    (q := (zeroFld, m.fld .state)) ⟨EqFld.refl _ _, hst⟩).2
  exact v'.trans (this.trans v.symm)

/-- RK4 has no memory, bit for bit in any arithmetic, when both equations are enabled. -/
theorem C34_rk4_no_memory {d : Dims} {m m' : Mem R} (hd : DimsOK d) (hc : ConnOK d m)
    {sw : SWModel R} (hn : sw.NoHook) (h1 : sw.prm.disable_h = false)
    (h2 : sw.prm.disable_vn = false) (split : Bool) (hsame : Static m' m)
    (hst : EqFld d (m'.fld .state) (m.fld .state)) (sched : List (R × R)) {m1 m1' : Mem R}
    (he : Exec d (Stepper.rk4.run d ⟨defaultKernels d.vl, split⟩ sw sched) m m1)
    (he' : Exec d (Stepper.rk4.run d ⟨defaultKernels d.vl, split⟩ sw sched) m' m1') :
    EqFld d (m1'.fld .state) (m1.fld .state) := by
  have hS := genSetup hd hc (hookOK_noHook hn d m)
  have hS' := hS.static hsame
  obtain ⟨-, -, v⟩ := hS.run he
  obtain ⟨-, -, v'⟩ := hS'.run he'
  have e1 := rk4_run_forget (genSys d sw noHook m) h1 h2 sched (m'.fld .tend) zeroFld (m'.fld .state)
  have e2 := rk4_run_forget (genSys d sw noHook m) h1 h2 sched (m.fld .tend) zeroFld (m.fld .state)
  rw [e1] at v'
  rw [e2] at v
  have := (run_local hS.sys .rk4 sched (p := (zeroFld, m'.fld .state))
    (q := (zeroFld, m.fld .state)) ⟨EqFld.refl _ _, hst⟩).2
  exact v'.trans (this.trans v.symm)

/-- two memories with the same state and different work arrays -/
example (dc : ℝ) (prm : Params ℝ) : ∃ m m' : Mem ℝ, DimsOK p46.dims ∧ ConnOK p46.dims m ∧
    Static m' m ∧ EqFld p46.dims (m'.fld .state) (m.fld .state) ∧
    (m'.fld .tend).h 0 0 ≠ (m.fld .tend).h 0 0 := by
  obtain ⟨m, h, h1, h2⟩ := exists_ready p46_valid dc prm
    ⟨fun c _ => 1 + c, fun e _ => e, fun _ _ _ => 3⟩ ⟨fun _ _ => 7, fun _ _ => 8, fun _ _ _ => 9⟩
  obtain ⟨hd, hc⟩ := ready_ok p46_run h
  refine ⟨m, setFld m .tend ⟨fun _ _ => 1, fun _ _ => 2, fun _ _ _ => 3⟩, hd, hc,
    setFld_static _ _ _, ?_, ?_⟩
  · rw [fld_congr fun b hb => (setFld_agree m .tend _).real b (inState_disj (by decide) hb)]
    exact EqFld.refl _ _
  · rw [setFld_fld, h2]; norm_num

/-! ### C35 -/

/-- With one stage the low-storage stepper is forward Euler with the tendency at time `t`; a disabled
equation leaves its variable alone. -/
theorem C35_one_stage_is_euler {d : Dims} {m : Mem ℝ} (hd : DimsOK d) (hc : ConnOK d m)
    {sw : SWModel ℝ} (hn : sw.NoHook) (split : Bool) (t dt : ℝ) {m1 m2 : Mem ℝ}
    (he : Exec d ((Stepper.lsrk 1).run d ⟨defaultKernels d.vl, split⟩ sw [(t, dt)]) m m1)
    (he' : Exec d (compute_tendency d ⟨defaultKernels d.vl, split⟩ sw .replace .tend .state t) m m2) :
    (∀ c k, 0 ≤ c → c < d.ncells → 0 ≤ k → k < d.nlayers →
      (m1.fld .state).h c k = (m.fld .state).h c k +
        if sw.prm.disable_h = true then 0 else dt * (m2.fld .tend).h c k) ∧
    (∀ e k, 0 ≤ e → e < d.nedges → 0 ≤ k → k < d.nlayers →
      (m1.fld .state).vn e k = (m.fld .state).vn e k +
        if sw.prm.disable_vn = true then 0 else dt * (m2.fld .tend).vn e k) ∧
    (∀ l c k, 0 ≤ l → l < d.ntracers → 0 ≤ c → c < d.ncells → 0 ≤ k → k < d.nlayers →
      (m1.fld .state).tr l c k = (m.fld .state).tr l c k + dt * (m2.fld .tend).tr l c k) := by
  have hS := genSetup hd hc (hookOK_noHook hn d m)
  obtain ⟨-, -, v⟩ := hS.run he
  obtain ⟨-, w⟩ := hS.tendency (by decide) he'
  have hrun : (genSys d sw noHook m).run (.lsrk 1) [(t, dt)] (m.fld .tend, m.fld .state) =
      ((genSys d sw noHook m).tend .increment t ((m.fld .tend).map fun v => v * 0) (m.fld .state),
        (m.fld .state).axpy dt
        ((genSys d sw noHook m).tend .increment t ((m.fld .tend).map fun v => v * 0)
          (m.fld .state))) := by
    simp [Sys.run, Sys.step, Sys.lsrkStep, Sys.lsrkStage, lsrkCoef, nth]
  rw [hrun] at v
  have key := tend_increment (genSys d sw noHook m) rfl t ((m.fld .tend).map fun v => v * 0)
    (m.fld .state)
  have rep := tend_replace (genSys d sw noHook m) t ((m.fld .tend).map fun v => v * 0) (m.fld .tend)
    (m.fld .state)
  refine ⟨fun c k g0 g1 g2 g3 => ?_, fun c k g0 g1 g2 g3 => ?_, fun l c k l0 l1 g0 g1 g2 g3 => ?_⟩
  · rw [v.h c k g0 g1 g2 g3, w.h c k g0 g1 g2 g3]
    simp only [Fld.axpy, Fld.zip]
    cases hdis : sw.prm.disable_h with
    | true => simp [Sys.tend, genSys, hdis, noHook, Fld.map]
    | false =>
      rw [key.1 hdis, rep.1 hdis]
      simp [Fld.map]
  · rw [v.vn c k g0 g1 g2 g3, w.vn c k g0 g1 g2 g3]
    simp only [Fld.axpy, Fld.zip]
    cases hdis : sw.prm.disable_vn with
    | true => simp [Sys.tend, genSys, hdis, noHook, Fld.map]
    | false =>
      rw [key.2.1 hdis, rep.2.1 hdis]
      simp [Fld.map]
  · rw [v.tr l c k l0 l1 g0 g1 g2 g3, w.tr l c k l0 l1 g0 g1 g2 g3]
    simp only [Fld.axpy, Fld.zip]
    rw [key.2.2, rep.2.2]
    simp [Fld.map]

theorem lsrk_noop (S : Sys ℝ) {n : Nat} (h1 : n ≠ 1) (h5 : n ≠ 5) (sched : List (ℝ × ℝ))
    (p : Fld ℝ × Fld ℝ) : (S.run (.lsrk n) sched p).2 = p.2 := by
  have stage : ∀ t dt i (p : Fld ℝ × Fld ℝ), (S.lsrkStage (lsrkCoef n) t dt i p).2 = p.2 := by
    intro t dt i p
    simp [Sys.lsrkStage, lsrkCoef, h1, h5, Fld.axpy, Fld.zip]
  have fold : ∀ t dt (L : List Nat) (p : Fld ℝ × Fld ℝ),
      (L.foldl (fun p i => S.lsrkStage (lsrkCoef n) t dt i p) p).2 = p.2 := by
    intro t dt L
    induction L with
    | nil => intro p; rfl
    | cons i L ih => intro p; rw [List.foldl_cons, ih, stage]
  induction sched generalizing p with
  | nil => rfl
  | cons x L ih =>
    unfold Sys.run at ih ⊢
    rw [List.foldl_cons, ih]
    exact fold _ _ _ _

/-- With any number of stages other than 1 and 5 the low-storage stepper leaves the state unchanged,
for any forcing. -/
theorem C35_other_stage_counts_do_nothing {d : Dims} {m : Mem ℝ} (hd : DimsOK d) (hc : ConnOK d m)
    {sw : SWModel ℝ} {H : HookFn ℝ} (hH : HookOK d sw H m) (split : Bool) {n : Nat} (h1 : n ≠ 1)
    (h5 : n ≠ 5) (sched : List (ℝ × ℝ)) {m1 : Mem ℝ}
    (he : Exec d ((Stepper.lsrk n).run d ⟨defaultKernels d.vl, split⟩ sw sched) m m1) :
    EqFld d (m1.fld .state) (m.fld .state) := by
  obtain ⟨-, -, v⟩ := (genSetup hd hc hH).run he
  rwa [lsrk_noop _ h1 h5] at v

/-- a four-stage stepper taking one step, with forcing -/
example (dc : ℝ) (prm : Params ℝ) : ∃ m m1 : Mem ℝ, DimsOK p46.dims ∧ ConnOK p46.dims m ∧
    HookOK p46.dims ((SWModel.ofParams prm).forced p46.dims (fun x _ _ => x) (fun _ y _ => y)
      (fun _ _ t => t)) (forceFn (fun x _ _ => x) (fun _ y _ => y) (fun _ _ t => t) m) m ∧
    Exec p46.dims ((Stepper.lsrk 4).run p46.dims ⟨defaultKernels 2, false⟩
      ((SWModel.ofParams prm).forced p46.dims (fun x _ _ => x) (fun _ y _ => y) (fun _ _ t => t))
      [(0, 1)]) m m1 := by
  obtain ⟨m, h, h1, h2⟩ := exists_ready p46_valid dc prm
    ⟨fun c _ => 1 + c, fun e _ => e, fun _ _ _ => 3⟩ ⟨fun _ _ => 7, fun _ _ => 8, fun _ _ _ => 9⟩
  obtain ⟨hd, hc⟩ := ready_ok p46_run h
  have hH := hookOK_forced p46.dims (SWModel.ofParams prm) (fun x _ _ => x) (fun _ y _ => y)
    (fun _ _ t => t) m
  obtain ⟨m1, r, -⟩ := run_runs (genSetup hd hc hH) (.lsrk 4) [(0, 1)]
  exact ⟨m, m1, hd, hc, hH, (r false).exec⟩

/-! ### C36 -/

/-- `k` is the tendency of the state `s` at time `t` on the mesh of `m`: the output of
`compute_tendency` in replace mode on some memory holding `s`. -/
def IsTend (d : Dims) (B : Build ℝ) (sw : SWModel ℝ) (m : Mem ℝ) (t : ℝ) (s k : Fld ℝ) : Prop :=
  ∃ m1 m2, Static m1 m ∧ m1.fld .state = s ∧
    Exec d (compute_tendency d B sw .replace .tend .state t) m1 m2 ∧ EqFld d (m2.fld .tend) k

/-- `x + c y` -/
def plus (x : Fld ℝ) (c : ℝ) (y : Fld ℝ) : Fld ℝ :=
  ⟨fun i k => x.h i k + c * y.h i k, fun i k => x.vn i k + c * y.vn i k,
    fun l i k => x.tr l i k + c * y.tr l i k⟩

theorem isTend {d : Dims} {K : Kernels ℝ} {S : Sys ℝ} {m : Mem ℝ} (hS : Setup d K S m)
    (h1 : S.sw.prm.disable_h = false) (h2 : S.sw.prm.disable_vn = false) (split : Bool) (t : ℝ)
    (o s : Fld ℝ) : IsTend d ⟨K, split⟩ S.sw m t s (S.tend .replace t o s) := by
  have hs := setFld_static m .state s
  obtain ⟨m2, r, a, v⟩ := compute_tendency_runs (hS.static hs) .replace (tn := .tend)
    (st := .state) (by decide) t
  refine ⟨_, m2, hs, setFld_fld m .state s, (r split).exec, v.trans ?_⟩
  rw [setFld_fld]
  have key := tend_replace S t ((setFld m .state s).fld .tend) o s
  exact ⟨fun _ _ _ _ _ _ => by rw [key.1 h1], fun _ _ _ _ _ _ => by rw [key.2.1 h2],
    fun _ _ _ _ _ _ _ _ _ => by rw [key.2.2]⟩

/-- One step of `RK4Stepper` is one step of the classical Runge-Kutta method, including forcing. -/
theorem C36_rk4_classical {d : Dims} {m : Mem ℝ} (hd : DimsOK d) (hc : ConnOK d m)
    {sw : SWModel ℝ} {H : HookFn ℝ} (hH : HookOK d sw H m) (h1 : sw.prm.disable_h = false)
    (h2 : sw.prm.disable_vn = false) (split : Bool) (t dt : ℝ) {m1 : Mem ℝ}
    (he : Exec d (Stepper.rk4.run d ⟨defaultKernels d.vl, split⟩ sw [(t, dt)]) m m1) :
    ∃ k1 k2 k3 k4 : Fld ℝ,
      IsTend d ⟨defaultKernels d.vl, split⟩ sw m t (m.fld .state) k1 ∧
      IsTend d ⟨defaultKernels d.vl, split⟩ sw m (t + dt / 2) (plus (m.fld .state) (dt / 2) k1) k2 ∧
      IsTend d ⟨defaultKernels d.vl, split⟩ sw m (t + dt / 2) (plus (m.fld .state) (dt / 2) k2) k3 ∧
      IsTend d ⟨defaultKernels d.vl, split⟩ sw m (t + dt) (plus (m.fld .state) dt k3) k4 ∧
      (∀ c k, 0 ≤ c → c < d.ncells → 0 ≤ k → k < d.nlayers →
        (m1.fld .state).h c k = (m.fld .state).h c k +
          dt / 6 * (k1.h c k + 2 * k2.h c k + 2 * k3.h c k + k4.h c k)) ∧
      (∀ e k, 0 ≤ e → e < d.nedges → 0 ≤ k → k < d.nlayers →
        (m1.fld .state).vn e k = (m.fld .state).vn e k +
          dt / 6 * (k1.vn e k + 2 * k2.vn e k + 2 * k3.vn e k + k4.vn e k)) ∧
      (∀ l c k, 0 ≤ l → l < d.ntracers → 0 ≤ c → c < d.ncells → 0 ≤ k → k < d.nlayers →
        (m1.fld .state).tr l c k = (m.fld .state).tr l c k +
          dt / 6 * (k1.tr l c k + 2 * k2.tr l c k + 2 * k3.tr l c k + k4.tr l c k)) := by
  have hS := genSetup hd hc hH
  obtain ⟨-, -, v⟩ := hS.run he
  set S := genSys d sw H m with hSdef
  have t1 : t + 1 / 2 * dt = t + dt / 2 := by ring
  have t2 : dt * (1 / 2) = dt / 2 := by ring
  obtain ⟨k1, e1⟩ : ∃ k, k = S.tend .replace t (m.fld .tend) (m.fld .state) := ⟨_, rfl⟩
  obtain ⟨k2, e2⟩ : ∃ k, k = S.tend .replace (t + dt / 2) k1 (plus (m.fld .state) (dt / 2) k1) :=
    ⟨_, rfl⟩
  obtain ⟨k3, e3⟩ : ∃ k, k = S.tend .replace (t + dt / 2) k2 (plus (m.fld .state) (dt / 2) k2) :=
    ⟨_, rfl⟩
  obtain ⟨k4, e4⟩ : ∃ k, k = S.tend .replace (t + dt) k3 (plus (m.fld .state) dt k3) := ⟨_, rfl⟩
  have ax : ∀ x c y, Fld.axpy x c y = plus x c y := fun _ _ _ => rfl
  have hrun : S.run .rk4 [(t, dt)] (m.fld .tend, m.fld .state) =
      (k4, plus (plus (plus (plus (m.fld .state) (dt * (1 / 6)) k1) (dt * (1 / 3)) k2)
        (dt * (1 / 3)) k3) (dt * (1 / 6)) k4) := by
    simp only [Sys.run, Sys.step, Sys.rk4Step, List.foldl_cons, List.foldl_nil, List.range_succ,
      List.range_zero, List.nil_append, List.cons_append, Sys.rk4Stage, rk4Coef, nth]
    simp only [List.getD_cons_zero, List.getD_cons_succ, lit_real, ax, Nat.lt_irrefl,
      show (0 : ℕ) < 3 by omega, show (1 : ℕ) < 3 by omega, show (2 : ℕ) < 3 by omega, if_true,
      if_false, Int.cast_one, Int.cast_ofNat, one_mul, mul_one, t1, t2, ← e1, ← e2, ← e3, ← e4]
  rw [hrun] at v
  refine ⟨k1, k2, k3, k4, ?_, ?_, ?_, ?_, ?_, ?_, ?_⟩
  · rw [e1]; exact isTend hS h1 h2 split t _ _
  · rw [e2]; exact isTend hS h1 h2 split _ _ _
  · rw [e3]; exact isTend hS h1 h2 split _ _ _
  · rw [e4]; exact isTend hS h1 h2 split _ _ _
  · intro c k g0 g1 g2 g3
    rw [v.h c k g0 g1 g2 g3]; simp only [plus]; ring
  · intro c k g0 g1 g2 g3
    rw [v.vn c k g0 g1 g2 g3]; simp only [plus]; ring
  · intro l c k l0 l1 g0 g1 g2 g3
    rw [v.tr l c k l0 l1 g0 g1 g2 g3]; simp only [plus]; ring

/-- `IsTend` determines the tendency. -/
theorem C36_tendency_unique {d : Dims} {m : Mem ℝ} (hd : DimsOK d) (hc : ConnOK d m)
    {sw : SWModel ℝ} {H : HookFn ℝ} (hH : HookOK d sw H m) (h1 : sw.prm.disable_h = false)
    (h2 : sw.prm.disable_vn = false) (split split' : Bool) (t : ℝ) (s k k' : Fld ℝ)
    (hk : IsTend d ⟨defaultKernels d.vl, split⟩ sw m t s k)
    (hk' : IsTend d ⟨defaultKernels d.vl, split'⟩ sw m t s k') : EqFld d k k' := by
  have hS := genSetup hd hc hH
  have key : ∀ {split} {k : Fld ℝ}, IsTend d ⟨defaultKernels d.vl, split⟩ sw m t s k →
      EqFld d k ((genSys d sw H m).tend .replace t zeroFld s) := by
    rintro split k ⟨m1, m2, hs, rfl, he, hk⟩
    obtain ⟨-, v⟩ := (hS.static hs).tendency (by decide) he
    refine hk.symm.trans (v.trans ?_)
    have key := tend_replace (genSys d sw H m) t (m1.fld .tend) zeroFld (m1.fld .state)
    exact ⟨fun _ _ _ _ _ _ => by rw [key.1 h1], fun _ _ _ _ _ _ => by rw [key.2.1 h2],
      fun _ _ _ _ _ _ _ _ _ => by rw [key.2.2]⟩
  exact (key hk).trans (key hk').symm

/-- a forced RK4 step from a state that is not at rest -/
example (dc : ℝ) (prm : Params ℝ) : ∃ m m1 : Mem ℝ, DimsOK p46.dims ∧ ConnOK p46.dims m ∧
    HookOK p46.dims ((SWModel.ofParams prm).forced p46.dims (fun x _ _ => x) (fun _ y _ => y)
      (fun _ _ t => t)) (forceFn (fun x _ _ => x) (fun _ y _ => y) (fun _ _ t => t) m) m ∧
    Exec p46.dims (Stepper.rk4.run p46.dims ⟨defaultKernels 2, false⟩
      ((SWModel.ofParams prm).forced p46.dims (fun x _ _ => x) (fun _ y _ => y) (fun _ _ t => t))
      [(0, 1)]) m m1 ∧ (m.fld .state).vn 1 0 = 1 := by
  obtain ⟨m, h, h1, h2⟩ := exists_ready p46_valid dc prm
    ⟨fun c _ => 1 + c, fun e _ => e, fun _ _ _ => 3⟩ ⟨fun _ _ => 7, fun _ _ => 8, fun _ _ _ => 9⟩
  obtain ⟨hd, hc⟩ := ready_ok p46_run h
  have hH := hookOK_forced p46.dims (SWModel.ofParams prm) (fun x _ _ => x) (fun _ y _ => y)
    (fun _ _ t => t) m
  obtain ⟨m1, r, -⟩ := run_runs (genSetup hd hc hH) .rk4 [(0, 1)]
  exact ⟨m, m1, hd, hc, hH, (r false).exec, by rw [h1]; norm_num⟩

/-! ### C38 -/

/-- Each tendency evaluation of a forced model is the unforced evaluation plus the forcing, once, in
either mode, bit for bit. -/
theorem C38_forcing_added_once {d : Dims} {m : Mem R} (hd : DimsOK d) (hc : ConnOK d m)
    {sw : SWModel R} (hn : sw.NoHook) (fh fx fy : R → R → R → R) (split : Bool) (mode : AddMode)
    {tn st : StateId} (hne : st ≠ tn) (t : R) {m1 m2 : Mem R}
    (he : Exec d (compute_tendency d ⟨defaultKernels d.vl, split⟩ (sw.forced d fh fx fy) mode tn st t)
      m m1)
    (he' : Exec d (compute_tendency d ⟨defaultKernels d.vl, split⟩ sw mode tn st t) m m2) :
    (∀ c k, 0 ≤ c → c < d.ncells → 0 ≤ k → k < d.nlayers →
      (m1.fld tn).h c k =
        (m2.fld tn).h c k + fh (m.real .x_cell 0 c 0) (m.real .y_cell 0 c 0) t) ∧
    (∀ e k, 0 ≤ e → e < d.nedges → 0 ≤ k → k < d.nlayers →
      (m1.fld tn).vn e k = (m2.fld tn).vn e k +
        (Scalar.cos (m.real .angle_edge 0 e 0) *
            fx (m.real .x_edge 0 e 0) (m.real .y_edge 0 e 0) t +
          Scalar.sin (m.real .angle_edge 0 e 0) *
            fy (m.real .x_edge 0 e 0) (m.real .y_edge 0 e 0) t)) ∧
    (∀ l c k, 0 ≤ l → l < d.ntracers → 0 ≤ c → c < d.ncells → 0 ≤ k → k < d.nlayers →
      (m1.fld tn).tr l c k = (m2.fld tn).tr l c k) := by
  obtain ⟨-, v⟩ := (genSetup hd hc (hookOK_forced d sw fh fx fy m)).tendency hne he
  obtain ⟨-, w⟩ := (genSetup hd hc (hookOK_noHook hn d m)).tendency hne he'
  refine ⟨fun c k g0 g1 g2 g3 => ?_, fun c k g0 g1 g2 g3 => ?_, fun l c k l0 l1 g0 g1 g2 g3 => ?_⟩
  · rw [v.h c k g0 g1 g2 g3, w.h c k g0 g1 g2 g3]; rfl
  · rw [v.vn c k g0 g1 g2 g3, w.vn c k g0 g1 g2 g3]; rfl
  · rw [v.tr l c k l0 l1 g0 g1 g2 g3, w.tr l c k l0 l1 g0 g1 g2 g3]; rfl

/-- With the thickness equation disabled RK4 does not apply a steady forcing once per evaluation: it
accumulates. After `n` steps of size `dt` of a new stepper the thickness has grown by
`(2 n² + n/2) dt S` instead of `n dt S`. -/
theorem C38_rk4_disabled_accumulates {d : Dims} {m : Mem ℝ} (hd : DimsOK d) (hc : ConnOK d m)
    (sw : SWModel ℝ) (hdis : sw.prm.disable_h = true) (F : ℝ → ℝ → ℝ) (fx fy : ℝ → ℝ → ℝ → ℝ)
    (split : Bool) (ts : List ℝ) (dt : ℝ) {m1 : Mem ℝ}
    (he : Exec d (Stepper.rk4.ctor d ++ Stepper.rk4.run d ⟨defaultKernels d.vl, split⟩
      (sw.forced d (fun x y _ => F x y) fx fy) (ts.map fun t => (t, dt))) m m1)
    (c k : Int) (g0 : 0 ≤ c) (g1 : c < d.ncells) (g2 : 0 ≤ k) (g3 : k < d.nlayers) :
    (m1.fld .state).h c k = (m.fld .state).h c k +
      (2 * (ts.length : ℝ) ^ 2 + ts.length / 2) * dt *
        F (m.real .x_cell 0 c 0) (m.real .y_cell 0 c 0) := by
  obtain ⟨-, -, v⟩ :=
    (genSetup hd hc (hookOK_forced d sw (fun x y _ => F x y) fx fy m)).newRun he
  rw [v.h c k g0 g1 g2 g3]
  set S := genSys d (sw.forced d (fun x y _ => F x y) fx fy)
    (forceFn (fun x y _ => F x y) fx fy m) m with hS
  set G := F (m.real .x_cell 0 c 0) (m.real .y_cell 0 c 0) with hG
  have htend : ∀ t o s, (S.tend .replace t o s).h c k = o.h c k + G := by
    intro t o s
    have : S.sw.prm.disable_h = true := hdis
    simp only [Sys.tend, this, if_true]
    rfl
  have hstep : ∀ t (p : Fld ℝ × Fld ℝ), (S.rk4Step t dt p).1.h c k = p.1.h c k + 4 * G ∧
      (S.rk4Step t dt p).2.h c k = p.2.h c k + dt * (p.1.h c k + 5 / 2 * G) := by
    intro t p
    simp only [Sys.rk4Step, List.foldl_cons, List.foldl_nil, List.range_succ,
      List.range_zero, List.nil_append, List.cons_append, Sys.rk4Stage, rk4Coef, nth,
      List.getD_cons_zero, List.getD_cons_succ, lit_real, Nat.lt_irrefl,
      show (0 : ℕ) < 3 by omega, show (1 : ℕ) < 3 by omega, show (2 : ℕ) < 3 by omega, if_true,
      if_false, Int.cast_one, Int.cast_ofNat, Fld.axpy, Fld.zip, htend]
    constructor <;> ring
  have hrun : ∀ (ts : List ℝ) (p : Fld ℝ × Fld ℝ),
      (S.run .rk4 (ts.map fun t => (t, dt)) p).2.h c k = p.2.h c k + ts.length * dt * p.1.h c k +
        (2 * (ts.length : ℝ) ^ 2 + ts.length / 2) * dt * G := by
    intro ts
    induction ts with
    | nil => intro p; simp [Sys.run]
    | cons t L ih =>
      intro p
      have := ih (S.rk4Step t dt p)
      simp only [Sys.run, List.map_cons, List.foldl_cons, List.length_cons, Sys.step] at this ⊢
      rw [this, (hstep t p).1, (hstep t p).2]
      push_cast
      ring
  rw [hrun]
  simp [zeroFld]

/-- one step with a disabled thickness equation and forcing 1 -/
example (dc : ℝ) : ∃ (sw : SWModel ℝ) (m m1 : Mem ℝ), sw.prm.disable_h = true ∧
    DimsOK p46.dims ∧ ConnOK p46.dims m ∧
    Exec p46.dims (Stepper.rk4.ctor p46.dims ++ Stepper.rk4.run p46.dims ⟨defaultKernels 2, false⟩
      (sw.forced p46.dims (fun _ _ _ => 1) (fun _ _ _ => 0) (fun _ _ _ => 0))
      ([0].map fun t => (t, 1))) m m1 ∧
    (m1.fld .state).h 0 0 = (m.fld .state).h 0 0 + 5 / 2 := by
  obtain ⟨m, h, h1, h2⟩ := exists_ready p46_valid dc (⟨1, 9, 1, 1, 1, 1, true, false⟩ : Params ℝ)
    ⟨fun c _ => 1 + c, fun e _ => e, fun _ _ _ => 3⟩ zeroFld
  obtain ⟨hd, hc⟩ := ready_ok p46_run h
  obtain ⟨m1, he, -⟩ := (C40_safe_deterministic_forced hd hc (SWModel.ofParams
    (⟨1, 9, 1, 1, 1, 1, true, false⟩ : Params ℝ)) (fun _ _ _ => 1) (fun _ _ _ => 0)
    (fun _ _ _ => 0) false .rk4 ([0].map fun t => (t, 1))).2
  refine ⟨_, m, m1, rfl, hd, hc, he, ?_⟩
  have := C38_rk4_disabled_accumulates hd hc _ rfl (fun _ _ => 1) _ _ false [0] 1 he 0 0 le_rfl
    (by simp [MeshParams.dims, p46]) le_rfl (by rw [p46_layers]; norm_num)
  rw [this]
  norm_num

end Props
end Omega
