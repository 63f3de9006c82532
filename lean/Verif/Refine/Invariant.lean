import Verif.Refine.Ready

/-!
# Relations preserved by the steppers
-/

set_option linter.unusedSectionVars false
set_option linter.unusedVariables false

namespace Omega
namespace Refine

open Prog Model

variable {R : Type} [Scalar R]

/-- A relation `Pt` on tendencies and `Ps` on states that is preserved by the operations of the
steppers. -/
structure StepRel (S S' : Sys R) (Pt Ps : Fld R → Fld R → Prop) : Prop where
  tend : ∀ {mode t o o' s s'}, Pt o o' → Ps s s' → Pt (S.tend mode t o s) (S'.tend mode t o' s')
  map : ∀ {x y} (a : R), Pt x y → Pt (x.map fun v => v * a) (y.map fun v => v * a)
  axpy : ∀ {x y x' y'} (c : R), Ps x y → Pt x' y' → Ps (x.axpy c x') (y.axpy c y')

namespace StepRel

variable {S S' : Sys R} {Pt Ps : Fld R → Fld R → Prop} (h : StepRel S S' Pt Ps)
include h

theorem lsrkStage (C : Coef R) (t dt : R) (i : Nat) {p q : Fld R × Fld R} (h1 : Pt p.1 q.1)
    (h2 : Ps p.2 q.2) :
    Pt (S.lsrkStage C t dt i p).1 (S'.lsrkStage C t dt i q).1 ∧
    Ps (S.lsrkStage C t dt i p).2 (S'.lsrkStage C t dt i q).2 := by
  have := h.tend (mode := .increment) (t := t + C.c i * dt) (h.map (C.a i) h1) h2
  exact ⟨this, h.axpy _ h2 this⟩

theorem lsrkFold (C : Coef R) (t dt : R) (L : List Nat) {p q : Fld R × Fld R} (h1 : Pt p.1 q.1)
    (h2 : Ps p.2 q.2) :
    Pt (L.foldl (fun p i => S.lsrkStage C t dt i p) p).1
      (L.foldl (fun p i => S'.lsrkStage C t dt i p) q).1 ∧
    Ps (L.foldl (fun p i => S.lsrkStage C t dt i p) p).2
      (L.foldl (fun p i => S'.lsrkStage C t dt i p) q).2 := by
  induction L generalizing p q with
  | nil => exact ⟨h1, h2⟩
  | cons i L ih =>
    have := h.lsrkStage C t dt i h1 h2
    exact ih this.1 this.2

theorem rk4Stage (C : Coef R) (t dt : R) (i : Nat) {o o' : Fld R} {p q : Fld R × Fld R}
    (ho : Ps o o') (h1 : Pt p.1 q.1) (h2 : Ps p.2 q.2) :
    Pt (S.rk4Stage C t dt o i p).1 (S'.rk4Stage C t dt o' i q).1 ∧
    Ps (S.rk4Stage C t dt o i p).2 (S'.rk4Stage C t dt o' i q).2 := by
  refine ⟨?_, h.axpy _ h2 h1⟩
  simp only [Sys.rk4Stage]
  split_ifs
  · exact h.tend h1 (h.axpy _ ho h1)
  · exact h1

theorem rk4Fold (C : Coef R) (t dt : R) (L : List Nat) {o o' : Fld R} {p q : Fld R × Fld R}
    (ho : Ps o o') (h1 : Pt p.1 q.1) (h2 : Ps p.2 q.2) :
    Pt (L.foldl (fun p i => S.rk4Stage C t dt o i p) p).1
      (L.foldl (fun p i => S'.rk4Stage C t dt o' i p) q).1 ∧
    Ps (L.foldl (fun p i => S.rk4Stage C t dt o i p) p).2
      (L.foldl (fun p i => S'.rk4Stage C t dt o' i p) q).2 := by
  induction L generalizing p q with
  | nil => exact ⟨h1, h2⟩
  | cons i L ih =>
    have := h.rk4Stage C t dt i ho h1 h2
    exact ih this.1 this.2

theorem step (stp : Stepper) (t dt : R) {p q : Fld R × Fld R} (h1 : Pt p.1 q.1)
    (h2 : Ps p.2 q.2) :
    Pt (S.step t dt p stp).1 (S'.step t dt q stp).1 ∧
    Ps (S.step t dt p stp).2 (S'.step t dt q stp).2 := by
  cases stp with
  | lsrk n => exact h.lsrkFold _ t dt _ h1 h2
  | rk4 => exact h.rk4Fold _ t dt _ h2 (h.tend h1 h2) h2

theorem run (stp : Stepper) (sched : List (R × R)) {p q : Fld R × Fld R} (h1 : Pt p.1 q.1)
    (h2 : Ps p.2 q.2) :
    Pt (S.run stp sched p).1 (S'.run stp sched q).1 ∧
    Ps (S.run stp sched p).2 (S'.run stp sched q).2 := by
  induction sched generalizing p q with
  | nil => exact ⟨h1, h2⟩
  | cons x L ih =>
    have := h.step stp x.1 x.2 h1 h2
    exact ih this.1 this.2

end StepRel

/-- A one-sided invariant. -/
theorem StepRel.of_inv {S : Sys R} {Pt Ps : Fld R → Prop}
    (tend : ∀ {mode t o s}, Pt o → Ps s → Pt (S.tend mode t o s))
    (map : ∀ {x} (a : R), Pt x → Pt (x.map fun v => v * a))
    (axpy : ∀ {x x'} (c : R), Ps x → Pt x' → Ps (x.axpy c x')) :
    StepRel S S (fun x _ => Pt x) (fun x _ => Ps x) :=
  ⟨fun h1 h2 => tend h1 h2, fun a h => map a h, fun c h1 h2 => axpy c h1 h2⟩

/-! ### The generic system of the default build on any valid mesh -/

/-- the functional system of the default build on the mesh in `m` -/
def genSys (d : Dims) (sw : SWModel R) (H : HookFn R) (m : Mem R) : Sys R :=
  ⟨scalarF, d.vl, m.mesh, m.sl .f_vertex 0 0, sw, H⟩

theorem genSetup {d : Dims} {m : Mem R} (hd : DimsOK d) (hc : ConnOK d m) {sw : SWModel R}
    {H : HookFn R} (hH : HookOK d sw H m) :
    Setup d (defaultKernels d.vl) (genSys d sw H m) m :=
  ⟨hd, hc, default_refines, scalarF_local, rfl, rfl, rfl, hH⟩

theorem genSys_static {d : Dims} {sw : SWModel R} {H : HookFn R} {m m' : Mem R} (h : Static m' m) :
    genSys d sw H m' = genSys d sw H m := by
  unfold genSys
  rw [h.mesh]
  unfold Mem.sl
  rw [h.real .f_vertex rfl]

/-- What an execution of `compute_tendency` ends in. -/
theorem Setup.tendency {d : Dims} {K : Kernels R} {S : Sys R} {m m' : Mem R} (hS : Setup d K S m)
    {mode : AddMode} {tn st : StateId} (hne : st ≠ tn) {t : R} {split : Bool}
    (he : Exec d (compute_tendency d ⟨K, split⟩ S.sw mode tn st t) m m') :
    Agree (tendSet tn) m' m ∧
      EqFld d (m'.fld tn) (S.tend mode t (m.fld tn) (m.fld st)) := by
  obtain ⟨m'', r, a, v⟩ := compute_tendency_runs hS mode hne t
  obtain rfl := ((r split).2 m').1 he
  exact ⟨a, v⟩

/-- What an execution of a sequence of steps ends in. -/
theorem Setup.run {d : Dims} {K : Kernels R} {S : Sys R} {m m' : Mem R} (hS : Setup d K S m)
    {stp : Stepper} {sched : List (R × R)} {split : Bool}
    (he : Exec d (stp.run d ⟨K, split⟩ S.sw sched) m m') :
    Static m' m ∧
      EqFld d (m'.fld .tend) (S.run stp sched (m.fld .tend, m.fld .state)).1 ∧
      EqFld d (m'.fld .state) (S.run stp sched (m.fld .tend, m.fld .state)).2 := by
  obtain ⟨m'', r, a, v, w⟩ := run_runs hS stp sched
  obtain rfl := ((r split).2 m').1 he
  exact ⟨a, v, w⟩

/-! ### A new stepper -/

/-- all zero -/
def zeroFld : Fld R := ⟨fun _ _ => lit 0, fun _ _ => lit 0, fun _ _ _ => lit 0⟩

theorem alloc_runs (d : Dims) (s : StateId) (m : Mem R) :
    ∃ m', Runs d (allocState d s) m m' ∧ Agree (inState s) m' m ∧ EqFld d (m'.fld s) zeroFld := by
  refine ⟨_, Runs.cons (fill_runs (lit 0)) (Runs.cons (fill_runs (lit 0))
    (Runs.single (fill_runs (lit 0)))), ?_, ?_⟩
  · refine (((Agree.refl _ m).upd _ ?_).upd _ ?_).upd _ ?_ <;>
    · intro a l i k h
      rw [only_eq h.1]; simp [inState]
  · constructor
    · intro c k g0 g1 h0 h1
      simp only [Mem.fld]
      rw [upd_only_off (by simp), upd_only_off (by simp), upd_only_on (inbE rfl ⟨g0, g1⟩ ⟨h0, h1⟩)]
      rfl
    · intro c k g0 g1 h0 h1
      simp only [Mem.fld]
      rw [upd_only_off (by simp), upd_only_on (inbE rfl ⟨g0, g1⟩ ⟨h0, h1⟩)]
      rfl
    · intro l c k l0 l1 g0 g1 h0 h1
      simp only [Mem.fld]
      rw [upd_only_on (inbT rfl ⟨l0, l1⟩ ⟨g0, g1⟩ ⟨h0, h1⟩)]
      rfl

theorem ctor_runs (d : Dims) (stp : Stepper) (m : Mem R) :
    ∃ m', Runs d (stp.ctor d) m m' ∧ Static m' m ∧ m'.fld .state = m.fld .state ∧
      EqFld d (m'.fld .tend) zeroFld := by
  cases stp with
  | rk4 =>
    obtain ⟨m1, r1, a1, v1⟩ := alloc_runs d .tend m
    obtain ⟨m2, r2, a2, v2⟩ := alloc_runs d .provis m1
    obtain ⟨m3, r3, a3, v3⟩ := alloc_runs d .old m2
    refine ⟨m3, Runs.append (Runs.append r1 r2) r3, ?_, ?_, ?_⟩
    · exact (a3.mono fun _ h => inState_dyn h).trans ((a2.mono fun _ h => inState_dyn h).trans
        (a1.mono fun _ h => inState_dyn h))
    · exact fld_congr fun b hb => by
        rw [a3.real b (inState_disj (by decide) hb), a2.real b (inState_disj (by decide) hb),
          a1.real b (inState_disj (by decide) hb)]
    · have : m3.fld .tend = m1.fld .tend := fld_congr fun b hb => by
        rw [a3.real b (inState_disj (by decide) hb), a2.real b (inState_disj (by decide) hb)]
      rw [this]; exact v1
  | lsrk n =>
    obtain ⟨m1, r1, a1, v1⟩ := alloc_runs d .tend m
    obtain ⟨m2, r2, a2, v2⟩ := state3_runs (d := d) (m := m1) (s := .tend)
      (g1 := fun _ _ _ _ _ => lit 0) (g2 := fun _ _ _ _ _ => lit 0) (g3 := fun _ _ _ _ _ => lit 0)
      (fun m => fill_runs (lit 0)) (fun m => fill_runs (lit 0)) (fun m => fill_runs (lit 0))
      (fun _ _ => rfl) (fun _ _ => rfl)
    refine ⟨m2, ?_, (a2.trans a1).mono fun _ h => inState_dyn h, ?_, v2⟩
    · have := Runs.append r1 r2
      simpa only [Stepper.ctor, lsrk_ctor, List.append_assoc] using this
    · exact fld_congr fun b hb => (a2.trans a1).real b (inState_disj (by decide) hb)

/-- A new stepper and then a sequence of steps. -/
theorem new_run_runs {d : Dims} {K : Kernels R} {S : Sys R} {m : Mem R} (hS : Setup d K S m)
    (stp : Stepper) (sched : List (R × R)) :
    ∃ m', (∀ split, Runs d (stp.ctor d ++ stp.run d ⟨K, split⟩ S.sw sched) m m') ∧ Static m' m ∧
      EqFld d (m'.fld .tend) (S.run stp sched (zeroFld, m.fld .state)).1 ∧
      EqFld d (m'.fld .state) (S.run stp sched (zeroFld, m.fld .state)).2 := by
  obtain ⟨m1, r1, a1, f1, v1⟩ := ctor_runs d stp m
  obtain ⟨m2, r2, a2, v2, w2⟩ := run_runs (hS.static a1) stp sched
  have hl := run_local hS.sys stp sched (p := (m1.fld .tend, m1.fld .state))
    (q := (zeroFld, m.fld .state)) ⟨v1, by rw [f1]; exact EqFld.refl _ _⟩
  exact ⟨m2, fun split => Runs.append r1 (r2 split), a2.trans a1, v2.trans hl.1, w2.trans hl.2⟩

theorem Setup.newRun {d : Dims} {K : Kernels R} {S : Sys R} {m m' : Mem R} (hS : Setup d K S m)
    {stp : Stepper} {sched : List (R × R)} {split : Bool}
    (he : Exec d (stp.ctor d ++ stp.run d ⟨K, split⟩ S.sw sched) m m') :
    Static m' m ∧ EqFld d (m'.fld .tend) (S.run stp sched (zeroFld, m.fld .state)).1 ∧
      EqFld d (m'.fld .state) (S.run stp sched (zeroFld, m.fld .state)).2 := by
  obtain ⟨m'', r, a, v, w⟩ := new_run_runs hS stp sched
  obtain rfl := ((r split).2 m').1 he
  exact ⟨a, v, w⟩

end Refine
end Omega
