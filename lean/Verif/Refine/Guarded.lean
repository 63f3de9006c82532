import Verif.Refine.Invariant

/-!
# Invariants that need a condition on the states at which the tendency is evaluated
-/

set_option linter.unusedSectionVars false
set_option linter.unusedVariables false

namespace Omega
namespace Refine

open Prog Model

variable {R : Type} [Scalar R]

namespace Sys

variable (S : Sys R)

/-- states at which the stages of a low-storage step evaluate the tendency -/
def lsrkEvals (C : Coef R) (t dt : R) : List Nat → Fld R × Fld R → List (Fld R)
  | [], _ => []
  | i :: L, p => p.2 :: lsrkEvals C t dt L (S.lsrkStage C t dt i p)

/-- states at which the stages of a classical step evaluate the tendency -/
def rk4Evals (C : Coef R) (t dt : R) (old : Fld R) : List Nat → Fld R × Fld R → List (Fld R)
  | [], _ => []
  | i :: L, p => (if i < 3 then [old.axpy (dt * C.a i) p.1] else []) ++
      rk4Evals C t dt old L (S.rk4Stage C t dt old i p)

/-- states at which a step evaluates the tendency -/
def stepEvals (t dt : R) (p : Fld R × Fld R) : Stepper → List (Fld R)
  | .lsrk n => S.lsrkEvals (lsrkCoef n) t dt (List.range n) p
  | .rk4 => p.2 :: S.rk4Evals rk4Coef t dt p.2 (List.range 4) (S.tend .replace t p.1 p.2, p.2)

/-- states at which a run evaluates the tendency -/
def evals (stp : Stepper) : List (R × R) → Fld R × Fld R → List (Fld R)
  | [], _ => []
  | q :: L, p => S.stepEvals q.1 q.2 p stp ++ evals stp L (S.step q.1 q.2 p stp)

end Sys

/-- A property `Pt` of tendencies and `Ps` of states that is preserved by the operations of the
steppers, provided the tendency is evaluated only at states with `N`. -/
structure Guarded (S : Sys R) (N Pt Ps : Fld R → Prop) : Prop where
  tend : ∀ {mode t o s}, N s → Pt o → Ps s → Pt (S.tend mode t o s)
  map : ∀ {x} (a : R), Pt x → Pt (x.map fun v => v * a)
  axpy : ∀ {x x'} (c : R), Ps x → Pt x' → Ps (x.axpy c x')

namespace Guarded

variable {S : Sys R} {N Pt Ps : Fld R → Prop} (h : Guarded S N Pt Ps)
include h

theorem lsrk (C : Coef R) (t dt : R) (L : List Nat) {p : Fld R × Fld R} (h1 : Pt p.1)
    (h2 : Ps p.2) (hN : ∀ x ∈ S.lsrkEvals C t dt L p, N x) :
    Pt (L.foldl (fun p i => S.lsrkStage C t dt i p) p).1 ∧
    Ps (L.foldl (fun p i => S.lsrkStage C t dt i p) p).2 := by
  induction L generalizing p with
  | nil => exact ⟨h1, h2⟩
  | cons i L ih =>
    have ht := h.tend (mode := .increment) (t := t + C.c i * dt)
      (hN p.2 (by simp [Sys.lsrkEvals])) (h.map (C.a i) h1) h2
    exact ih (p := S.lsrkStage C t dt i p) ht (h.axpy _ h2 ht)
      fun x hx => hN x (by simp [Sys.lsrkEvals, hx])

theorem rk4 (C : Coef R) (t dt : R) (L : List Nat) {o : Fld R} {p : Fld R × Fld R}
    (ho : Ps o) (h1 : Pt p.1) (h2 : Ps p.2) (hN : ∀ x ∈ S.rk4Evals C t dt o L p, N x) :
    Pt (L.foldl (fun p i => S.rk4Stage C t dt o i p) p).1 ∧
    Ps (L.foldl (fun p i => S.rk4Stage C t dt o i p) p).2 := by
  induction L generalizing p with
  | nil => exact ⟨h1, h2⟩
  | cons i L ih =>
    refine ih (p := S.rk4Stage C t dt o i p) ?_ (h.axpy _ h2 h1)
      fun x hx => hN x (by simp [Sys.rk4Evals, hx])
    simp only [Sys.rk4Stage]
    split_ifs with hi
    · exact h.tend (hN _ (by simp [Sys.rk4Evals, hi])) h1 (h.axpy _ ho h1)
    · exact h1

theorem step (stp : Stepper) (t dt : R) {p : Fld R × Fld R} (h1 : Pt p.1) (h2 : Ps p.2)
    (hN : ∀ x ∈ S.stepEvals t dt p stp, N x) :
    Pt (S.step t dt p stp).1 ∧ Ps (S.step t dt p stp).2 := by
  cases stp with
  | lsrk n => exact h.lsrk _ t dt _ h1 h2 hN
  | rk4 =>
    exact h.rk4 _ t dt _ h2 (h.tend (hN p.2 (by simp [Sys.stepEvals])) h1 h2) h2
      fun x hx => hN x (by simp [Sys.stepEvals, hx])

theorem run (stp : Stepper) (sched : List (R × R)) {p : Fld R × Fld R} (h1 : Pt p.1)
    (h2 : Ps p.2) (hN : ∀ x ∈ S.evals stp sched p, N x) :
    Pt (S.run stp sched p).1 ∧ Ps (S.run stp sched p).2 := by
  induction sched generalizing p with
  | nil => exact ⟨h1, h2⟩
  | cons q L ih =>
    have := h.step stp q.1 q.2 h1 h2 fun x hx => hN x (by simp [Sys.evals, hx])
    exact ih (p := S.step q.1 q.2 p stp) this.1 this.2 fun x hx => hN x (by simp [Sys.evals, hx])

end Guarded

/-! ### The evaluation states are those at which the program calls `compute_tendency` -/

/-- the calls in a program that follows `A` -/
def after (A : List (Cmd R)) (L : List (List (Cmd R) × StateId)) : List (List (Cmd R) × StateId) :=
  L.map fun q => (A ++ q.1, q.2)

section

variable (d : Dims) (B : Build R) (sw : SWModel R)

/-- commands of a low-storage stage before its call of `compute_tendency` (lsrk.cpp:46-63) -/
def lsrk_scale (C : Coef R) (stage : Nat) : List (Cmd R) :=
  [map2 d d.ncells (.h_cell .tend) (fun v => v * C.a stage),
   map2 d d.nedges (.vn_edge .tend) (fun v => v * C.a stage)] ++
  (if 0 < d.ntracers then [map3 d (.tr_cell .tend) (fun v => v * C.a stage)] else [])

/-- commands of a classical step before its first call of `compute_tendency` (rk4.cpp:45-47) -/
def rk4_copies : List (Cmd R) :=
  [copyR d (.h_cell .old) (.h_cell .state), copyR d (.vn_edge .old) (.vn_edge .state),
    copyR d (.tr_cell .old) (.tr_cell .state)]

/-- commands of a classical stage that is not the last before its call (rk4.cpp:54-99) -/
def rk4_put (C : Coef R) (dt : R) (stage : Nat) : List (Cmd R) :=
  rk4_accumulate d C dt stage ++
  ([put2 d d.ncells (.h_cell .provis) (.h_cell .old) (.h_cell .tend)
      (fun v w => v + dt * C.a stage * w),
    put2 d d.nedges (.vn_edge .provis) (.vn_edge .old) (.vn_edge .tend)
      (fun v w => v + dt * C.a stage * w)] ++
  (if 0 < d.ntracers then [put3 d (.tr_cell .provis) (.tr_cell .old) (.tr_cell .tend)
      (fun v w => v + dt * C.a stage * w)] else []))

/-- the calls of `compute_tendency` in the stages of a low-storage step: commands executed before the
call, and the state it is called for -/
def lsrkCalls (C : Coef R) (t dt : R) : List Nat → List (List (Cmd R) × StateId)
  | [] => []
  | i :: L => (lsrk_scale d C i, .state) ::
      after (lsrk_stage d B sw C t dt i) (lsrkCalls C t dt L)

/-- the same for the stages of a classical step -/
def rk4Calls (C : Coef R) (t dt : R) : List Nat → List (List (Cmd R) × StateId)
  | [] => []
  | i :: L => (if i < 3 then [(rk4_put d C dt i, .provis)] else []) ++
      after (rk4_stage d B sw C t dt i) (rk4Calls C t dt L)

/-- the calls of `compute_tendency` in a step -/
def stepCalls (t dt : R) : Stepper → List (List (Cmd R) × StateId)
  | .lsrk n => lsrkCalls d B sw (lsrkCoef n) t dt (List.range n)
  | .rk4 => (rk4_copies d, .state) :: after (rk4_copies d ++
      compute_tendency d B sw .replace .tend .state t)
        (rk4Calls d B sw rk4Coef t dt (List.range 4))

/-- the calls of `compute_tendency` in a sequence of steps -/
def runCalls (stp : Stepper) : List (R × R) → List (List (Cmd R) × StateId)
  | [] => []
  | q :: L => stepCalls d B sw q.1 q.2 stp ++ after (stp.step d B sw q.1 q.2) (runCalls stp L)

/-- In a run of a new stepper from `m`, `compute_tendency` is called for the state `st` when memory
is `m'`. -/
def CallsAt (stp : Stepper) (sched : List (R × R)) (m : Mem R) (st : StateId) (m' : Mem R) : Prop :=
  ∃ pre, (pre, st) ∈ after (stp.ctor d) (runCalls d B sw stp sched) ∧ Exec d pre m m'

/-- The list is a list of calls: each entry splits the program at a call. -/
def Splits (prog : List (Cmd R)) (L : List (List (Cmd R) × StateId)) : Prop :=
  ∀ q ∈ L, ∃ mode tn t post, prog = q.1 ++ compute_tendency d B sw mode tn q.2 t ++ post

variable {d B sw}

theorem Splits.after {prog : List (Cmd R)} {L} (h : Splits d B sw prog L) (A : List (Cmd R)) :
    Splits d B sw (A ++ prog) (after A L) := by
  intro q hq
  obtain ⟨q', hq', rfl⟩ := List.mem_map.1 hq
  obtain ⟨mode, tn, t, post, rfl⟩ := h q' hq'
  exact ⟨mode, tn, t, post, by simp⟩

theorem Splits.left {prog : List (Cmd R)} {L} (h : Splits d B sw prog L) (A : List (Cmd R)) :
    Splits d B sw (prog ++ A) L := by
  intro q hq
  obtain ⟨mode, tn, t, post, rfl⟩ := h q hq
  exact ⟨mode, tn, t, post ++ A, by simp⟩

theorem Splits.append {prog : List (Cmd R)} {L L'} (h : Splits d B sw prog L)
    (h' : Splits d B sw prog L') : Splits d B sw prog (L ++ L') := by
  intro q hq
  rcases List.mem_append.1 hq with hq | hq
  exacts [h q hq, h' q hq]

theorem lsrk_splits (C : Coef R) (t dt : R) (L : List Nat) :
    Splits d B sw (L.flatMap (lsrk_stage d B sw C t dt)) (lsrkCalls d B sw C t dt L) := by
  induction L with
  | nil => exact fun q hq => nomatch hq
  | cons i L ih =>
    rw [List.flatMap_cons]
    refine Splits.append (L := [_]) (fun q hq => ?_) (ih.after _)
    obtain rfl := List.mem_singleton.1 hq
    refine ⟨.increment, .tend, t + C.c i * dt, ?_⟩
    unfold lsrk_stage lsrk_scale
    simp only [List.append_assoc]
    exact ⟨_, rfl⟩

theorem rk4_splits (C : Coef R) (t dt : R) (L : List Nat) :
    Splits d B sw (L.flatMap (rk4_stage d B sw C t dt)) (rk4Calls d B sw C t dt L) := by
  induction L with
  | nil => exact fun q hq => nomatch hq
  | cons i L ih =>
    rw [List.flatMap_cons]
    refine Splits.append ?_ (ih.after _)
    split_ifs with hi
    · intro q hq
      obtain rfl := List.mem_singleton.1 hq
      refine ⟨.replace, .tend, t + C.c i * dt, ?_⟩
      unfold rk4_stage rk4_provis rk4_put
      rw [if_pos hi]
      simp only [List.append_assoc]
      exact ⟨_, rfl⟩
    · exact fun q hq => nomatch hq

theorem step_splits (stp : Stepper) (t dt : R) :
    Splits d B sw (stp.step d B sw t dt) (stepCalls d B sw t dt stp) := by
  cases stp with
  | lsrk n => exact lsrk_splits _ t dt _
  | rk4 =>
    refine Splits.append (L := [_]) (fun q hq => ?_) ((rk4_splits _ t dt _).after _)
    obtain rfl := List.mem_singleton.1 hq
    exact ⟨.replace, .tend, t, _, rfl⟩

theorem run_splits (stp : Stepper) (sched : List (R × R)) :
    Splits d B sw (stp.run d B sw sched) (runCalls d B sw stp sched) := by
  induction sched with
  | nil => exact fun q hq => nomatch hq
  | cons q L ih =>
    show Splits d B sw (stp.step d B sw q.1 q.2 ++ stp.run d B sw L) _
    exact ((step_splits stp q.1 q.2).left _).append (ih.after _)

/-- Every `CallsAt` is a point of the program where it calls `compute_tendency`. -/
theorem CallsAt.split {stp : Stepper} {sched : List (R × R)} {m m' : Mem R} {st : StateId}
    (h : CallsAt d B sw stp sched m st m') :
    ∃ pre post mode tn t, stp.ctor d ++ stp.run d B sw sched =
      pre ++ compute_tendency d B sw mode tn st t ++ post ∧ Exec d pre m m' := by
  obtain ⟨pre, hp, he⟩ := h
  obtain ⟨mode, tn, t, post, e⟩ := (run_splits stp sched).after (stp.ctor d) _ hp
  exact ⟨pre, post, mode, tn, t, e, he⟩

end

/-- `x` is, at valid indices, a state for which `compute_tendency` is called -/
def Called (d : Dims) (L : List (List (Cmd R) × StateId)) (m : Mem R) (x : Fld R) : Prop :=
  ∃ q ∈ L, ∃ m', Exec d q.1 m m' ∧ EqFld d (m'.fld q.2) x

theorem Called.left {d : Dims} {L : List (List (Cmd R) × StateId)} {m : Mem R} {x : Fld R}
    (h : Called d L m x) (L') : Called d (L ++ L') m x := by
  obtain ⟨q, hq, h⟩ := h
  exact ⟨q, List.mem_append_left _ hq, h⟩

theorem Called.right {d : Dims} {L : List (List (Cmd R) × StateId)} {m m1 : Mem R} {x : Fld R}
    {A : List (Cmd R)} (he : Exec d A m m1) (h : Called d L m1 x) (L') :
    Called d (L' ++ after A L) m x := by
  obtain ⟨q, hq, m', h1, h2⟩ := h
  exact ⟨(A ++ q.1, q.2), List.mem_append_right _ (List.mem_map.2 ⟨q, hq, rfl⟩), m',
    exec_append.2 ⟨m1, he, h1⟩, h2⟩

section

variable {d : Dims} {K : Kernels R} {S : Sys R} {m : Mem R} (hS : Setup d K S m) (split : Bool)
include hS

theorem lsrk_stage_called (C : Coef R) (stage : Nat) :
    Called d [(lsrk_scale d C stage, .state)] m (m.fld .state) := by
  obtain ⟨m1, r1, ag1, v1⟩ := state3_runs (m := m) (s := .tend)
    (g1 := fun _ _ _ _ v => v * C.a stage) (g2 := fun _ _ _ _ v => v * C.a stage)
    (g3 := fun _ _ _ _ v => v * C.a stage)
    (fun m => map2_runs (n := d.ncells) rfl (fun v => v * C.a stage))
    (fun m => map2_runs (n := d.nedges) rfl (fun v => v * C.a stage))
    (fun m => map3_runs rfl (fun v => v * C.a stage)) (fun _ _ => rfl) (fun _ _ => rfl)
  have f1 : m1.fld .state = m.fld .state := fld_congr fun b hb =>
    ag1.real b (inState_disj (by decide) hb)
  exact ⟨_, List.mem_singleton.2 rfl, m1, r1.exec, by rw [f1]; exact EqFld.refl _ _⟩

theorem lsrk_stages_called (C : Coef R) (t dt : R) (L : List Nat)
    (p : Fld R × Fld R) (h1 : EqFld d (m.fld .tend) p.1) (h2 : EqFld d (m.fld .state) p.2) :
    ∀ x ∈ S.lsrkEvals C t dt L p,
      Called d (lsrkCalls d ⟨K, split⟩ S.sw C t dt L) m x := by
  induction L generalizing m p with
  | nil => simp [Sys.lsrkEvals]
  | cons i L ih =>
    intro x hx
    simp only [Sys.lsrkEvals, List.mem_cons] at hx
    rcases hx with rfl | hx
    · obtain ⟨q, hq, m', he, e⟩ := lsrk_stage_called hS C i
      exact Called.left ⟨q, hq, m', he, e.trans h2⟩ _
    · obtain ⟨m1, r1, ag1, v1, w1⟩ := lsrk_stage_runs hS C t dt i
      have hl := lsrkStage_local hS.sys C t dt i (p := (m.fld .tend, m.fld .state)) (q := p) h1 h2
      have hc := ih (hS.static (ag1.mono fun _ h => lsrkSet_dyn h))
        (S.lsrkStage C t dt i p) (v1.trans hl.1) (w1.trans hl.2) x hx
      exact hc.right (r1 split).exec [_]

theorem rk4_stage_called (C : Coef R) (dt : R) {stage : Nat} (hst : stage < 3) :
    Called d [(rk4_put d C dt stage, .provis)] m
      ((m.fld .old).axpy (dt * C.a stage) (m.fld .tend)) := by
  obtain ⟨m1, r1, ag1, v1⟩ := state3_runs (m := m) (s := .state)
    (g1 := fun m l i k v => v + dt * C.b stage * m.real (.h_cell .tend) l i k)
    (g2 := fun m l i k v => v + dt * C.b stage * m.real (.vn_edge .tend) l i k)
    (g3 := fun m l i k v => v + dt * C.b stage * m.real (.tr_cell .tend) l i k)
    (fun m => zip2_runs (n := d.ncells) rfl rfl (by simp) (fun v w => v + dt * C.b stage * w))
    (fun m => zip2_runs (n := d.nedges) rfl rfl (by simp) (fun v w => v + dt * C.b stage * w))
    (fun m => zip3_runs rfl rfl (by simp) (fun v w => v + dt * C.b stage * w))
    (fun m' h => by rw [h.real (.vn_edge .tend) (by decide)])
    (fun m' h => by rw [h.real (.tr_cell .tend) (by decide)])
  have t1 : m1.fld .tend = m.fld .tend := fld_congr fun b hb =>
    ag1.real b (inState_disj (by decide) hb)
  have o1 : m1.fld .old = m.fld .old := fld_congr fun b hb =>
    ag1.real b (inState_disj (by decide) hb)
  obtain ⟨m2, r2, ag2, v2⟩ := state3_runs (m := m1) (s := .provis)
      (g1 := fun m l i k _ => m.real (.h_cell .old) l i k +
        dt * C.a stage * m.real (.h_cell .tend) l i k)
      (g2 := fun m l i k _ => m.real (.vn_edge .old) l i k +
        dt * C.a stage * m.real (.vn_edge .tend) l i k)
      (g3 := fun m l i k _ => m.real (.tr_cell .old) l i k +
        dt * C.a stage * m.real (.tr_cell .tend) l i k)
      (fun m => put2_runs (n := d.ncells) rfl rfl rfl (by simp) (by simp)
        (fun v w => v + dt * C.a stage * w))
      (fun m => put2_runs (n := d.nedges) rfl rfl rfl (by simp) (by simp)
        (fun v w => v + dt * C.a stage * w))
      (fun m => put3_runs rfl rfl rfl (by simp) (by simp) (fun v w => v + dt * C.a stage * w))
      (fun m' h => by rw [h.real (.vn_edge .tend) (by decide), h.real (.vn_edge .old) (by decide)])
      (fun m' h => by rw [h.real (.tr_cell .tend) (by decide), h.real (.tr_cell .old) (by decide)])
  refine ⟨_, List.mem_singleton.2 rfl, m2, (Runs.append r1 r2).exec, ?_⟩
  · refine v2.trans ?_
    rw [← o1, ← t1]
    exact EqFld.refl _ _

theorem rk4_stages_called (C : Coef R) (t dt : R) (L : List Nat) (o : Fld R)
    (p : Fld R × Fld R) (h0 : EqFld d (m.fld .old) o) (h1 : EqFld d (m.fld .tend) p.1)
    (h2 : EqFld d (m.fld .state) p.2) :
    ∀ x ∈ S.rk4Evals C t dt o L p,
      Called d (rk4Calls d ⟨K, split⟩ S.sw C t dt L) m x := by
  induction L generalizing m p with
  | nil => simp [Sys.rk4Evals]
  | cons i L ih =>
    intro x hx
    simp only [Sys.rk4Evals, List.mem_append] at hx
    rcases hx with hx | hx
    · by_cases hi : i < 3
      · rw [if_pos hi, List.mem_singleton] at hx
        subst hx
        obtain ⟨q, hq, m', he, e⟩ := rk4_stage_called hS C dt hi
        exact Called.left ⟨q, by rw [if_pos hi]; exact hq, m', he, e.trans (h0.axpy _ h1)⟩ _
      · simp [hi] at hx
    · obtain ⟨m1, r1, ag1, o1, v1, w1⟩ := rk4_stage_runs hS C t dt i
      have hl := rk4Stage_local hS.sys C t dt i (p := (m.fld .tend, m.fld .state)) (q := p) h0 h1 h2
      have hc := ih (hS.static ag1)
        (S.rk4Stage C t dt o i p) (o1 ▸ h0) (v1.trans hl.1) (w1.trans hl.2) x hx
      exact hc.right (r1 split).exec _

theorem step_called (stp : Stepper) (t dt : R) (p : Fld R × Fld R)
    (h1 : EqFld d (m.fld .tend) p.1) (h2 : EqFld d (m.fld .state) p.2) :
    ∀ x ∈ S.stepEvals t dt p stp,
      Called d (stepCalls d ⟨K, split⟩ S.sw t dt stp) m x := by
  cases stp with
  | lsrk n => exact lsrk_stages_called hS split _ t dt _ p h1 h2
  | rk4 =>
    intro x hx
    simp only [Sys.stepEvals, List.mem_cons] at hx
    obtain ⟨m3, rc, g3, vo⟩ := rk4_copy_runs d m
    have st3 : m3.fld .state = m.fld .state := fld_congr fun b hb =>
      g3.real b (inState_disj (by decide) hb)
    have tn3 : m3.fld .tend = m.fld .tend := fld_congr fun b hb =>
      g3.real b (inState_disj (by decide) hb)
    rcases hx with rfl | hx
    · exact Called.left (L := [(rk4_copies d, .state)]) ⟨_, List.mem_singleton.2 rfl, m3, rc.exec,
        by rw [st3]; exact h2⟩ _
    · have hS3 := hS.static (g3.mono fun b h => inState_dyn h)
      obtain ⟨m4, r4, g4, v4⟩ := compute_tendency_runs hS3 .replace (tn := .tend) (st := .state)
        (by decide) t
      rw [st3, tn3] at v4
      have st4 : m4.fld .state = m3.fld .state := fld_congr fun b hb =>
        g4.real b (tendSet_disj (by decide) hb)
      have o4 : m4.fld .old = m3.fld .old := fld_congr fun b hb =>
        g4.real b (tendSet_disj (by decide) hb)
      have hS4 := hS3.static (g4.mono fun b h => tendSet_dyn h)
      have hc := rk4_stages_called hS4 split rk4Coef t dt (List.range 4) p.2
        (S.tend .replace t p.1 p.2, p.2) (o4 ▸ (vo.trans h2))
        (v4.trans (tend_local hS.sys h2 .replace t h1)) (by rw [st4, st3]; exact h2) x hx
      exact hc.right (Runs.append rc (r4 split)).exec [_]

theorem run_called (stp : Stepper) (sched : List (R × R)) (p : Fld R × Fld R)
    (h1 : EqFld d (m.fld .tend) p.1) (h2 : EqFld d (m.fld .state) p.2) :
    ∀ x ∈ S.evals stp sched p,
      Called d (runCalls d ⟨K, split⟩ S.sw stp sched) m x := by
  induction sched generalizing m p with
  | nil => simp [Sys.evals]
  | cons q L ih =>
    intro x hx
    simp only [Sys.evals, List.mem_append] at hx
    rcases hx with hx | hx
    · exact (step_called hS split stp q.1 q.2 p h1 h2 x hx).left _
    · obtain ⟨m1, r1, a1, v1, w1⟩ := step_runs hS stp q.1 q.2
      have hl := step_local hS.sys stp q.1 q.2 (p := (m.fld .tend, m.fld .state)) (q := p) ⟨h1, h2⟩
      have hc := ih (hS.static a1) (S.step q.1 q.2 p stp) (v1.trans hl.1)
        (w1.trans hl.2) x hx
      exact hc.right (r1 split).exec _

/-- Every evaluation state of a run of a new stepper is one for which the program calls
`compute_tendency`. -/
theorem newRun_called (stp : Stepper) (sched : List (R × R)) :
    ∀ x ∈ S.evals stp sched (zeroFld, m.fld .state),
      Called d (after (stp.ctor d) (runCalls d ⟨K, split⟩ S.sw stp sched)) m x := by
  intro x hx
  obtain ⟨m1, r1, a1, f1, v1⟩ := ctor_runs d stp m
  have hc := run_called (hS.static a1) split stp sched (zeroFld, m.fld .state) v1
    (by rw [f1]; exact EqFld.refl _ _) x hx
  exact hc.right r1.exec []

end

/-- An invariant of a run of a new stepper; the condition `N` is about the states for which the
program calls `compute_tendency`. -/
theorem Setup.newRun_inv {d : Dims} {K : Kernels R} {S : Sys R} {m m1 : Mem R}
    (hS : Setup d K S m) {N Pt Ps : Fld R → Prop} (h : Guarded S N Pt Ps) {stp : Stepper}
    {sched : List (R × R)} {split : Bool}
    (he : Exec d (stp.ctor d ++ stp.run d ⟨K, split⟩ S.sw sched) m m1)
    (hNl : ∀ x y, EqFld d x y → N x → N y)
    (hN : ∀ st m', CallsAt d ⟨K, split⟩ S.sw stp sched m st m' →
      N (m'.fld st)) (h1 : Pt zeroFld) (h2 : Ps (m.fld .state)) :
    ∃ x, EqFld d (m1.fld .state) x ∧ Ps x := by
  obtain ⟨-, -, v⟩ := hS.newRun he
  refine ⟨_, v, (h.run stp sched (p := (zeroFld, m.fld .state)) h1 h2 fun x hx => ?_).2⟩
  obtain ⟨⟨pre, st⟩, hq, m', hx', e⟩ := newRun_called hS split stp sched x hx
  exact hNl _ _ e (hN st m' ⟨pre, hq, hx'⟩)

end Refine
end Omega
