import Verif.Refine.Guarded

/-!
# The states for which a run calls `compute_tendency` are the evaluation states

`Refine/Guarded.lean` shows that every evaluation state of the functional run is one for which the
program calls `compute_tendency`.  Here is the converse: there are no other calls.
-/

set_option linter.unusedSectionVars false
set_option linter.unusedVariables false

namespace Omega
namespace Refine

open Prog Model

variable {R : Type} [Scalar R]

/-- every call in the list, reached from `m`, is for a state in `E` -/
def CallsIn (d : Dims) (L : List (List (Cmd R) × StateId)) (m : Mem R) (E : List (Fld R)) : Prop :=
  ∀ q ∈ L, ∀ m', Exec d q.1 m m' → ∃ x ∈ E, EqFld d (m'.fld q.2) x

theorem CallsIn.append {d : Dims} {L L' : List (List (Cmd R) × StateId)} {m : Mem R} {E E' : List (Fld R)}
    (h : CallsIn d L m E) (h' : CallsIn d L' m E') : CallsIn d (L ++ L') m (E ++ E') := fun q hq m' he => by
  rcases List.mem_append.1 hq with hq | hq
  · obtain ⟨x, hx, e⟩ := h q hq m' he
    exact ⟨x, List.mem_append_left _ hx, e⟩
  · obtain ⟨x, hx, e⟩ := h' q hq m' he
    exact ⟨x, List.mem_append_right _ hx, e⟩

theorem CallsIn.after {d : Dims} {L : List (List (Cmd R) × StateId)} {m m1 : Mem R} {E : List (Fld R)}
    {A : List (Cmd R)} (hr : Runs d A m m1) (h : CallsIn d L m1 E) : CallsIn d (after A L) m E := by
  intro q hq m' he
  simp only [Refine.after, List.mem_map] at hq
  obtain ⟨q', hq', rfl⟩ := hq
  obtain ⟨m2, e1, e2⟩ := exec_append.1 he
  obtain rfl := (hr.2 m2).1 e1
  exact h q' hq' m' e2

theorem CallsIn.one {d : Dims} {A : List (Cmd R)} {st : StateId} {m m1 : Mem R} {x : Fld R}
    (hr : Runs d A m m1) (h : EqFld d (m1.fld st) x) : CallsIn d [(A, st)] m [x] := by
  intro q hq m' he
  rw [List.mem_singleton] at hq
  subst hq
  obtain rfl := (hr.2 m').1 he
  exact ⟨x, List.mem_singleton.2 rfl, h⟩

section

variable {d : Dims} {K : Kernels R} {S : Sys R} {m : Mem R} (hS : Setup d K S m) (split : Bool)
include hS

theorem lsrk_stages_in (C : Coef R) (t dt : R) (L : List Nat)
    (p : Fld R × Fld R) (h1 : EqFld d (m.fld .tend) p.1) (h2 : EqFld d (m.fld .state) p.2) :
    CallsIn d (lsrkCalls d ⟨K, split⟩ S.sw C t dt L) m (S.lsrkEvals C t dt L p) := by
  induction L generalizing m p with
  | nil => simp [lsrkCalls, CallsIn]
  | cons i L ih =>
    obtain ⟨m1, r1, ag1, v1⟩ := state3_runs (m := m) (s := .tend)
      (g1 := fun _ _ _ _ v => v * C.a i) (g2 := fun _ _ _ _ v => v * C.a i)
      (g3 := fun _ _ _ _ v => v * C.a i)
      (fun m => map2_runs (n := d.ncells) rfl (fun v => v * C.a i))
      (fun m => map2_runs (n := d.nedges) rfl (fun v => v * C.a i))
      (fun m => map3_runs rfl (fun v => v * C.a i)) (fun _ _ => rfl) (fun _ _ => rfl)
    have f1 : m1.fld .state = m.fld .state := fld_congr fun b hb =>
      ag1.real b (inState_disj (by decide) hb)
    obtain ⟨m2, r2, ag2, v2, w2⟩ := lsrk_stage_runs hS C t dt i
    have hl := lsrkStage_local hS.sys C t dt i (p := (m.fld .tend, m.fld .state)) (q := p) h1 h2
    have hc := ih (hS.static (ag2.mono fun _ h => lsrkSet_dyn h))
      (S.lsrkStage C t dt i p) (v2.trans hl.1) (w2.trans hl.2)
    exact (CallsIn.one (A := lsrk_scale d C i) r1 (by rw [f1]; exact h2)).append (hc.after (r2 split))

theorem rk4_put_runs (C : Coef R) (dt : R) (stage : Nat) :
    ∃ m', Runs d (rk4_put d C dt stage) m m' ∧
      EqFld d (m'.fld .provis) ((m.fld .old).axpy (dt * C.a stage) (m.fld .tend)) := by
  obtain ⟨m1, r1, ag1, v1⟩ := state3_runs (m := m) (s := .state)
    (g1 := fun m l i k v => v + dt * C.b stage * m.real (.h_cell .tend) l i k)
    (g2 := fun m l i k v => v + dt * C.b stage * m.real (.vn_edge .tend) l i k)
    (g3 := fun m l i k v => v + dt * C.b stage * m.real (.tr_cell .tend) l i k)
    (fun m => zip2_runs (n := d.ncells) rfl rfl (by simp) (fun v w => v + dt * C.b stage * w))
    (fun m => zip2_runs (n := d.nedges) rfl rfl (by simp) (fun v w => v + dt * C.b stage * w))
    (fun m => zip3_runs rfl rfl (by simp) (fun v w => v + dt * C.b stage * w))
    (fun m' h => by rw [h.real (.vn_edge .tend) (by decide)])
    (fun m' h => by rw [h.real (.tr_cell .tend) (by decide)])
  have t1 : m1.fld .tend = m.fld .tend := fld_congr fun b hb =>
    ag1.real b (inState_disj (by decide) hb)
  have o1 : m1.fld .old = m.fld .old := fld_congr fun b hb =>
    ag1.real b (inState_disj (by decide) hb)
  obtain ⟨m2, r2, ag2, v2⟩ := state3_runs (m := m1) (s := .provis)
      (g1 := fun m l i k _ => m.real (.h_cell .old) l i k +
        dt * C.a stage * m.real (.h_cell .tend) l i k)
      (g2 := fun m l i k _ => m.real (.vn_edge .old) l i k +
        dt * C.a stage * m.real (.vn_edge .tend) l i k)
      (g3 := fun m l i k _ => m.real (.tr_cell .old) l i k +
        dt * C.a stage * m.real (.tr_cell .tend) l i k)
      (fun m => put2_runs (n := d.ncells) rfl rfl rfl (by simp) (by simp)
        (fun v w => v + dt * C.a stage * w))
      (fun m => put2_runs (n := d.nedges) rfl rfl rfl (by simp) (by simp)
        (fun v w => v + dt * C.a stage * w))
      (fun m => put3_runs rfl rfl rfl (by simp) (by simp) (fun v w => v + dt * C.a stage * w))
      (fun m' h => by rw [h.real (.vn_edge .tend) (by decide), h.real (.vn_edge .old) (by decide)])
      (fun m' h => by rw [h.real (.tr_cell .tend) (by decide), h.real (.tr_cell .old) (by decide)])
  refine ⟨m2, Runs.append r1 r2, ?_⟩
  · refine v2.trans ?_
    rw [← o1, ← t1]
    exact EqFld.refl _ _

theorem rk4_stages_in (C : Coef R) (t dt : R) (L : List Nat) (o : Fld R)
    (p : Fld R × Fld R) (h0 : EqFld d (m.fld .old) o) (h1 : EqFld d (m.fld .tend) p.1)
    (h2 : EqFld d (m.fld .state) p.2) :
    CallsIn d (rk4Calls d ⟨K, split⟩ S.sw C t dt L) m (S.rk4Evals C t dt o L p) := by
  induction L generalizing m p with
  | nil => simp [rk4Calls, CallsIn]
  | cons i L ih =>
    obtain ⟨m1, r1, ag1, o1, v1, w1⟩ := rk4_stage_runs hS C t dt i
    have hl := rk4Stage_local hS.sys C t dt i (p := (m.fld .tend, m.fld .state)) (q := p) h0 h1 h2
    have hc := ih (hS.static ag1)
      (S.rk4Stage C t dt o i p) (o1 ▸ h0) (v1.trans hl.1) (w1.trans hl.2)
    refine CallsIn.append ?_ (hc.after (r1 split))
    by_cases hi : i < 3
    · rw [if_pos hi, if_pos hi]
      obtain ⟨m2, r2, e2⟩ := rk4_put_runs hS C dt i
      exact CallsIn.one r2 (e2.trans (h0.axpy _ h1))
    · rw [if_neg hi, if_neg hi]
      simp [CallsIn]

theorem step_in (stp : Stepper) (t dt : R) (p : Fld R × Fld R)
    (h1 : EqFld d (m.fld .tend) p.1) (h2 : EqFld d (m.fld .state) p.2) :
    CallsIn d (stepCalls d ⟨K, split⟩ S.sw t dt stp) m (S.stepEvals t dt p stp) := by
  cases stp with
  | lsrk n => exact lsrk_stages_in hS split _ t dt _ p h1 h2
  | rk4 =>
    obtain ⟨m3, rc, g3, vo⟩ := rk4_copy_runs d m
    have st3 : m3.fld .state = m.fld .state := fld_congr fun b hb =>
      g3.real b (inState_disj (by decide) hb)
    have tn3 : m3.fld .tend = m.fld .tend := fld_congr fun b hb =>
      g3.real b (inState_disj (by decide) hb)
    have hS3 := hS.static (g3.mono fun b h => inState_dyn h)
    obtain ⟨m4, r4, g4, v4⟩ := compute_tendency_runs hS3 .replace (tn := .tend) (st := .state)
      (by decide) t
    rw [st3, tn3] at v4
    have st4 : m4.fld .state = m3.fld .state := fld_congr fun b hb =>
      g4.real b (tendSet_disj (by decide) hb)
    have o4 : m4.fld .old = m3.fld .old := fld_congr fun b hb =>
      g4.real b (tendSet_disj (by decide) hb)
    have hS4 := hS3.static (g4.mono fun b h => tendSet_dyn h)
    have hc := rk4_stages_in hS4 split rk4Coef t dt (List.range 4) p.2
      (S.tend .replace t p.1 p.2, p.2) (o4 ▸ (vo.trans h2))
      (v4.trans (tend_local hS.sys h2 .replace t h1)) (by rw [st4, st3]; exact h2)
    exact (CallsIn.one (A := rk4_copies d) rc (by rw [st3]; exact h2)).append
      (hc.after (Runs.append rc (r4 split)))

theorem run_in (stp : Stepper) (sched : List (R × R)) (p : Fld R × Fld R)
    (h1 : EqFld d (m.fld .tend) p.1) (h2 : EqFld d (m.fld .state) p.2) :
    CallsIn d (runCalls d ⟨K, split⟩ S.sw stp sched) m (S.evals stp sched p) := by
  induction sched generalizing m p with
  | nil => simp [runCalls, CallsIn]
  | cons q L ih =>
    obtain ⟨m1, r1, a1, v1, w1⟩ := step_runs hS stp q.1 q.2
    have hl := step_local hS.sys stp q.1 q.2 (p := (m.fld .tend, m.fld .state)) (q := p) ⟨h1, h2⟩
    exact (step_in hS split stp q.1 q.2 p h1 h2).append
      ((ih (hS.static a1) (S.step q.1 q.2 p stp) (v1.trans hl.1) (w1.trans hl.2)).after (r1 split))

/-- Every state for which a run of a new stepper calls `compute_tendency` is an evaluation state of the
functional run. -/
theorem CallsAt.eval {stp : Stepper} {sched : List (R × R)} {st : StateId} {m' : Mem R}
    (h : CallsAt d ⟨K, split⟩ S.sw stp sched m st m') :
    ∃ x ∈ S.evals stp sched (zeroFld, m.fld .state), EqFld d (m'.fld st) x := by
  obtain ⟨pre, hp, he⟩ := h
  obtain ⟨m1, r1, a1, f1, v1⟩ := ctor_runs d stp m
  exact (run_in (hS.static a1) split stp sched (zeroFld, m.fld .state) v1
    (by rw [f1]; exact EqFld.refl _ _)).after r1 (pre, st) hp m' he

/-- The states for which a run calls `compute_tendency` satisfy `N` exactly if the evaluation states
do. -/
theorem calls_iff {N : Fld R → Prop} (hN : ∀ x y, EqFld d x y → N x → N y) (stp : Stepper)
    (sched : List (R × R)) :
    (∀ st m', CallsAt d ⟨K, split⟩ S.sw stp sched m st m' → N (m'.fld st)) ↔
      ∀ x ∈ S.evals stp sched (zeroFld, m.fld .state), N x := by
  constructor
  · intro h x hx
    obtain ⟨⟨pre, st⟩, hq, m', hx', e⟩ := newRun_called hS split stp sched x hx
    exact hN _ _ e (h st m' ⟨pre, hq, hx'⟩)
  · intro h st m' hc
    obtain ⟨x, hx, e⟩ := hc.eval hS
    exact hN _ _ e.symm (h x hx)

end

end Refine
end Omega
