import Verif.Props.TestRuns
import Verif.Props.TracerLinear
import Verif.Props.Programs

/-!
# C75: what the result of a tracer test depends on

The tracer tests leave the Coriolis parameter uninitialised; it and the other parameters of the velocity
equation have no influence on the result.
-/

set_option linter.unusedVariables false
set_option linter.unusedSectionVars false

namespace Omega
namespace Props

open Prog Model Refine Hex

variable {R : Type} [Scalar R] {p : MeshParams} {dc : R}

/-- systems with the same tendencies make the same steps -/
theorem run_of_tend {S S' : Sys R} (h : ∀ mode t old s, S.tend mode t old s = S'.tend mode t old s)
    (stp : Stepper) (sched : List (R × R)) (x : Fld R × Fld R) : S.run stp sched x = S'.run stp sched x := by
  have step : ∀ t dt x, S.step t dt x stp = S'.step t dt x stp := fun t dt x => by
    cases stp with
    | lsrk n => simp only [Sys.step, Sys.lsrkStep, Sys.lsrkStage, h]
    | rk4 => simp only [Sys.step, Sys.rk4Step, Sys.rk4Stage, h]
  unfold Sys.run
  simp only [step]

/-- the memory with another Coriolis parameter -/
def withF (m : Mem R) (f0 : R) : Mem R :=
  ⟨m.int, fun b l i k => match b with | .f_vertex => f0 | b => m.real b l i k⟩

theorem withF_real (m : Mem R) (f0 : R) {b : RArr} (h : isMeshR b = true) :
    (withF m f0).real b = m.real b := by
  cases b <;> first | rfl | simp [isMeshR] at h

/-- Two runs of a tracer test, with velocity equation disabled and the same diffusivities, end in the same
state and have the same possible results, whatever the Coriolis parameter, gravity and the viscosities are
in each, whatever memory contained before, and in either launch mode. Any arithmetic. -/
theorem C75_tracer_test_inputs (hv : RunValid p) (hnt : p.ntracers = 1) {prm prm' : Params R}
    (h2 : prm'.eddy_diff2 = prm.eddy_diff2) (h4 : prm'.eddy_diff4 = prm.eddy_diff4)
    (hh : prm'.disable_h = prm.disable_h) (hd : prm.disable_vn = true) (hd' : prm'.disable_vn = true)
    (T : TracerTest R) (stp : Stepper) (te : R) (sched : List (R × R)) {split split' : Bool}
    {m0 m0' m1 m1' : Mem R}
    (he : Exec p.dims (tracer_run p dc prm ⟨defaultKernels p.dims.vl, split⟩ T stp te sched) m0 m1)
    (he' : Exec p.dims (tracer_run p dc prm' ⟨defaultKernels p.dims.vl, split'⟩ T stp te sched) m0' m1') :
    SameState p.dims m1 m1' ∧ ∀ v, IsTracerError p m1' v ↔ IsTracerError p m1 v := by
  obtain ⟨m, r, hm, ⟨hc, hf, -⟩, hex, hst⟩ := tracer_run_runs hv hnt dc prm T stp te sched m0
  obtain rfl := ((r split).2 m1).1 he
  obtain ⟨m', r', hm', ⟨hc', hf', -⟩, hex', hst'⟩ := tracer_run_runs hv hnt dc prm' T stp te sched m0'
  obtain rfl := ((r' split').2 m1').1 he'
  have hmF : IsHexMesh p dc (withF m1' prm.f0) := hm'.agree rfl fun b hb => withF_real _ _ hb
  have hM : (withF m1' prm.f0).mesh = m1'.mesh := mesh_congr rfl fun b hb => withF_real _ _ hb
  have ht : ∀ mode t old s, (genSys p.dims (SWModel.ofParams prm') noHook m1').tend mode t old s =
      (genSys p.dims (SWModel.ofParams prm) noHook (withF m1' prm.f0)).tend mode t old s := fun mode t old s => by
    unfold Sys.tend genSys
    rw [hM]
    simp only [SWModel.ofParams, hd, hd', hh, if_true]
    congr 1
    funext l c k
    simp only [Sys.termsTr, Sys.ntrC, Sys.t2C, Sys.flux, h2, h4]
  have hS : SameState p.dims m1 m1' := by
    rw [run_of_tend ht] at hst'
    exact sameState_of hst hst' (run_same (sysRel_same hv hm hmF hf (fun _ _ _ => rfl) (SWModel.ofParams prm)
      (H := noHook) (H' := noHook) (fun _ _ _ _ _ _ _ _ => rfl) (fun _ _ _ _ _ _ _ _ => rfl)) stp sched _ _)
  refine ⟨hS, fun v => ?_⟩
  have key : ∀ w, Reduces2 p.dims p.dims.ncells p.dims.nlayers tracer_error_body m1' w ↔
      Reduces2 p.dims p.dims.ncells p.dims.nlayers tracer_error_body m1 w := fun w => by
    refine reduces_same (f := fun i a => a +
      (m1.real (.test .tr_exact_cell) 0 (i / p.dims.nlayers) (i % p.dims.nlayers) -
        m1.real (.tr_cell .state) 0 (i / p.dims.nlayers) (i % p.dims.nlayers)) *
      (m1.real (.test .tr_exact_cell) 0 (i / p.dims.nlayers) (i % p.dims.nlayers) -
        m1.real (.tr_cell .state) 0 (i / p.dims.nlayers) (i % p.dims.nlayers)))
      (fun i a i0 i1 => ?_) (fun i a i0 i1 => ?_) w
    · obtain ⟨⟨q0, q1⟩, q2, q3⟩ := pair_range (layers_nonneg hv) i0 i1
      have := wp_tracer_error (m := m1') (d := p.dims) hnt q0 q1 q2 q3 a
      rwa [hS.2.2 0 _ _ le_rfl (by show (0 : Int) < p.ntracers; omega) q0 q1 q2 q3,
        hex' _ _ q0 q1 q2 q3, ← hex _ _ q0 q1 q2 q3] at this
    · obtain ⟨⟨q0, q1⟩, q2, q3⟩ := pair_range (layers_nonneg hv) i0 i1
      exact wp_tracer_error hnt q0 q1 q2 q3 a
  unfold IsTracerError
  simp only [key]

/-- a mesh of 4 × 6 cells with three layers and one tracer -/
def p461 : MeshParams := ⟨4, 6, 3, 1, 2⟩
theorem p461_run : RunValid p461 := by
  have hl : p461.dims.nlayers = p46.dims.nlayers := rfl
  exact ⟨by constructor <;> simp [p461], by rw [hl, p46_layers]; norm_num⟩

/-- two runs on a mesh of 4 × 6 cells in the arithmetic with NaN: one with Coriolis parameter 1e-4, the
other with NaN -/
example : ∃ (prm prm' : Params (Option ℝ)) (m0 m1 m1' : Mem (Option ℝ)) (T : TracerTest (Option ℝ)),
    RunValid p461 ∧ p461.ntracers = 1 ∧ prm.f0 = some (1 / 10000) ∧ prm'.f0 = none ∧
    prm'.eddy_diff2 = prm.eddy_diff2 ∧
    prm'.eddy_diff4 = prm.eddy_diff4 ∧ prm'.disable_h = prm.disable_h ∧ prm.disable_vn = true ∧
    prm'.disable_vn = true ∧
    Exec p461.dims (tracer_run p461 (some 1) prm ⟨defaultKernels p461.dims.vl, true⟩ T (.lsrk 5) (some 1)
      [(some 0, some 1)]) m0 m1 ∧
    Exec p461.dims (tracer_run p461 (some 1) prm' ⟨defaultKernels p461.dims.vl, false⟩ T (.lsrk 5) (some 1)
      [(some 0, some 1)]) m0 m1' := by
  have hv := p461_run
  let T : TracerTest (Option ℝ) := ⟨fun x _ _ => some 2, fun x _ _ => x, fun _ _ _ => some 1, fun _ _ _ => some 1⟩
  let m0 : Mem (Option ℝ) := ⟨fun _ _ _ => 0, fun _ _ _ _ => none⟩
  obtain ⟨m1, r, -⟩ := tracer_run_runs hv rfl (some 1)
    ⟨some (1 / 10000), some 9, some 0, some 0, some 0, some 0, true, true⟩ T (.lsrk 5) (some 1) [(some 0, some 1)] m0
  obtain ⟨m1', r', -⟩ := tracer_run_runs hv rfl (some 1)
    ⟨none, some 9, some 0, some 0, some 0, some 0, true, true⟩ T (.lsrk 5) (some 1) [(some 0, some 1)] m0
  exact ⟨⟨some (1 / 10000), some 9, some 0, some 0, some 0, some 0, true, true⟩,
    ⟨none, some 9, some 0, some 0, some 0, some 0, true, true⟩, m0, m1, m1', T, hv, rfl, rfl, rfl, rfl, rfl, rfl, rfl, rfl, (r true).exec, (r' false).exec⟩

end Props
end Omega
