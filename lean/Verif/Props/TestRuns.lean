import Verif.Refine.TestPrograms
import Verif.Props.Translation
import Verif.Props.Conservation
import Verif.Model.TestCases

/-!
# C65, C66: the test programs and the benchmark as a whole
-/

set_option linter.unusedVariables false
set_option linter.unusedSectionVars false

namespace Omega

noncomputable section

namespace Props

open Prog Model Refine Hex

/-! ### C65: safe, with a result that does not depend on the memory they start in -/

section

variable {R : Type} [Scalar R] {p : MeshParams} {dc : R} {prm : Params R}

/-- the prognostic fields of two memories are the same -/
def SameState (d : Dims) (m m' : Mem R) : Prop :=
  (∀ c k, 0 ≤ c → c < d.ncells → 0 ≤ k → k < d.nlayers →
    m'.real (.h_cell .state) 0 c k = m.real (.h_cell .state) 0 c k) ∧
  (∀ e k, 0 ≤ e → e < d.nedges → 0 ≤ k → k < d.nlayers →
    m'.real (.vn_edge .state) 0 e k = m.real (.vn_edge .state) 0 e k) ∧
  (∀ l c k, 0 ≤ l → l < d.ntracers → 0 ≤ c → c < d.ncells → 0 ≤ k → k < d.nlayers →
    m'.real (.tr_cell .state) l c k = m.real (.tr_cell .state) l c k)

/-- the identity renaming -/
abbrev same : Ren := owned fun a => a

theorem same_e (e : Int) : same.e e = e := by
  show 3 * (e / 3) + e % 3 = e
  omega

theorem fldRel_refl (d : Dims) (x : Fld R) : FldRel Eq same d x x :=
  ⟨fun _ _ _ _ _ _ => rfl, fun e k _ _ _ _ => by rw [same_e], fun _ _ _ _ _ _ _ _ _ => rfl⟩

theorem sameState_of {d : Dims} {m m' : Mem R} {x y : Fld R} (h : EqFld d (m.fld .state) x)
    (h' : EqFld d (m'.fld .state) y) (hxy : FldRel Eq same d x y) : SameState d m m' := by
  refine ⟨fun c k c0 c1 k0 k1 => ?_, fun e k e0 e1 k0 k1 => ?_, fun l c k l0 l1 c0 c1 k0 k1 => ?_⟩
  · exact ((h'.h c k c0 c1 k0 k1).trans (hxy.h c k c0 c1 k0 k1).symm).trans (h.h c k c0 c1 k0 k1).symm
  · have := hxy.vn e k e0 e1 k0 k1
    rw [same_e] at this
    exact ((h'.vn e k e0 e1 k0 k1).trans this.symm).trans (h.vn e k e0 e1 k0 k1).symm
  · exact ((h'.tr l c k l0 l1 c0 c1 k0 k1).trans (hxy.tr l c k l0 l1 c0 c1 k0 k1).symm).trans
      (h.tr l c k l0 l1 c0 c1 k0 k1).symm

/-- two memories with the tables of one mesh, in one model -/
theorem sysRel_same (hv : RunValid p) {m m' : Mem R} (hm : IsHexMesh p dc m) (hm' : IsHexMesh p dc m')
    {f0 : R} (hf : ∀ v, 0 ≤ v → v < p.dims.nvertices → m.real .f_vertex 0 v 0 = f0)
    (hf' : ∀ v, 0 ≤ v → v < p.dims.nvertices → m'.real .f_vertex 0 v 0 = f0) (sw : SWModel R)
    {H H' : HookFn R}
    (h1 : ∀ t c k v, 0 ≤ c → c < p.dims.ncells → 0 ≤ k → k < p.dims.nlayers →
      H.h t c k v = H'.h t c k v)
    (h2 : ∀ t e k v, 0 ≤ e → e < p.dims.nedges → 0 ≤ k → k < p.dims.nlayers →
      H.vn t e k v = H'.vn t e k v) :
    SysRel Eq (fun _ => True) same p.dims (genSys p.dims sw H m) (genSys p.dims sw H' m') where
  sc := scRel_eq
  ren := owned_ok IsSymm.id
  F := .inl ⟨rfl, rfl⟩
  mesh := hexMesh_symm hv.toValid hm hm' IsSymm.id
  ok := (conn_of_hex hv.toValid hm').mesh
  f v h0 h1 := by
    have := owned_v_ok (p := p) IsSymm.id h0 h1
    show m.real .f_vertex 0 _ 0 = m'.real .f_vertex 0 v 0
    rw [hf _ this.1 this.2, hf' v h0 h1]
  grav := rfl
  visc2 := rfl
  visc4 := rfl
  eddy2 := rfl
  eddy4 := rfl
  dis_h := rfl
  dis_vn := rfl
  en_hadv := rfl
  en_pv := rfl
  en_ke := rfl
  en_ssh := rfl
  en_vdiff := rfl
  en_vhyper := rfl
  en_thadv := rfl
  en_tdiff := rfl
  en_thyper := rfl
  hookH t t' c k v v' ht c0 c1 k0 k1 hvv := by subst ht hvv; exact h1 t c k v c0 c1 k0 k1
  hookV t t' e k v v' ht e0 e1 k0 k1 hvv := by
    subst ht hvv; rw [same_e]; exact h2 t e k v e0 e1 k0 k1

theorem run_same {S S' : Sys R} (h : SysRel Eq (fun _ => True) same p.dims S S') (stp : Stepper)
    (sched : List (R × R)) (x y : Fld R) :
    FldRel Eq same p.dims (S.run stp sched (x, y)).2 (S'.run stp sched (x, y)).2 :=
  (run_rel h stp (List.forall₂_same.2 fun _ _ => ⟨rfl, rfl⟩) (p := (x, y)) (q := (x, y))
    ⟨fldRel_refl _ _, fldRel_refl _ _⟩ fun _ _ => ⟨fun _ _ _ _ _ _ => trivial,
      fun _ _ _ _ _ _ _ => trivial⟩).2

/-- reductions that read the same values have the same possible results -/
theorem reduces_same {d : Dims} {n : Int} {body : Int → R → Prog R R} {m m' : Mem R}
    {f : Int → R → R}
    (h : ∀ i a, 0 ≤ i → i < n → Wp d (fun _ => .ro) (body i a) m (fun r m' => r = f i a ∧ m' = m))
    (h' : ∀ i a, 0 ≤ i → i < n →
      Wp d (fun _ => .ro) (body i a) m' (fun r m'' => r = f i a ∧ m'' = m')) (v : R) :
    Reduces d n body m v ↔ Reduces d n body m' v := by
  constructor <;> rintro ⟨T, hT, e⟩ <;> refine ⟨T, hT, ?_⟩
  · rw [eval_eq h T hT.mem] at e; rw [eval_eq h' T hT.mem, e]
  · rw [eval_eq h' T hT.mem] at e; rw [eval_eq h T hT.mem, e]

theorem pair_range {n0 n1 i : Int} (h1 : 0 ≤ n1) (i0 : 0 ≤ i) (i1 : i < n0 * n1) :
    (0 ≤ i / n1 ∧ i / n1 < n0) ∧ 0 ≤ i % n1 ∧ i % n1 < n1 := by
  have hn : 0 < n1 := by
    rcases h1.lt_or_eq with h | h
    · exact h
    · rw [← h, mul_zero] at i1; omega
  exact ⟨⟨Int.ediv_nonneg i0 h1, (Int.ediv_lt_iff_lt_mul hn).2 i1⟩, Int.emod_nonneg _ hn.ne',
    Int.emod_lt_of_pos _ hn⟩

theorem layers_nonneg (hv : RunValid p) : 0 ≤ p.dims.nlayers := by
  have h1 := hv.dims.vec_nonneg
  have h2 := hv.dims.vl_pos
  have h3 := hv.dims.chunks
  first | omega | nlinarith

/-- A tracer test makes no invalid access and has no data race, its final reduction included; it ends
in one state; and that state and the possible values of the error depend neither on what memory
contained before nor on the launch mode. Any arithmetic. -/
theorem C65_tracer_test (hv : RunValid p) (hnt : p.ntracers = 1) (T : TracerTest R) (stp : Stepper)
    (te : R) (sched : List (R × R)) (split : Bool) (m0 : Mem R) :
    Safe p.dims (tracer_run p dc prm ⟨defaultKernels p.dims.vl, split⟩ T stp te sched) m0 ∧
    ∃ m1, Exec p.dims (tracer_run p dc prm ⟨defaultKernels p.dims.vl, split⟩ T stp te sched) m0 m1 ∧
      (∀ m, Exec p.dims (tracer_run p dc prm ⟨defaultKernels p.dims.vl, split⟩ T stp te sched) m0 m →
        m = m1) ∧
      ReduceSafe p.dims (p.dims.ncells * p.dims.nlayers)
        (fun i => tracer_error_body (i / p.dims.nlayers) (i % p.dims.nlayers)) m1 ∧
      ∀ split' m0' m1', Exec p.dims
        (tracer_run p dc prm ⟨defaultKernels p.dims.vl, split'⟩ T stp te sched) m0' m1' →
        SameState p.dims m1 m1' ∧ ∀ v, IsTracerError p m1' v ↔ IsTracerError p m1 v := by
  obtain ⟨m1, r, hm, ⟨hc, hf, -⟩, hex, hst⟩ := tracer_run_runs hv hnt dc prm T stp te sched m0
  refine ⟨(r split).1, m1, (r split).exec, fun m he => ((r split).2 m).1 he, ?_, ?_⟩
  · exact reduceSafe_of fun i a i0 i1 =>
      have q := pair_range (layers_nonneg hv) i0 i1
      wp_tracer_error hnt q.1.1 q.1.2 q.2.1 q.2.2 a
  · intro split' m0' m1' he'
    obtain ⟨m2, r', hm', ⟨hc', hf', -⟩, hex', hst'⟩ := tracer_run_runs hv hnt dc prm T stp te sched m0'
    obtain rfl := ((r' split').2 m1').1 he'
    have hS := sameState_of hst hst' (run_same (sysRel_same hv hm hm' hf hf' (SWModel.ofParams prm)
      (H := noHook) (H' := noHook) (fun _ _ _ _ _ _ _ _ => rfl) (fun _ _ _ _ _ _ _ _ => rfl)) stp
      sched _ _)
    refine ⟨hS, fun v => ?_⟩
    have key : ∀ w, Reduces2 p.dims p.dims.ncells p.dims.nlayers tracer_error_body m1' w ↔
        Reduces2 p.dims p.dims.ncells p.dims.nlayers tracer_error_body m1 w := fun w => by
      refine reduces_same (f := fun i a => a +
        (m1.real (.test .tr_exact_cell) 0 (i / p.dims.nlayers) (i % p.dims.nlayers) -
          m1.real (.tr_cell .state) 0 (i / p.dims.nlayers) (i % p.dims.nlayers)) *
        (m1.real (.test .tr_exact_cell) 0 (i / p.dims.nlayers) (i % p.dims.nlayers) -
          m1.real (.tr_cell .state) 0 (i / p.dims.nlayers) (i % p.dims.nlayers)))
        (fun i a i0 i1 => ?_) (fun i a i0 i1 => ?_) w
      · obtain ⟨⟨q0, q1⟩, q2, q3⟩ := pair_range (layers_nonneg hv) i0 i1
        have := wp_tracer_error (m := m1') (d := p.dims) hnt q0 q1 q2 q3 a
        rwa [hS.2.2 0 _ _ le_rfl (by show (0 : Int) < p.ntracers; omega) q0 q1 q2 q3,
          hex' _ _ q0 q1 q2 q3, ← hex _ _ q0 q1 q2 q3] at this
      · obtain ⟨⟨q0, q1⟩, q2, q3⟩ := pair_range (layers_nonneg hv) i0 i1
        exact wp_tracer_error hnt q0 q1 q2 q3 a
    unfold IsTracerError
    simp only [key]

/-- The same for the nonlinear test with its forcing. -/
theorem C65_nonlinear_test (hv : RunValid p) (sw : SWModel R) (fh fx fy : R → R → R → R)
    (h : R → R → R → R) (vx vy : R → R → R) (stp : Stepper) (te : R) (sched : List (R × R))
    (split : Bool) (m0 : Mem R) :
    Safe p.dims (nonlinear_run p dc (sw.forced p.dims fh fx fy) ⟨defaultKernels p.dims.vl, split⟩
      h vx vy stp te sched) m0 ∧
    ∃ m1, Exec p.dims (nonlinear_run p dc (sw.forced p.dims fh fx fy)
        ⟨defaultKernels p.dims.vl, split⟩ h vx vy stp te sched) m0 m1 ∧
      (∀ m, Exec p.dims (nonlinear_run p dc (sw.forced p.dims fh fx fy)
        ⟨defaultKernels p.dims.vl, split⟩ h vx vy stp te sched) m0 m → m = m1) ∧
      ReduceSafe p.dims (p.dims.ncells * p.dims.nlayers)
        (fun i => nonlinear_error_body (i / p.dims.nlayers) (i % p.dims.nlayers)) m1 ∧
      ∀ split' m0' m1', Exec p.dims (nonlinear_run p dc (sw.forced p.dims fh fx fy)
          ⟨defaultKernels p.dims.vl, split'⟩ h vx vy stp te sched) m0' m1' →
        SameState p.dims m1 m1' ∧ ∀ v, IsNonlinearError p m1' v ↔ IsNonlinearError p m1 v := by
  obtain ⟨m1, r, hm, ⟨hc, hf⟩, hex, hst⟩ := nonlinear_run_runs hv dc sw fh fx fy h vx vy stp te sched m0
  refine ⟨(r split).1, m1, (r split).exec, fun m he => ((r split).2 m).1 he, ?_, ?_⟩
  · exact reduceSafe_of fun i a i0 i1 =>
      have q := pair_range (layers_nonneg hv) i0 i1
      wp_nonlinear_error q.1.1 q.1.2 q.2.1 q.2.2 a
  · intro split' m0' m1' he'
    obtain ⟨m2, r', hm', ⟨hc', hf'⟩, hex', hst'⟩ :=
      nonlinear_run_runs hv dc sw fh fx fy h vx vy stp te sched m0'
    obtain rfl := ((r' split').2 m1').1 he'
    have hS := sameState_of hst hst' (run_same (sysRel_same hv hm hm' hf hf'
      (sw.forced p.dims fh fx fy) (H := forceFn fh fx fy m1) (H' := forceFn fh fx fy m1')
      (fun t c k v c0 c1 _ _ => by
        simp only [forceFn]
        rw [hm.x_cell c ⟨c0, c1⟩, hm.y_cell c ⟨c0, c1⟩, hm'.x_cell c ⟨c0, c1⟩, hm'.y_cell c ⟨c0, c1⟩])
      (fun t e k v e0 e1 _ _ => by
        simp only [forceFn]
        rw [hm.x_edge e e0 e1, hm.y_edge e e0 e1, hm.angle_edge e e0 e1, hm'.x_edge e e0 e1,
          hm'.y_edge e e0 e1, hm'.angle_edge e e0 e1])) stp sched _ _)
    refine ⟨hS, fun v => ?_⟩
    have key : ∀ w, Reduces2 p.dims p.dims.ncells p.dims.nlayers nonlinear_error_body m1' w ↔
        Reduces2 p.dims p.dims.ncells p.dims.nlayers nonlinear_error_body m1 w := fun w => by
      refine reduces_same (f := fun i a => a +
        (m1.real (.test .hexact_cell) 0 (i / p.dims.nlayers) (i % p.dims.nlayers) -
          m1.real (.h_cell .state) 0 (i / p.dims.nlayers) (i % p.dims.nlayers)) *
        (m1.real (.test .hexact_cell) 0 (i / p.dims.nlayers) (i % p.dims.nlayers) -
          m1.real (.h_cell .state) 0 (i / p.dims.nlayers) (i % p.dims.nlayers)))
        (fun i a i0 i1 => ?_) (fun i a i0 i1 => ?_) w
      · obtain ⟨⟨q0, q1⟩, q2, q3⟩ := pair_range (layers_nonneg hv) i0 i1
        have := wp_nonlinear_error (m := m1') (d := p.dims) q0 q1 q2 q3 a
        rwa [hS.1 _ _ q0 q1 q2 q3, hex' _ _ q0 q1 q2 q3, ← hex _ _ q0 q1 q2 q3] at this
      · obtain ⟨⟨q0, q1⟩, q2, q3⟩ := pair_range (layers_nonneg hv) i0 i1
        exact wp_nonlinear_error q0 q1 q2 q3 a
    unfold IsNonlinearError
    simp only [key]

/-- The benchmark. -/
theorem C65_benchmark (hv : RunValid p) (h vx vy : R → R → R) (nsteps : Nat) (dt : R) (split : Bool)
    (m0 : Mem R) :
    Safe p.dims (benchmark_run p dc prm ⟨defaultKernels p.dims.vl, split⟩ h vx vy nsteps dt) m0 ∧
    ∃ m1, Exec p.dims (benchmark_run p dc prm ⟨defaultKernels p.dims.vl, split⟩ h vx vy nsteps dt)
        m0 m1 ∧
      (∀ m, Exec p.dims (benchmark_run p dc prm ⟨defaultKernels p.dims.vl, split⟩ h vx vy nsteps dt)
        m0 m → m = m1) ∧
      ∀ split' m0' m1', Exec p.dims
        (benchmark_run p dc prm ⟨defaultKernels p.dims.vl, split'⟩ h vx vy nsteps dt) m0' m1' →
        SameState p.dims m1 m1' := by
  obtain ⟨m1, r, hr, hst⟩ := benchmark_run_runs hv dc prm h vx vy nsteps dt m0
  refine ⟨(r split).1, m1, (r split).exec, fun m he => ((r split).2 m).1 he, ?_⟩
  intro split' m0' m1' he'
  obtain ⟨m2, r', hr', hst'⟩ := benchmark_run_runs hv dc prm h vx vy nsteps dt m0'
  obtain rfl := ((r' split').2 m1').1 he'
  exact sameState_of hst hst' (run_same (sysRel_same hv (hr.hex hv.toValid).1 (hr'.hex hv.toValid).1
    (hr.hex hv.toValid).2.1 (hr'.hex hv.toValid).2.1 (SWModel.ofParams prm)
    (H := noHook) (H' := noHook) (fun _ _ _ _ _ _ _ _ => rfl) (fun _ _ _ _ _ _ _ _ => rfl)) _ _ _ _)

/-- The double vortex up to the first diagnostics, and its time loop. -/
theorem C65_double_vortex (hv : RunValid p) (h vx vy : R → R → R) (stp : Stepper)
    (sched : List (R × R)) (split : Bool) (m0 : Mem R) :
    Safe p.dims (vortex_init p dc prm h vx vy stp ++
      stp.run p.dims ⟨defaultKernels p.dims.vl, split⟩ (SWModel.ofParams prm) sched) m0 ∧
    ∃ m1 m2, Exec p.dims (vortex_init p dc prm h vx vy stp) m0 m1 ∧
      Exec p.dims (stp.run p.dims ⟨defaultKernels p.dims.vl, split⟩ (SWModel.ofParams prm) sched)
        m1 m2 ∧
      ∀ split' m0' m1' m2', Exec p.dims (vortex_init p dc prm h vx vy stp) m0' m1' →
        Exec p.dims (stp.run p.dims ⟨defaultKernels p.dims.vl, split'⟩ (SWModel.ofParams prm) sched)
          m1' m2' → SameState p.dims m1 m1' ∧ SameState p.dims m2 m2' := by
  have all : ∀ m0 : Mem R, ∃ m1 m2, Runs p.dims (vortex_init p dc prm h vx vy stp) m0 m1 ∧
      (∀ split, Runs p.dims (stp.run p.dims ⟨defaultKernels p.dims.vl, split⟩ (SWModel.ofParams prm)
        sched) m1 m2) ∧ Ready p dc prm m1 ∧
      EqFld p.dims (m1.fld .state) ⟨fun c _ => h (xC p.nx dc c) (yC p.nx dc c),
        fun e _ => vnInit p dc vx vy e, fun _ _ _ => lit 0⟩ ∧
      EqFld p.dims (m2.fld .state) ((genSys p.dims (SWModel.ofParams prm) noHook m1).run stp sched
        (zeroFld, ⟨fun c _ => h (xC p.nx dc c) (yC p.nx dc c),
        fun e _ => vnInit p dc vx vy e, fun _ _ _ => lit 0⟩)).2 := by
    intro m0
    obtain ⟨m1, r1, hr, ht, hs⟩ := vortex_init_runs hv dc prm h vx vy stp m0
    obtain ⟨hd, hc⟩ := ready_ok hv hr
    have hS := genSetup hd hc (hookOK_noHook (noHook_ofParams prm) p.dims m1)
    obtain ⟨m2, r2, -, -, v2⟩ := run_runs hS stp sched
    exact ⟨m1, m2, r1, r2, hr, hs, v2.trans (run_local hS.sys stp sched ⟨ht, hs⟩).2⟩
  obtain ⟨m1, m2, r1, r2, hr, hs, v⟩ := all m0
  refine ⟨(Runs.append r1 (r2 split)).1, m1, m2, r1.exec, (r2 split).exec, ?_⟩
  intro split' m0' m1' m2' he1 he2
  obtain ⟨n1, n2, r1', r2', hr', hs', v'⟩ := all m0'
  obtain rfl := (r1'.2 m1').1 he1
  obtain rfl := ((r2' split').2 m2').1 he2
  refine ⟨sameState_of hs hs' (fldRel_refl _ _), ?_⟩
  exact sameState_of v v' (run_same (sysRel_same hv (hr.hex hv.toValid).1 (hr'.hex hv.toValid).1
    (hr.hex hv.toValid).2.1 (hr'.hex hv.toValid).2.1 (SWModel.ofParams prm)
    (H := noHook) (H' := noHook) (fun _ _ _ _ _ _ _ _ => rfl) (fun _ _ _ _ _ _ _ _ => rfl)) _ _ _ _)

end

/-! ### C66: conservation in the double vortex and in the benchmark -/

section

variable {p : MeshParams} {dc : ℝ} {prm : Params ℝ} {m0 m1 m2 : Mem ℝ}

/-- A run of a stepper whose tendency is zero is a run of a new stepper. -/
theorem run_as_new (hv : RunValid p) {m m1 : Mem ℝ} (hr : Ready p dc prm m)
    (ht : EqFld p.dims (m.fld .tend) zeroFld) {sw : SWModel ℝ} (hn : sw.NoHook) {stp : Stepper}
    {sched : List (ℝ × ℝ)} {split : Bool}
    (he : Exec p.dims (stp.run p.dims ⟨defaultKernels p.dims.vl, split⟩ sw sched) m m1) :
    ∃ m2, Exec p.dims (stp.ctor p.dims ++
        stp.run p.dims ⟨defaultKernels p.dims.vl, split⟩ sw sched) m m2 ∧
      Static m1 m ∧ Static m2 m ∧ EqFld p.dims (m1.fld .state) (m2.fld .state) := by
  obtain ⟨hd, hc⟩ := ready_ok hv hr
  have hS := genSetup hd hc (hookOK_noHook hn p.dims m)
  obtain ⟨n1, r1, a1, -, v1⟩ := run_runs hS stp sched
  obtain rfl := ((r1 split).2 m1).1 he
  obtain ⟨n2, r2, a2, -, v2⟩ := new_run_runs hS stp sched
  have hl := (run_local hS.sys stp sched (p := (m.fld .tend, m.fld .state))
    (q := (zeroFld, m.fld .state)) ⟨ht, EqFld.refl _ _⟩).2
  exact ⟨n2, (r2 split).exec, a1, a2, (v1.trans hl).trans v2.symm⟩

theorem mass_same (hv : RunValid p) {m m' : Mem ℝ} (hr : Ready p dc prm m) (hr' : Ready p dc prm m')
    (h : EqFld p.dims (m.fld .state) (m'.fld .state)) (v : ℝ) :
    IsMassIntegral p.dims .state m v ↔ IsMassIntegral p.dims .state m' v := by
  rw [mass_spec hv.toValid hr, mass_spec hv.toValid hr']
  refine Eq.congr_right (Finset.sum_congr rfl fun k hk => Finset.sum_congr rfl fun c hc => ?_)
  have hk := Finset.mem_Ico.mp hk; have hc := Finset.mem_Ico.mp hc
  have e : Spec.areaC m c = Spec.areaC m' c := by
    unfold Spec.areaC
    rw [(hr.hex hv.toValid).1.area_cell c hc, (hr'.hex hv.toValid).1.area_cell c hc]
  rw [e]
  congr 1
  exact h.h c k hc.1 hc.2 hk.1 hk.2

/-- The checks of `double_vortex.cpp` on mass and circulation are about rounding alone: in exact
arithmetic both relative changes are zero, whatever the mesh size (the default run has an odd number of
rows), the initial velocities, the stepper, the steps and the order of the reductions. The divisors are
not zero. -/
theorem C66_double_vortex (hv : RunValid p) (hx : 2 ≤ p.nx) (hy : 2 ≤ p.ny) (hl : 0 < p.dims.nlayers)
    (hdc : 0 < dc) (hf : prm.f0 ≠ 0) {h vx vy : ℝ → ℝ → ℝ} (hh : ∀ x y, 0 < h x y) {stp : Stepper}
    {sched : List (ℝ × ℝ)} {split : Bool}
    (hi : Exec p.dims (vortex_init p dc prm h vx vy stp) m0 m1)
    (he : Exec p.dims (stp.run p.dims ⟨defaultKernels p.dims.vl, split⟩ (SWModel.ofParams prm) sched)
      m1 m2) {mass cir en : ℝ} (hc : IsVortexChange p.dims prm.grav m1 m2 mass cir en) :
    mass = 0 ∧ cir = 0 ∧ (∀ v, IsMassIntegral p.dims .state m1 v → 0 < v) ∧
      ∀ v, IsCirculationIntegral p.dims .state m1 v → v ≠ 0 := by
  obtain ⟨n1, r1, hr, ht, hs⟩ := vortex_init_runs hv dc prm h vx vy stp m0
  obtain rfl := (r1.2 m1).1 hi
  obtain ⟨m3, he3, a1, a2, e12⟩ := run_as_new hv hr ht (noHook_ofParams prm) he
  obtain ⟨mass0, cir0, en0, massf, cirf, enf, g1, g2, g3, g4, g5, g6, rfl, rfl, rfl⟩ := hc
  have cons := (C17_mass_conserved hv hx hy hdc hr (noHook_ofParams prm) he3).1 mass0 massf g1
    ((mass_same hv (hr.static a1) (hr.static a2) e12 massf).1 g4)
  have c1 := C21_circulation hv hdc hr .state g2
  have c2 := C21_circulation hv hdc (hr.static a1) .state g5
  have geo := Ready.geo hr hv.toValid hdc
  refine ⟨by rw [cons, sub_self, zero_div], by rw [c1, c2, sub_self, zero_div], fun v g => ?_,
    fun v g => ?_⟩
  · rw [(mass_spec hv.toValid hr .state v).1 g]
    refine Finset.sum_pos (fun k hk => Finset.sum_pos (fun c hc => ?_) ?_) ?_
    · have hk := Finset.mem_Ico.mp hk; have hc := Finset.mem_Ico.mp hc
      have ha : 0 < Spec.areaC m1 c := by
        rw [show Spec.areaC m1 c = _ from geo.areaCell c hc]
        have : 0 < √(3 : ℝ) := Real.sqrt_pos.2 (by norm_num)
        positivity
      have : m1.real (.h_cell .state) 0 c k = h (xC p.nx dc c) (yC p.nx dc c) :=
        hs.h c k hc.1 hc.2 hk.1 hk.2
      rw [this]
      exact mul_pos ha (hh _ _)
    · exact ⟨0, Finset.mem_Ico.2 ⟨le_rfl, by show 0 < p.nx * p.ny; nlinarith⟩⟩
    · exact ⟨0, Finset.mem_Ico.2 ⟨le_rfl, hl⟩⟩
  · rw [C21_circulation hv hdc hr .state g]
    have : (0 : ℝ) < p.nx := by exact_mod_cast (by omega : 0 < p.nx)
    have : (0 : ℝ) < p.ny := by exact_mod_cast (by omega : 0 < p.ny)
    have : (0 : ℝ) < p.dims.nlayers := by exact_mod_cast hl
    have : 0 < √(3 : ℝ) := Real.sqrt_pos.2 (by norm_num)
    refine mul_ne_zero (mul_ne_zero hf ?_) ?_ <;> positivity

/-- The vortices never dry the layer, so C66 applies to the run of the test. -/
theorem vortex_h_pos (x y : ℝ) : 0 < DoubleVortex.default.h x y := by
  have e1 : ∀ a b : ℝ, Real.exp (-(1 / 2) * (a * a + b * b)) ≤ 1 := fun a b =>
    Real.exp_le_one_iff.2 (by nlinarith [mul_self_nonneg a, mul_self_nonneg b])
  have pp := Real.pi_pos
  simp only [DoubleVortex.h, DoubleVortex.default]
  have : (0 : ℝ) ≤ 4 * Real.pi * (3 / 40 * 5000000) * (3 / 40 * 5000000) / 5000000 / 5000000 := by
    positivity
  linarith [e1 (5000000 / (Real.pi * (3 / 40 * 5000000)) *
      Real.sin (Real.pi / 5000000 * (x - (1 / 2 - 1 / 10) * 5000000)))
    (5000000 / (Real.pi * (3 / 40 * 5000000)) *
      Real.sin (Real.pi / 5000000 * (y - (1 / 2 - 1 / 10) * 5000000))),
    e1 (5000000 / (Real.pi * (3 / 40 * 5000000)) *
      Real.sin (Real.pi / 5000000 * (x - (1 / 2 + 1 / 10) * 5000000)))
    (5000000 / (Real.pi * (3 / 40 * 5000000)) *
      Real.sin (Real.pi / 5000000 * (y - (1 / 2 + 1 / 10) * 5000000)))]

/-- The benchmark ends with the mass it starts with, and with 1000 times the area of the domain of each
tracer in each layer. -/
theorem C66_benchmark (hv : RunValid p) (hx : 2 ≤ p.nx) (hy : 2 ≤ p.ny) (hdc : 0 < dc)
    {h vx vy : ℝ → ℝ → ℝ} {nsteps : Nat} {dt : ℝ} {split : Bool}
    (he : Exec p.dims (benchmark_run p dc prm ⟨defaultKernels p.dims.vl, split⟩ h vx vy nsteps dt)
      m0 m1) :
    (∀ v, IsMassIntegral p.dims .state m1 v ↔ v = p.dims.nlayers *
      ((dc * dc * √3 / 2) * ∑ c ∈ Spec.cells p.dims, h (xC p.nx dc c) (yC p.nx dc c))) ∧
    ∀ l, 0 ≤ l → l < p.dims.ntracers → ∀ k ∈ Spec.layers p.dims,
      ∑ c ∈ Spec.cells p.dims, Spec.areaC m1 c * m1.real (.tr_cell .state) l c k =
        1000 * ((p.nx * dc) * (p.ny * (dc * √3 / 2))) := by
  obtain ⟨m, r, hr, hst⟩ := benchmark_run_runs hv dc prm h vx vy nsteps dt m0
  obtain rfl := ((r split).2 m1).1 he
  have geo := Ready.geo2 hr hv.toValid hx hy hdc
  have hA : ∀ c ∈ Spec.cells p.dims, Spec.areaC m1 c = dc * dc * √3 / 2 := fun c hc =>
    geo.areaCell c (Finset.mem_Ico.1 hc)
  have key := ((stepRel_sums geo (SWModel.ofParams prm)
    (fun k => ∑ c ∈ Spec.cells p.dims, Spec.areaC m1 c * (benchInit p dc h vx vy).h c k)
    (fun l k => ∑ c ∈ Spec.cells p.dims, Spec.areaC m1 c * (benchInit p dc h vx vy).tr l c k)).run
    (.lsrk (if nsteps = 1 then 1 else 5)) (benchSched nsteps dt)
    (p := (zeroFld, benchInit p dc h vx vy)) (q := (zeroFld, benchInit p dc h vx vy))
    (by simp [zeroFld]) (by simp)).2
  have hl := layers_nonneg hv
  refine ⟨fun v => ?_, fun l l0 l1 k hk => ?_⟩
  · rw [mass_spec hv.toValid hr]
    refine Eq.congr_right ?_
    have : ∀ k ∈ Spec.layers p.dims,
        ∑ c ∈ Spec.cells p.dims, Spec.areaC m1 c * m1.real (.h_cell .state) 0 c k =
        (dc * dc * √3 / 2) * ∑ c ∈ Spec.cells p.dims, h (xC p.nx dc c) (yC p.nx dc c) := by
      intro k hk
      have hk := Finset.mem_Ico.mp hk
      rw [Finset.mul_sum, Finset.sum_congr rfl fun c hc => by
        have hc' := Finset.mem_Ico.mp hc
        rw [show m1.real (.h_cell .state) 0 c k = _ from hst.h c k hc'.1 hc'.2 hk.1 hk.2],
        key.1 k]
      exact Finset.sum_congr rfl fun c hc => by rw [hA c hc]; rfl
    rw [Finset.sum_congr rfl this, Finset.sum_const, nsmul_eq_mul]
    congr 1
    rw [Spec.layers, Int.card_Ico]
    exact_mod_cast (by omega : ((p.dims.nlayers - 0).toNat : Int) = p.dims.nlayers)
  · have hk := Finset.mem_Ico.mp hk
    rw [Finset.sum_congr rfl fun c hc => by
        have hc' := Finset.mem_Ico.mp hc
        rw [show m1.real (.tr_cell .state) l c k = _ from
          hst.tr l c k l0 l1 hc'.1 hc'.2 hk.1 hk.2], key.2 l k]
    rw [Finset.sum_congr rfl fun c hc => by rw [hA c hc]]
    simp only [benchInit, lit_real]
    rw [Finset.sum_const, nsmul_eq_mul, Spec.cells, Int.card_Ico]
    have : (((p.dims.ncells - 0).toNat : ℕ) : ℝ) = p.nx * p.ny := by
      have h0 : 0 ≤ p.nx * p.ny := by nlinarith
      have : (((p.nx * p.ny - 0).toNat : ℕ) : Int) = p.nx * p.ny := by omega
      show (((p.nx * p.ny - 0).toNat : ℕ) : ℝ) = _
      exact_mod_cast this
    rw [this]
    push_cast
    ring

/-- the parameters of the double vortex test, `double_vortex.cpp:86-88` -/
def prmVortex : Params ℝ :=
  { f0 := DoubleVortex.default.coriolis, grav := DoubleVortex.default.g, visc_del2 := 0,
    visc_del4 := 0, eddy_diff2 := 0, eddy_diff4 := 0, disable_h := false, disable_vn := false }

/-- the mesh of the double vortex test: 25 columns, 29 rows -/
def pVortex : MeshParams := ⟨25, 29, 1, 0, 8⟩

theorem pVortex_valid : RunValid pVortex := by
  refine ⟨⟨?_, ?_, ?_, ?_, ?_, ?_⟩, ?_⟩ <;> norm_num [pVortex, MeshParams.dims, ceilDiv]

/-- the test's own run: it happens, has a result, and the result has no change -/
example (m0 : Mem ℝ) (sched : List (ℝ × ℝ)) (split : Bool) : ∃ m1 m2 mass cir en,
    Exec pVortex.dims (vortex_init pVortex 200000 prmVortex DoubleVortex.default.h
      DoubleVortex.default.vx DoubleVortex.default.vy (.lsrk 5)) m0 m1 ∧
    Exec pVortex.dims ((Stepper.lsrk 5).run pVortex.dims ⟨defaultKernels pVortex.dims.vl, split⟩
      (SWModel.ofParams prmVortex) sched) m1 m2 ∧
    IsVortexChange pVortex.dims prmVortex.grav m1 m2 mass cir en ∧ mass = 0 ∧ cir = 0 := by
  obtain ⟨-, m1, m2, e1, e2, -⟩ := C65_double_vortex (dc := (200000 : ℝ)) (prm := prmVortex)
    pVortex_valid DoubleVortex.default.h DoubleVortex.default.vx DoubleVortex.default.vy (.lsrk 5) sched
    split m0
  obtain ⟨n1, r1, hr, ht, -⟩ := vortex_init_runs pVortex_valid (200000 : ℝ) prmVortex
    DoubleVortex.default.h DoubleVortex.default.vx DoubleVortex.default.vy (.lsrk 5) m0
  obtain rfl := (r1.2 m1).1 e1
  obtain ⟨-, -, a1, -, -⟩ := run_as_new pVortex_valid hr ht (noHook_ofParams _) e2
  obtain ⟨⟨v1, h1, -⟩, ⟨v2, h2, -⟩, ⟨v3, h3, -⟩, -⟩ :=
    C41_reduction_order pVortex_valid hr prmVortex.grav .state
  obtain ⟨⟨w1, g1, -⟩, ⟨w2, g2, -⟩, ⟨w3, g3, -⟩, -⟩ :=
    C41_reduction_order pVortex_valid (hr.static a1) prmVortex.grav .state
  have hc : IsVortexChange pVortex.dims prmVortex.grav m1 m2 _ _ _ :=
    ⟨v1, v3, v2, w1, w3, w2, h1, h3, h2, g1, g3, g2, rfl, rfl, rfl⟩
  obtain ⟨z1, z2, -⟩ := C66_double_vortex pVortex_valid (by norm_num [pVortex]) (by norm_num [pVortex])
    (by norm_num [pVortex, MeshParams.dims, ceilDiv]) (by norm_num)
    (by norm_num [prmVortex, DoubleVortex.default]) vortex_h_pos e1 e2 hc
  exact ⟨m1, m2, _, _, _, e1, e2, hc, z1, z2⟩

/-- the benchmark on 5 × 5 cells with 3 layers and 2 tracers, for 10 steps -/
example (m0 : Mem ℝ) : ∃ p : MeshParams, RunValid p ∧ 2 ≤ p.nx ∧ 2 ≤ p.ny ∧ 0 < p.dims.ntracers ∧
    ∃ m1, Exec p.dims (benchmark_run p 1000000 { prmVortex with eddy_diff2 := 1 / 100000 }
      ⟨defaultKernels p.dims.vl, true⟩ DoubleVortex.default.h DoubleVortex.default.vx
      DoubleVortex.default.vy 10 100) m0 m1 := by
  have hv : RunValid ⟨5, 5, 3, 2, 8⟩ := by
    refine ⟨⟨?_, ?_, ?_, ?_, ?_, ?_⟩, ?_⟩ <;> norm_num [MeshParams.dims, ceilDiv]
  obtain ⟨-, m1, h, -⟩ := C65_benchmark (dc := (1000000 : ℝ))
    (prm := { prmVortex with eddy_diff2 := 1 / 100000 }) hv DoubleVortex.default.h
    DoubleVortex.default.vx DoubleVortex.default.vy 10 100 true m0
  exact ⟨_, hv, by norm_num, by norm_num, by norm_num [MeshParams.dims], m1, h⟩

end

end Props
end
end Omega
