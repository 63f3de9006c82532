import Verif.Refine.Invariant
import Mathlib.Tactic.NormNum

/-!
# C29, C31, C32, C40, C44: statements that hold bit for bit in any arithmetic

`d` are the array sizes, `m` a memory with valid connectivity tables (`ConnOK`), `sw` a model with any
parameters and any enabled terms and the default `additional_tendency`.  `Exec d cmds m m'` says that
some interleaving of all threads of all launches of `cmds` leads from `m` to `m'`.
-/

set_option linter.unusedVariables false
set_option linter.unusedSectionVars false

namespace Omega
namespace Props

open Prog Model Refine

variable {R : Type} [Scalar R]

/-- a memory with the contents of one state replaced -/
def setFld (m : Mem R) (s : StateId) (x : Fld R) : Mem R :=
  ⟨m.int, fun a l i k =>
    if a = .h_cell s then x.h i k else if a = .vn_edge s then x.vn i k
    else if a = .tr_cell s then x.tr l i k else m.real a l i k⟩

theorem setFld_fld (m : Mem R) (s : StateId) (x : Fld R) : (setFld m s x).fld s = x := by
  simp [setFld, Mem.fld]

theorem setFld_agree (m : Mem R) (s : StateId) (x : Fld R) : Agree (inState s) (setFld m s x) m := by
  refine ⟨rfl, fun b hb => ?_⟩
  funext l i k
  simp only [setFld]
  rw [if_neg, if_neg, if_neg]
  all_goals rintro rfl; simp [inState] at hb

theorem setFld_static (m : Mem R) (s : StateId) (x : Fld R) : Static (setFld m s x) m :=
  (setFld_agree m s x).mono fun _ h => inState_dyn h

theorem p46_layers : p46.dims.nlayers = 4 := by
  have : ⌈(3 : ℚ) / 2⌉ = 2 := by rw [Int.ceil_eq_iff]; norm_num
  simp [MeshParams.dims, p46, ceilDiv, this]

theorem p46_run : RunValid p46 := ⟨p46_valid, by rw [p46_layers]; norm_num⟩

/-- The common hypotheses of this file are met on a built mesh. -/
theorem ready_ok {p : MeshParams} (hv : RunValid p) {dc : R} {prm : Params R} {m : Mem R}
    (h : Ready p dc prm m) : DimsOK p.dims ∧ ConnOK p.dims m :=
  ⟨hv.dims, conn_of_hex hv.toValid (h.hex hv.toValid).1⟩

example (dc : R) (prm : Params R) (x y : Fld R) :
    ∃ m : Mem R, DimsOK p46.dims ∧ ConnOK p46.dims m ∧ (SWModel.ofParams prm).NoHook ∧
      m.fld .state = x ∧ m.fld .tend = y := by
  obtain ⟨m, h, h1, h2⟩ := exists_ready p46_valid dc prm x y
  exact ⟨m, (ready_ok p46_run h).1, (ready_ok p46_run h).2, noHook_ofParams prm, h1, h2⟩

/-! ### C40 -/

/-- `compute_tendency` and any sequence of steps of a new or used stepper reach no undefined behaviour
and no data race under any interleaving, can run to completion, and have exactly one possible result. -/
theorem C40_safe_deterministic {d : Dims} {m : Mem R} (hd : DimsOK d) (hc : ConnOK d m)
    {sw : SWModel R} (hn : sw.NoHook) (split : Bool) :
    (∀ mode tn st t, st ≠ tn →
      Safe d (compute_tendency d ⟨defaultKernels d.vl, split⟩ sw mode tn st t) m ∧
      ∃! m', Exec d (compute_tendency d ⟨defaultKernels d.vl, split⟩ sw mode tn st t) m m') ∧
    (∀ (stp : Stepper) sched,
      Safe d (stp.run d ⟨defaultKernels d.vl, split⟩ sw sched) m ∧
      ∃! m', Exec d (stp.run d ⟨defaultKernels d.vl, split⟩ sw sched) m m') ∧
    (∀ (stp : Stepper) sched,
      Safe d (stp.ctor d ++ stp.run d ⟨defaultKernels d.vl, split⟩ sw sched) m ∧
      ∃! m', Exec d (stp.ctor d ++ stp.run d ⟨defaultKernels d.vl, split⟩ sw sched) m m') := by
  have hS := genSetup hd hc (hookOK_noHook hn d m)
  have key : ∀ {cs : List (Cmd R)} {m' : Mem R}, Runs d cs m m' → Safe d cs m ∧
      ∃! m', Exec d cs m m' := fun {cs m'} h =>
    ⟨h.1, m', (h.2 m').2 rfl, fun y hy => (h.2 y).1 hy⟩
  refine ⟨fun mode tn st t hne => ?_, fun stp sched => ?_, fun stp sched => ?_⟩
  · obtain ⟨m', r, -⟩ := compute_tendency_runs hS mode hne t
    exact key (r split)
  · obtain ⟨m', r, -⟩ := run_runs hS stp sched
    exact key (r split)
  · obtain ⟨m', r, -⟩ := new_run_runs hS stp sched
    exact key (r split)

/-- The same with user forcing of the form used by the convergence test. -/
theorem C40_safe_deterministic_forced {d : Dims} {m : Mem R} (hd : DimsOK d) (hc : ConnOK d m)
    (sw : SWModel R) (fh fx fy : R → R → R → R) (split : Bool) (stp : Stepper)
    (sched : List (R × R)) :
    Safe d (stp.ctor d ++ stp.run d ⟨defaultKernels d.vl, split⟩ (sw.forced d fh fx fy) sched) m ∧
    ∃! m', Exec d
      (stp.ctor d ++ stp.run d ⟨defaultKernels d.vl, split⟩ (sw.forced d fh fx fy) sched) m m' := by
  have hS := genSetup hd hc (hookOK_forced d sw fh fx fy m)
  obtain ⟨m', r, -⟩ := new_run_runs hS stp sched
  exact ⟨(r split).1, m', ((r split).2 m').2 rfl, fun y hy => ((r split).2 y).1 hy⟩

/-! ### C29 -/

/-- The build with one launch per term and the build with fused launches end in the same memory, for
one tendency and for any run. -/
theorem C29_split_eq_fused {d : Dims} {m : Mem R} (hd : DimsOK d) (hc : ConnOK d m)
    {sw : SWModel R} (hn : sw.NoHook) :
    (∀ mode tn st t m1 m2, st ≠ tn →
      Exec d (compute_tendency d ⟨defaultKernels d.vl, true⟩ sw mode tn st t) m m1 →
      Exec d (compute_tendency d ⟨defaultKernels d.vl, false⟩ sw mode tn st t) m m2 → m1 = m2) ∧
    (∀ (stp : Stepper) sched m1 m2,
      Exec d (stp.run d ⟨defaultKernels d.vl, true⟩ sw sched) m m1 →
      Exec d (stp.run d ⟨defaultKernels d.vl, false⟩ sw sched) m m2 → m1 = m2) := by
  have hS := genSetup hd hc (hookOK_noHook hn d m)
  refine ⟨fun mode tn st t m1 m2 hne h1 h2 => ?_, fun stp sched m1 m2 h1 h2 => ?_⟩
  · obtain ⟨m', r, -⟩ := compute_tendency_runs hS mode hne t
    rw [((r true).2 m1).1 h1, ((r false).2 m2).1 h2]
  · obtain ⟨m', r, -⟩ := run_runs hS stp sched
    rw [((r true).2 m1).1 h1, ((r false).2 m2).1 h2]

/-! ### C44 -/

/-- `compute_tendency` changes nothing but the tendency it was asked for and the work arrays: no
table, no mesh array, no Coriolis array and no other state.  A step changes no table, mesh or
Coriolis array. -/
theorem C44_frame {d : Dims} {m : Mem R} (hd : DimsOK d) (hc : ConnOK d m)
    {sw : SWModel R} (hn : sw.NoHook) (split : Bool) :
    (∀ mode tn st t m', st ≠ tn →
      Exec d (compute_tendency d ⟨defaultKernels d.vl, split⟩ sw mode tn st t) m m' →
      m'.int = m.int ∧ (∀ b, isAux b = false → inState tn b = false → m'.real b = m.real b) ∧
      m'.fld st = m.fld st) ∧
    (∀ nstages sched m',
      Exec d ((Stepper.lsrk nstages).run d ⟨defaultKernels d.vl, split⟩ sw sched) m m' →
      m'.int = m.int ∧ ∀ b, isAux b = false → isState b = false → m'.real b = m.real b) ∧
    (∀ sched m', Exec d (Stepper.rk4.run d ⟨defaultKernels d.vl, split⟩ sw sched) m m' →
      m'.int = m.int ∧ ∀ b, isAux b = false → isState b = false → m'.real b = m.real b) := by
  have hS := genSetup hd hc (hookOK_noHook hn d m)
  refine ⟨fun mode tn st t m' hne he => ?_, fun n sched m' he => ?_, fun sched m' he => ?_⟩
  · obtain ⟨a, -⟩ := hS.tendency hne he
    refine ⟨a.int, fun b h1 h2 => a.real b (by simp [tendSet, h1, h2]), ?_⟩
    exact fld_congr fun b hb => a.real b (tendSet_disj (Ne.symm hne) hb)
  · obtain ⟨a, -⟩ := hS.run he
    exact ⟨a.int, fun b h1 h2 => a.real b (by simp [isDyn, h1, h2])⟩
  · obtain ⟨a, -⟩ := hS.run he
    exact ⟨a.int, fun b h1 h2 => a.real b (by simp [isDyn, h1, h2])⟩

/-! ### C31 -/

/-- Two states agree at layer `k`. -/
structure SameLayer (d : Dims) (k : Int) (x y : Fld R) : Prop where
  h : ∀ c, 0 ≤ c → c < d.ncells → x.h c k = y.h c k
  vn : ∀ e, 0 ≤ e → e < d.nedges → x.vn e k = y.vn e k
  tr : ∀ l c, 0 ≤ l → l < d.ntracers → 0 ≤ c → c < d.ncells → x.tr l c k = y.tr l c k

/-- layer `k` copied to all layers -/
def spread (k : Int) (x : Fld R) : Fld R :=
  ⟨fun c _ => x.h c k, fun e _ => x.vn e k, fun l c _ => x.tr l c k⟩

theorem SameLayer.spread {d : Dims} {k : Int} {x y : Fld R} (h : SameLayer d k x y) :
    EqFld d (spread k x) (spread k y) :=
  ⟨fun c _ g0 g1 _ _ => h.h c g0 g1, fun e _ g0 g1 _ _ => h.vn e g0 g1,
    fun l c _ l0 l1 g0 g1 _ _ => h.tr l c l0 l1 g0 g1⟩

theorem SameLayer.of_eqFld {d : Dims} {k : Int} (h0 : 0 ≤ k) (h1 : k < d.nlayers) {x y : Fld R}
    (h : EqFld d x y) : SameLayer d k x y :=
  ⟨fun c g0 g1 => h.h c k g0 g1 h0 h1, fun e g0 g1 => h.vn e k g0 g1 h0 h1,
    fun l c l0 l1 g0 g1 => h.tr l c k l0 l1 g0 g1 h0 h1⟩

theorem SameLayer.trans {d : Dims} {k : Int} {x y z : Fld R} (h : SameLayer d k x y)
    (h' : SameLayer d k y z) : SameLayer d k x z :=
  ⟨fun c g0 g1 => (h.h c g0 g1).trans (h'.h c g0 g1),
    fun c g0 g1 => (h.vn c g0 g1).trans (h'.vn c g0 g1),
    fun l c l0 l1 g0 g1 => (h.tr l c l0 l1 g0 g1).trans (h'.tr l c l0 l1 g0 g1)⟩

theorem layer_rel {d : Dims} {S : Sys R} (hS : SysOK d S) (hF : S.F = scalarF) {k : Int}
    (h0 : 0 ≤ k) (h1 : k < d.nlayers) : StepRel S S (SameLayer d k) (SameLayer d k) where
  tend := by
    intro mode t o o' s s' ho hs
    have h := SameLayer.of_eqFld h0 h1 (tend_local hS hs.spread mode t ho.spread)
    obtain ⟨F, vl, M, f, sw, H⟩ := S
    simp only at hF
    subst hF
    exact ⟨h.h, h.vn, h.tr⟩
  map a h := ⟨fun c g0 g1 => congrArg (· * a) (h.h c g0 g1),
    fun c g0 g1 => congrArg (· * a) (h.vn c g0 g1),
    fun l c l0 l1 g0 g1 => congrArg (· * a) (h.tr l c l0 l1 g0 g1)⟩
  axpy a h h' := ⟨fun c g0 g1 => congrArg₂ (fun v w => v + a * w) (h.h c g0 g1) (h'.h c g0 g1),
    fun c g0 g1 => congrArg₂ (fun v w => v + a * w) (h.vn c g0 g1) (h'.vn c g0 g1),
    fun l c l0 l1 g0 g1 =>
      congrArg₂ (fun v w => v + a * w) (h.tr l c l0 l1 g0 g1) (h'.tr l c l0 l1 g0 g1)⟩

/-- Two runs (on the same mesh) that start from states that agree at layer `k` — whatever the other
layers contain — still agree at layer `k` after any number of steps of a new stepper, and so do the
tendencies. -/
theorem C31_layers_independent {d : Dims} {m m' : Mem R} (hd : DimsOK d) (hc : ConnOK d m)
    {sw : SWModel R} (hn : sw.NoHook) (split : Bool) (hsame : Static m' m) {k : Int} (h0 : 0 ≤ k)
    (h1 : k < d.nlayers) :
    (∀ mode tn st t m1 m1', st ≠ tn →
      SameLayer d k (m'.fld st) (m.fld st) → SameLayer d k (m'.fld tn) (m.fld tn) →
      Exec d (compute_tendency d ⟨defaultKernels d.vl, split⟩ sw mode tn st t) m m1 →
      Exec d (compute_tendency d ⟨defaultKernels d.vl, split⟩ sw mode tn st t) m' m1' →
      SameLayer d k (m1'.fld tn) (m1.fld tn)) ∧
    (∀ (stp : Stepper) sched m1 m1', SameLayer d k (m'.fld .state) (m.fld .state) →
      Exec d (stp.ctor d ++ stp.run d ⟨defaultKernels d.vl, split⟩ sw sched) m m1 →
      Exec d (stp.ctor d ++ stp.run d ⟨defaultKernels d.vl, split⟩ sw sched) m' m1' →
      SameLayer d k (m1'.fld .state) (m1.fld .state)) := by
  have hS := genSetup hd hc (hookOK_noHook hn d m)
  have hS' := hS.static hsame
  have rel := layer_rel hS.sys rfl h0 h1
  have sym : ∀ {x y : Fld R}, EqFld d x y → SameLayer d k y x := fun h =>
    SameLayer.of_eqFld h0 h1 h.symm
  refine ⟨fun mode tn st t m1 m1' hne hs ht he he' => ?_, fun stp sched m1 m1' hs he he' => ?_⟩
  · obtain ⟨-, v⟩ := hS.tendency hne he
    obtain ⟨-, v'⟩ := hS'.tendency hne he'
    exact (SameLayer.of_eqFld h0 h1 v').trans ((rel.tend ht hs).trans (sym v))
  · obtain ⟨-, -, v⟩ := hS.newRun he
    obtain ⟨-, -, v'⟩ := hS'.newRun he'
    exact (SameLayer.of_eqFld h0 h1 v').trans
      ((rel.run stp sched (p := (zeroFld, m'.fld .state)) (q := (zeroFld, m.fld .state))
        (SameLayer.of_eqFld h0 h1 (EqFld.refl d _)) hs).2.trans (sym v))

/-- two states that agree at layer 0 and differ at layer 1 -/
example (dc : ℝ) (prm : Params ℝ) :
    ∃ m m' : Mem ℝ, DimsOK p46.dims ∧ ConnOK p46.dims m ∧ Static m' m ∧
      SameLayer p46.dims 0 (m'.fld .state) (m.fld .state) ∧
      ¬ SameLayer p46.dims 1 (m'.fld .state) (m.fld .state) := by
  obtain ⟨m, h, h1, h2⟩ := exists_ready p46_valid dc prm
    ⟨fun _ _ => 1, fun _ _ => 2, fun _ _ _ => 3⟩ zeroFld
  refine ⟨m, setFld m .state ⟨fun _ k => 1 + k, fun _ k => 2 + k, fun _ _ k => 3 + k⟩,
    (ready_ok p46_run h).1, (ready_ok p46_run h).2, setFld_static _ _ _, ?_, ?_⟩
  · rw [setFld_fld, h1]
    exact ⟨fun _ _ _ => by simp, fun _ _ _ => by simp, fun _ _ _ _ _ _ => by simp⟩
  · rw [setFld_fld, h1]
    intro hh
    have := hh.h 0 le_rfl (by simp [MeshParams.dims, p46])
    norm_num at this

/-! ### C32 -/

/-- thickness and velocity agree, and tracer `l` of the first is tracer `l'` of the second -/
def pick (l : Int) (x : Fld R) : Fld R := ⟨x.h, x.vn, fun _ => x.tr l⟩
/-- tracers erased -/
def noTr (x : Fld R) : Fld R := ⟨x.h, x.vn, fun _ _ _ => lit 0⟩

/-- Equal thickness and velocity at all valid indices. -/
structure SameHV (d : Dims) (x y : Fld R) : Prop where
  h : ∀ c k, 0 ≤ c → c < d.ncells → 0 ≤ k → k < d.nlayers → x.h c k = y.h c k
  vn : ∀ e k, 0 ≤ e → e < d.nedges → 0 ≤ k → k < d.nlayers → x.vn e k = y.vn e k

theorem hv_rel {d : Dims} {S : Sys R} (hS : SysOK d S) : StepRel S S (SameHV d) (SameHV d) where
  tend := by
    intro mode t o o' s s' ho hs
    have h := tend_local hS (s := noTr s) (s' := noTr s')
      ⟨hs.h, hs.vn, fun _ _ _ _ _ _ _ _ _ => rfl⟩ mode t (o := noTr o) (o' := noTr o')
      ⟨ho.h, ho.vn, fun _ _ _ _ _ _ _ _ _ => rfl⟩
    exact ⟨h.h, h.vn⟩
  map a h := ⟨fun c k g0 g1 g2 g3 => congrArg (· * a) (h.h c k g0 g1 g2 g3),
    fun c k g0 g1 g2 g3 => congrArg (· * a) (h.vn c k g0 g1 g2 g3)⟩
  axpy a h h' := ⟨fun c k g0 g1 g2 g3 =>
      congrArg₂ (fun v w => v + a * w) (h.h c k g0 g1 g2 g3) (h'.h c k g0 g1 g2 g3),
    fun c k g0 g1 g2 g3 =>
      congrArg₂ (fun v w => v + a * w) (h.vn c k g0 g1 g2 g3) (h'.vn c k g0 g1 g2 g3)⟩

/-- Equal thickness and velocity, and tracer `l` of `x` equals tracer `l'` of `y`. -/
structure SameTracer (d : Dims) (l l' : Int) (x y : Fld R) : Prop extends SameHV d x y where
  tr : ∀ c k, 0 ≤ c → c < d.ncells → 0 ≤ k → k < d.nlayers → x.tr l c k = y.tr l' c k

theorem tracer_rel {d : Dims} {S : Sys R} (hS : SysOK d S) {l l' : Int} (l0 : 0 ≤ l)
    (l1 : l < d.ntracers) : StepRel S S (SameTracer d l l') (SameTracer d l l') where
  tend := by
    intro mode t o o' s s' ho hs
    have h := tend_local hS (s := pick l s) (s' := pick l' s')
      ⟨hs.h, hs.vn, fun _ c k _ _ => hs.tr c k⟩ mode t (o := pick l o) (o' := pick l' o')
      ⟨ho.h, ho.vn, fun _ c k _ _ => ho.tr c k⟩
    exact ⟨⟨h.h, h.vn⟩, fun c k => h.tr l c k l0 l1⟩
  map a h := ⟨⟨fun c k g0 g1 g2 g3 => congrArg (· * a) (h.h c k g0 g1 g2 g3),
    fun c k g0 g1 g2 g3 => congrArg (· * a) (h.vn c k g0 g1 g2 g3)⟩,
    fun c k g0 g1 g2 g3 => congrArg (· * a) (h.tr c k g0 g1 g2 g3)⟩
  axpy a h h' := ⟨⟨fun c k g0 g1 g2 g3 =>
      congrArg₂ (fun v w => v + a * w) (h.h c k g0 g1 g2 g3) (h'.h c k g0 g1 g2 g3),
    fun c k g0 g1 g2 g3 =>
      congrArg₂ (fun v w => v + a * w) (h.vn c k g0 g1 g2 g3) (h'.vn c k g0 g1 g2 g3)⟩,
    fun c k g0 g1 g2 g3 =>
      congrArg₂ (fun v w => v + a * w) (h.tr c k g0 g1 g2 g3) (h'.tr c k g0 g1 g2 g3)⟩

/-- Thickness and velocity after any number of steps do not depend on any tracer; a tracer after any
number of steps depends only on thickness, velocity and itself (not on the other tracers, nor on its
position among them). -/
theorem C32_tracers_passive {d : Dims} {m m' : Mem R} (hd : DimsOK d) (hc : ConnOK d m)
    {sw : SWModel R} (hn : sw.NoHook) (split : Bool) (hsame : Static m' m) (stp : Stepper)
    (sched : List (R × R)) {m1 m1' : Mem R}
    (he : Exec d (stp.ctor d ++ stp.run d ⟨defaultKernels d.vl, split⟩ sw sched) m m1)
    (he' : Exec d (stp.ctor d ++ stp.run d ⟨defaultKernels d.vl, split⟩ sw sched) m' m1')
    (hv : SameHV d (m'.fld .state) (m.fld .state)) :
    SameHV d (m1'.fld .state) (m1.fld .state) ∧
    ∀ l l', 0 ≤ l → l < d.ntracers → 0 ≤ l' → l' < d.ntracers →
      SameTracer d l l' (m'.fld .state) (m.fld .state) →
      SameTracer d l l' (m1'.fld .state) (m1.fld .state) := by
  have hS := genSetup hd hc (hookOK_noHook hn d m)
  have hS' := hS.static hsame
  obtain ⟨-, -, v⟩ := hS.newRun he
  obtain ⟨-, -, v'⟩ := hS'.newRun he'
  constructor
  · have := ((hv_rel hS.sys).run stp sched (p := (zeroFld, m'.fld .state))
      (q := (zeroFld, m.fld .state)) ⟨fun _ _ _ _ _ _ => rfl, fun _ _ _ _ _ _ => rfl⟩ hv).2
    exact ⟨fun c k g0 g1 g2 g3 => (v'.h c k g0 g1 g2 g3).trans ((this.h c k g0 g1 g2 g3).trans
      (v.h c k g0 g1 g2 g3).symm), fun c k g0 g1 g2 g3 => (v'.vn c k g0 g1 g2 g3).trans
      ((this.vn c k g0 g1 g2 g3).trans (v.vn c k g0 g1 g2 g3).symm)⟩
  · intro l l' l0 l1 l0' l1' hst
    have := ((tracer_rel (l' := l') hS.sys l0 l1).run stp sched (p := (zeroFld, m'.fld .state))
      (q := (zeroFld, m.fld .state)) ⟨⟨fun _ _ _ _ _ _ => rfl, fun _ _ _ _ _ _ => rfl⟩,
        fun _ _ _ _ _ _ => rfl⟩ hst).2
    exact ⟨⟨fun c k g0 g1 g2 g3 => (v'.h c k g0 g1 g2 g3).trans ((this.h c k g0 g1 g2 g3).trans
      (v.h c k g0 g1 g2 g3).symm), fun c k g0 g1 g2 g3 => (v'.vn c k g0 g1 g2 g3).trans
      ((this.vn c k g0 g1 g2 g3).trans (v.vn c k g0 g1 g2 g3).symm)⟩,
      fun c k g0 g1 g2 g3 => (v'.tr l c k l0 l1 g0 g1 g2 g3).trans
        ((this.tr c k g0 g1 g2 g3).trans (v.tr l' c k l0' l1' g0 g1 g2 g3).symm)⟩

/-- three tracers -/
def p46t : MeshParams := ⟨4, 6, 3, 3, 2⟩
theorem p46t_run : RunValid p46t := by
  have hl : p46t.dims.nlayers = p46.dims.nlayers := rfl
  exact ⟨by constructor <;> simp [p46t], by rw [hl, p46_layers]; norm_num⟩

/-- states with the same thickness and velocity whose tracers are in a different order -/
example (dc : ℝ) (prm : Params ℝ) :
    ∃ m m' : Mem ℝ, DimsOK p46t.dims ∧ ConnOK p46t.dims m ∧ Static m' m ∧
      SameTracer p46t.dims 0 1 (m'.fld .state) (m.fld .state) ∧
      ¬ SameTracer p46t.dims 0 0 (m'.fld .state) (m.fld .state) := by
  obtain ⟨m, h, h1, h2⟩ := exists_ready p46t_run.toValid dc prm
    ⟨fun c _ => 1 + c, fun _ _ => 2, fun l _ _ => l⟩ zeroFld
  refine ⟨m, setFld m .state ⟨fun c _ => 1 + c, fun _ _ => 2, fun l _ _ => 1 - l⟩,
    (ready_ok p46t_run h).1, (ready_ok p46t_run h).2, setFld_static _ _ _, ?_, ?_⟩
  · rw [setFld_fld, h1]
    exact ⟨⟨fun _ _ _ _ _ _ => rfl, fun _ _ _ _ _ _ => rfl⟩, fun _ _ _ _ _ _ => by simp⟩
  · rw [setFld_fld, h1]
    intro hh
    have hl : p46t.dims.nlayers = p46.dims.nlayers := rfl
    have := hh.tr 0 0 le_rfl (by simp [MeshParams.dims, p46t]) le_rfl
      (by rw [hl, p46_layers]; norm_num)
    norm_num at this

end Props
end Omega
