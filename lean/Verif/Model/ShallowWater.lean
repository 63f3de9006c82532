import Verif.Model.Kernels

/-!
# Auxiliary state, tendencies and time steppers: host code
-/

namespace Omega
namespace Model

open Prog

variable {R : Type} [Scalar R]

/-- `ShallowWaterParams`, `shallow_water_params.hpp:7-18`. `m_ntracers` is in `Dims`; `m_drag_coeff` is
never read by the code. -/
structure Params (R : Type) where
  f0 : R
  grav : R
  visc_del2 : R
  visc_del4 : R
  eddy_diff2 : R
  eddy_diff4 : R
  disable_h : Bool
  disable_vn : Bool

/-- `AddMode`, `shallow_water_model.hpp:12`. -/
inductive AddMode
  | replace | increment
  deriving DecidableEq

/-- `ShallowWaterModel`, `shallow_water_model.hpp:14-33`: parameters and the `m_enabled` flags of the
terms; `hook` is the virtual `additional_tendency` (`:42-44`), a list of launches given the time, the
tendency and the state. -/
structure SWModel (R : Type) where
  prm : Params R
  en_hadv : Bool
  en_pv : Bool
  en_ke : Bool
  en_ssh : Bool
  en_vdiff : Bool
  en_vhyper : Bool
  en_thadv : Bool
  en_tdiff : Bool
  en_thyper : Bool
  hook : R → StateId → StateId → List (Cmd R)

/-- `ShallowWaterModel::ShallowWaterModel`, `shallow_water_model.cpp:5-37`, with the default
(empty) `additional_tendency`. -/
def SWModel.ofParams (prm : Params R) : SWModel R where
  prm := prm
  en_hadv := true
  en_pv := true
  en_ke := true
  en_ssh := true
  en_vdiff := Scalar.lt (lit 0) prm.visc_del2
  en_vhyper := Scalar.lt (lit 0) prm.visc_del4
  en_thadv := true
  en_tdiff := Scalar.lt (lit 0) prm.eddy_diff2
  en_thyper := Scalar.lt (lit 0) prm.eddy_diff4
  hook := fun _ _ _ => []

/-- device work of the constructor: `shallow_water_model.cpp:39-40` -/
def sw_model_ctor (d : Dims) (prm : Params R) : List (Cmd R) :=
  [fillR d .f_vertex prm.f0, fillR d .f_edge prm.f0]

/-- A compiled configuration: the kernels chosen by `OMEGA_KOKKOS_SIMD`, and whether
`OMEGA_NO_INNER_IF` splits the tendency launches (`shallow_water_model.cpp:51, 132, 246`). -/
structure Build (R : Type) where
  K : Kernels R
  split : Bool

/-- `if (enabled) term;` inside a kernel (`shallow_water_model.cpp:196-216`) -/
def whenP (b : Bool) (p : Prog R Unit) : Prog R Unit := if b then p else pure ()

/-- the guarded terms of a fused kernel, in order -/
def seqTerms : List (Bool × Prog R Unit) → Prog R Unit
  | [] => pure ()
  | t :: r => whenP t.1 t.2 >>= fun _ => seqTerms r

/-- The two forms of a two-index tendency launch: one fused kernel with the guards inside
(`shallow_water_model.cpp:71-84, 186-217`), or one launch per enabled term
(`:52-69, 133-184`). -/
def launchTerms2 (split : Bool) (n0 n1 : Int) (ts : List (Bool × (Int → Int → Prog R Unit))) :
    List (Cmd R) :=
  if split then (ts.filter (·.1)).map fun t => par2 n0 n1 t.2
  else [par2 n0 n1 fun i kc => seqTerms (ts.map fun t => (t.1, t.2 i kc))]

/-- The same for the three-index tracer launches (`shallow_water_model.cpp:285-309` and
`:247-283`). -/
def launchTerms3 (split : Bool) (n0 n1 n2 : Int)
    (ts : List (Bool × (Int → Int → Int → Prog R Unit))) : List (Cmd R) :=
  if split then (ts.filter (·.1)).map fun t => par3 n0 n1 n2 t.2
  else [par3 n0 n1 n2 fun l i kc => seqTerms (ts.map fun t => (t.1, t.2 l i kc))]

/-- body of the cell launch of `shallow_water_auxstate.cpp:34-39` -/
def auxCellBody (K : Kernels R) (ntracers : Int) (s : StateId) (icell kc : Int) : Prog R Unit := do
  K.kinetic (.vn_edge s) icell kc
  forI ntracers () fun l _ => K.normTracer (.tr_cell s) (.h_cell s) l icell kc

/-- body of the edge launch of `shallow_water_auxstate.cpp:46-49` -/
def auxEdgeBody (K : Kernels R) (s : StateId) (iedge kc : Int) : Prog R Unit := do
  K.thickness (.h_cell s) iedge kc
  K.vortEdge iedge kc

/-- `ShallowWaterAuxiliaryState::compute`, `shallow_water_auxstate.cpp:12-50`. `tr_cell.extent(0)` is
the tracer count the state was built with (`shallow_water_state.cpp:12-14`). -/
def aux_compute (d : Dims) (K : Kernels R) (s : StateId) : List (Cmd R) :=
  [ par2 d.nvertices d.nlayersVec (K.vortVertex (.h_cell s) (.vn_edge s) .f_vertex),
    par2 d.ncells d.nlayersVec (auxCellBody K d.ntracers s),
    par2 d.nedges d.nlayersVec (auxEdgeBody K s) ]

/-- terms of `compute_h_tendency`, `shallow_water_model.cpp:74-83` -/
def hTerms (d : Dims) (B : Build R) (sw : SWModel R) (mode : AddMode) (tn st : StateId) :
    List (Bool × (Int → Int → Prog R Unit)) :=
  [ (decide (mode = .replace), zero2 d.vl (.h_cell tn)),
    (sw.en_hadv, B.K.hadv (.h_cell tn) (.vn_edge st) .flux_h_edge) ]

/-- `ShallowWaterModel::compute_h_tendency`, `shallow_water_model.cpp:43-86`. -/
def compute_h_tendency (d : Dims) (B : Build R) (sw : SWModel R) (mode : AddMode)
    (tn st : StateId) : List (Cmd R) :=
  launchTerms2 B.split d.ncells d.nlayersVec (hTerms d B sw mode tn st)

/-- terms of `compute_vn_tendency`, `shallow_water_model.cpp:189-216` -/
def vnTerms (d : Dims) (B : Build R) (sw : SWModel R) (mode : AddMode) (tn st : StateId) :
    List (Bool × (Int → Int → Prog R Unit)) :=
  [ (decide (mode = .replace), zero2 d.vl (.vn_edge tn)),
    (sw.en_pv, B.K.pvFlux (.vn_edge tn) .norm_rvort_edge .norm_pvort_edge .flux_h_edge
      (.vn_edge st)),
    (sw.en_ke, B.K.keGrad (.vn_edge tn) .ke_cell),
    (sw.en_ssh, B.K.sshGrad sw.prm.grav (.vn_edge tn) (.h_cell st)),
    (sw.en_vdiff, B.K.velDiff sw.prm.visc_del2 (.vn_edge tn) .vel_div_cell .rvort_vertex),
    (sw.en_vhyper, B.K.velHyper sw.prm.visc_del4 (.vn_edge tn)) ]

/-- the hyperviscosity launches, `shallow_water_model.cpp:111-130` -/
def hyperPre (d : Dims) (K : Kernels R) : List (Cmd R) :=
  [ par2 d.nedges d.nlayersVec (K.velDel2 .vel_div_cell .rvort_vertex),
    par2 d.nvertices d.nlayersVec K.velDel2Rvort,
    par2 d.ncells d.nlayersVec K.velDel2Div ]

/-- `ShallowWaterModel::compute_vn_tendency`, `shallow_water_model.cpp:88-219`. -/
def compute_vn_tendency (d : Dims) (B : Build R) (sw : SWModel R) (mode : AddMode)
    (tn st : StateId) : List (Cmd R) :=
  (if sw.en_vhyper then hyperPre d B.K else []) ++
  launchTerms2 B.split d.nedges d.nlayersVec (vnTerms d B sw mode tn st)

/-- terms of `compute_tr_tendency`, `shallow_water_model.cpp:289-308`; the local names `flux_h_edge` and
`mean_h_edge` are bound to `m_mean_h_edge` and `m_flux_h_edge` (`:225-228`). -/
def trTerms (d : Dims) (B : Build R) (sw : SWModel R) (mode : AddMode) (tn st : StateId) :
    List (Bool × (Int → Int → Int → Prog R Unit)) :=
  [ (decide (mode = .replace), zero3 d.vl (.tr_cell tn)),
    (sw.en_thadv, B.K.trHadv (.tr_cell tn) (.vn_edge st) .norm_tr_cell .mean_h_edge),
    (sw.en_tdiff, B.K.trDiff sw.prm.eddy_diff2 (.tr_cell tn) .norm_tr_cell .flux_h_edge),
    (sw.en_thyper, B.K.trHyper sw.prm.eddy_diff4 (.tr_cell tn) .tracer_del2_cell) ]

/-- `ShallowWaterModel::compute_tr_tendency`, `shallow_water_model.cpp:221-311`. -/
def compute_tr_tendency (d : Dims) (B : Build R) (sw : SWModel R) (mode : AddMode)
    (tn st : StateId) : List (Cmd R) :=
  (if sw.en_thyper then
    [par3 d.ntracers d.ncells d.nlayersVec (B.K.trDel2 .norm_tr_cell .flux_h_edge)] else []) ++
  launchTerms3 B.split d.ntracers d.ncells d.nlayersVec (trTerms d B sw mode tn st)

/-- `ShallowWaterModel::compute_tendency`, `shallow_water_model.cpp:313-347` (timers omitted). -/
def compute_tendency (d : Dims) (B : Build R) (sw : SWModel R) (mode : AddMode)
    (tn st : StateId) (t : R) : List (Cmd R) :=
  aux_compute d B.K st ++
  ((if sw.prm.disable_h then [] else compute_h_tendency d B sw mode tn st) ++
  ((if sw.prm.disable_vn then [] else compute_vn_tendency d B sw mode tn st) ++
  ((if 0 < d.ntracers then compute_tr_tendency d B sw mode tn st else []) ++
  sw.hook t tn st)))

/-! ### Elementwise launches of the steppers -/

/-- `omega_parallel_for({n, nlayers}, a(i,k) = g(a(i,k)))` on a rank-2 view of `n` rows -/
def map2 (d : Dims) (n : Int) (a : RArr) (g : R → R) : Cmd R :=
  par2 n d.nlayers fun i k => do
    let v ← rd2 a i k
    wr2 a i k (g v)
/-- the same on the rank-3 tracer view -/
def map3 (d : Dims) (a : RArr) (g : R → R) : Cmd R :=
  par3 d.ntracers d.ncells d.nlayers fun l i k => do
    let v ← rd3 a l i k
    wr3 a l i k (g v)
/-- `a(i,k) = g(a(i,k), b(i,k))` -/
def zip2 (d : Dims) (n : Int) (a b : RArr) (g : R → R → R) : Cmd R :=
  par2 n d.nlayers fun i k => do
    let v ← rd2 a i k
    let w ← rd2 b i k
    wr2 a i k (g v w)
/-- the same on the rank-3 tracer view -/
def zip3 (d : Dims) (a b : RArr) (g : R → R → R) : Cmd R :=
  par3 d.ntracers d.ncells d.nlayers fun l i k => do
    let v ← rd3 a l i k
    let w ← rd3 b l i k
    wr3 a l i k (g v w)
/-- `a(i,k) = g(b(i,k), c(i,k))` -/
def put2 (d : Dims) (n : Int) (a b c : RArr) (g : R → R → R) : Cmd R :=
  par2 n d.nlayers fun i k => do
    let v ← rd2 b i k
    let w ← rd2 c i k
    wr2 a i k (g v w)
/-- the same on the rank-3 tracer view -/
def put3 (d : Dims) (a b c : RArr) (g : R → R → R) : Cmd R :=
  par3 d.ntracers d.ncells d.nlayers fun l i k => do
    let v ← rd3 b l i k
    let w ← rd3 c l i k
    wr3 a l i k (g v w)

/-! ### Low-storage Runge-Kutta -/

/-- Coefficients of a stepper: `m_rka`, `m_rkb`, `m_rkc`. -/
structure Coef (R : Type) where
  a : Nat → R
  b : Nat → R
  c : Nat → R

/-- entry `i` of an initialiser list; a `std::vector` of the right size is never read outside -/
def nth (l : List R) (i : Nat) : R := l.getD i (lit 0)

/-- The coefficient vectors of `LSRKStepper`, `lsrk.cpp:6-7, 16-33`: zero-filled vectors of length
`nstages`, overwritten when `nstages` is 5 or 1. -/
def lsrkCoef (nstages : Nat) : Coef R :=
  if nstages = 5 then
    { a := nth [lit 0, lit (-567301805773) / lit 1357537059087,
        lit (-2404267990393) / lit 2016746695238, lit (-3550918686646) / lit 2091501179385,
        lit (-1275806237668) / lit 842570457699],
      b := nth [lit 1432997174477 / lit 9575080441755, lit 5161836677717 / lit 13612068292357,
        lit 1720146321549 / lit 2090206949498, lit 3134564353537 / lit 4481467310338,
        lit 2277821191437 / lit 14882151754819],
      c := nth [lit 0, lit 1432997174477 / lit 9575080441755,
        lit 2526269341429 / lit 6820363962896, lit 2006345519317 / lit 3224310063776,
        lit 2802321613138 / lit 2924317926251] }
  else if nstages = 1 then
    { a := nth [lit 0], b := nth [lit 1], c := nth [lit 0] }
  else { a := fun _ => lit 0, b := fun _ => lit 0, c := fun _ => lit 0 }

/-- allocation of a `ShallowWaterState`, `shallow_water_state.cpp:7-10`: Kokkos zero-initialises
views -/
def allocState (d : Dims) (s : StateId) : List (Cmd R) :=
  [fillR d (.h_cell s) (lit 0), fillR d (.vn_edge s) (lit 0), fillR d (.tr_cell s) (lit 0)]

/-- `LSRKStepper::LSRKStepper`, `lsrk.cpp:5-14`: allocate the tendency, then clear it. -/
def lsrk_ctor (d : Dims) : List (Cmd R) :=
  allocState d .tend ++
  [fillR d (.h_cell .tend) (lit 0), fillR d (.vn_edge .tend) (lit 0)] ++
  (if 0 < d.ntracers then [fillR d (.tr_cell .tend) (lit 0)] else [])

/-- one stage of `LSRKStepper::do_step`, `lsrk.cpp:46-87` -/
def lsrk_stage (d : Dims) (B : Build R) (sw : SWModel R) (C : Coef R) (t dt : R) (stage : Nat) :
    List (Cmd R) :=
  [ map2 d d.ncells (.h_cell .tend) (fun v => v * C.a stage),
    map2 d d.nedges (.vn_edge .tend) (fun v => v * C.a stage) ] ++
  (if 0 < d.ntracers then [map3 d (.tr_cell .tend) (fun v => v * C.a stage)] else []) ++
  compute_tendency d B sw .increment .tend .state (t + C.c stage * dt) ++
  [ zip2 d d.ncells (.h_cell .state) (.h_cell .tend) (fun v w => v + dt * C.b stage * w),
    zip2 d d.nedges (.vn_edge .state) (.vn_edge .tend) (fun v w => v + dt * C.b stage * w) ] ++
  (if 0 < d.ntracers then
    [zip3 d (.tr_cell .state) (.tr_cell .tend) (fun v w => v + dt * C.b stage * w)] else [])

/-- `LSRKStepper::do_step`, `lsrk.cpp:36-89`. -/
def lsrk_step (d : Dims) (B : Build R) (sw : SWModel R) (nstages : Nat) (t dt : R) :
    List (Cmd R) :=
  (List.range nstages).flatMap (lsrk_stage d B sw (lsrkCoef nstages) t dt)

/-! ### Classical Runge-Kutta -/

/-- `RK4Stepper` coefficients, `rk4.cpp:14-25` (`1. / 2` etc.) -/
def rk4Coef : Coef R where
  a := nth [lit 1 / lit 2, lit 1 / lit 2, lit 1]
  b := nth [lit 1 / lit 6, lit 1 / lit 3, lit 1 / lit 3, lit 1 / lit 6]
  c := nth [lit 1 / lit 2, lit 1 / lit 2, lit 1]

/-- `RK4Stepper::RK4Stepper`, `rk4.cpp:8-12`: allocation of three states. -/
def rk4_ctor (d : Dims) : List (Cmd R) :=
  allocState d .tend ++ allocState d .provis ++ allocState d .old

/-- `rk4.cpp:54-72` -/
def rk4_accumulate (d : Dims) (C : Coef R) (dt : R) (stage : Nat) : List (Cmd R) :=
  [ zip2 d d.ncells (.h_cell .state) (.h_cell .tend) (fun v w => v + dt * C.b stage * w),
    zip2 d d.nedges (.vn_edge .state) (.vn_edge .tend) (fun v w => v + dt * C.b stage * w) ] ++
  (if 0 < d.ntracers then
    [zip3 d (.tr_cell .state) (.tr_cell .tend) (fun v w => v + dt * C.b stage * w)] else [])

/-- `rk4.cpp:75-101` -/
def rk4_provis (d : Dims) (B : Build R) (sw : SWModel R) (C : Coef R) (t dt : R) (stage : Nat) :
    List (Cmd R) :=
  [ put2 d d.ncells (.h_cell .provis) (.h_cell .old) (.h_cell .tend)
      (fun v w => v + dt * C.a stage * w),
    put2 d d.nedges (.vn_edge .provis) (.vn_edge .old) (.vn_edge .tend)
      (fun v w => v + dt * C.a stage * w) ] ++
  (if 0 < d.ntracers then
    [put3 d (.tr_cell .provis) (.tr_cell .old) (.tr_cell .tend)
      (fun v w => v + dt * C.a stage * w)] else []) ++
  compute_tendency d B sw .replace .tend .provis (t + C.c stage * dt)

/-- one iteration of the stage loop, `rk4.cpp:52-103` -/
def rk4_stage (d : Dims) (B : Build R) (sw : SWModel R) (C : Coef R) (t dt : R) (stage : Nat) :
    List (Cmd R) :=
  rk4_accumulate d C dt stage ++
  (if stage < 3 then rk4_provis d B sw C t dt stage else [])

/-- `RK4Stepper::do_step`, `rk4.cpp:28-104`. -/
def rk4_step (d : Dims) (B : Build R) (sw : SWModel R) (t dt : R) : List (Cmd R) :=
  [ copyR d (.h_cell .old) (.h_cell .state), copyR d (.vn_edge .old) (.vn_edge .state),
    copyR d (.tr_cell .old) (.tr_cell .state) ] ++
  compute_tendency d B sw .replace .tend .state t ++
  (List.range 4).flatMap (rk4_stage d B sw rk4Coef t dt)

end Model
end Omega
