import Verif.Model.TestCases
import Verif.Model.Diagnostics
import Verif.Model.Mesh

/-!
# The test programs and the benchmark

Device work of the `run` functions, in program order, and the reductions that give their results. Views
are allocated zero-initialised. Output, timers, and the exceptions thrown on failure are left out; the
value compared by the check is the result.
-/

namespace Omega

open Prog

variable {R : Type} [Scalar R]

/-- `std::abs`. Simplification: the sign of a zero is kept. -/
def absS (x : R) : R := if Scalar.lt x (lit 0) then -x else x

/-- `RTree.eval` for a reducer given by its identity and its join. -/
def RTree.evalWith (d : Dims) (unit : R) (join : R → R → R) (body : Int → R → Prog R R) (m : Mem R) :
    RTree → Option R
  | .leaf is => leafEval d body m is unit
  | .node l r =>
    match l.evalWith d unit join body m, r.evalWith d unit join body m with
    | some x, some y => some (join x y)
    | _, _ => none

/-- `v` is a possible result of `parallel_reduce(RangePolicy(0, n), body, Kokkos::Max<Real>(v))`. The
identity of the reducer is the lowest finite number; its join is `if (dest < src) dest = src`. -/
def ReducesMax (d : Dims) (lowest : R) (n : Int) (body : Int → R → Prog R R) (m : Mem R) (v : R) :
    Prop :=
  ∃ T : RTree, T.Covers n ∧
    T.evalWith d lowest (fun dest src => if Scalar.lt dest src then src else dest) body m = some v

/-- A sum over `MDRangePolicy<2>({0, 0}, {n0, n1})`. The iterations are numbered `i * n1 + k`; the order
and grouping are arbitrary, so the numbering does not matter. -/
def Reduces2 (d : Dims) (n0 n1 : Int) (body : Int → Int → R → Prog R R) (m : Mem R) (v : R) : Prop :=
  Reduces d (n0 * n1) (fun i => body (i / n1) (i % n1)) m v

namespace Model

/-! ### Initial states -/

/-- "init_h", `double_vortex.cpp:104-110`, `benchmark.cpp:114-120` -/
def init_h (d : Dims) (h : R → R → R) : Cmd R :=
  par2 d.ncells d.nlayers fun icell k => do
    let x ← rd1 .x_cell icell
    let y ← rd1 .y_cell icell
    wr2 (.h_cell .state) icell k (h x y)

/-- "init_h", `nonlinear_swe_convergence.cpp:138-145` -/
def init_h_exact (d : Dims) (h : R → R → R → R) (timeend : R) : Cmd R :=
  par2 d.ncells d.nlayers fun icell k => do
    let x ← rd1 .x_cell icell
    let y ← rd1 .y_cell icell
    wr2 (.h_cell .state) icell k (h x y (lit 0))
    wr2 (.test .hexact_cell) icell k (h x y timeend)

/-- "init_vn", `double_vortex.cpp:116-126`, `benchmark.cpp:136-146`,
`nonlinear_swe_convergence.cpp:151-161`, `tracer_*_convergence.cpp:74-84` -/
def init_vn (d : Dims) (vx vy : R → R → R) : Cmd R :=
  par2 d.nedges d.nlayers fun iedge k => do
    let x ← rd1 .x_edge iedge
    let y ← rd1 .y_edge iedge
    let a ← rd1 .angle_edge iedge
    let nx := Scalar.cos a
    let b ← rd1 .angle_edge iedge
    let ny := Scalar.sin b
    let vx := vx x y
    let vy := vy x y
    wr2 (.vn_edge .state) iedge k (nx * vx + ny * vy)

/-- "init_tr", `benchmark.cpp:122-130` -/
def init_tr (d : Dims) (v : R) : List (Cmd R) :=
  if 0 < d.ntracers then
    [par3 d.ntracers d.ncells d.nlayers fun l icell k => wr3 (.tr_cell .state) l icell k v]
  else []

/-! ### `test/tracer_*_convergence.cpp` -/

/-- the member functions of a tracer test -/
structure TracerTest (R : Type) where
  h : R → R → R → R
  tr : R → R → R → R
  vx : R → R → R → R
  vy : R → R → R → R

/-- "init_h_and_tr", `tracer_*_convergence.cpp:59-68` -/
def init_h_and_tr (d : Dims) (T : TracerTest R) (timeend : R) : Cmd R :=
  par2 d.ncells d.nlayers fun icell k => do
    let x ← rd1 .x_cell icell
    let y ← rd1 .y_cell icell
    wr2 (.h_cell .state) icell k (T.h x y (lit 0))
    wr3 (.tr_cell .state) 0 icell k (T.tr x y (lit 0))
    wr3 (.test .tr_exact_cell) 0 icell k (T.tr x y timeend)

/-- device work of `run(nx)`, `tracer_*_convergence.cpp:30-89`: mesh, model, state, stepper, reference
view, initial state, time loop -/
def tracer_run (p : MeshParams) (dc : R) (prm : Params R) (B : Build R) (T : TracerTest R)
    (stp : Stepper) (timeend : R) (sched : List (R × R)) : List (Cmd R) :=
  compute_mesh_arrays p dc ++ sw_model_ctor p.dims prm ++ allocState p.dims .state ++
  stp.ctor p.dims ++ [fillR p.dims (.test .tr_exact_cell) (lit 0)] ++
  [init_h_and_tr p.dims T timeend,
   init_vn p.dims (fun x y => T.vx x y (lit 0)) (fun x y => T.vy x y (lit 0))] ++
  stp.run p.dims B (SWModel.ofParams prm) sched

/-- functor "compute_error", `tracer_*_convergence.cpp:95-98` -/
def tracer_error_body (icell k : Int) (accum : R) : Prog R R := do
  let a ← rd3 (.test .tr_exact_cell) 0 icell k
  let b ← rd3 (.tr_cell .state) 0 icell k
  let err := a - b
  pure (accum + err * err)

/-- the result of `run(nx)`, `tracer_*_convergence.cpp:91-101` -/
def IsTracerError (p : MeshParams) (m : Mem R) (v : R) : Prop :=
  ∃ errf, Reduces2 p.dims p.dims.ncells p.dims.nlayers tracer_error_body m errf ∧
    v = Scalar.sqrt (errf / lit (p.nx * p.ny))

/-! ### `test/nonlinear_swe_convergence.cpp` -/

/-- device work of `run(n)`, `nonlinear_swe_convergence.cpp:115-166`. The model is the one with the
overridden `additional_tendency`. -/
def nonlinear_run (p : MeshParams) (dc : R) (sw : SWModel R) (B : Build R) (h : R → R → R → R)
    (vx vy : R → R → R) (stp : Stepper) (timeend : R) (sched : List (R × R)) : List (Cmd R) :=
  compute_mesh_arrays p dc ++ sw_model_ctor p.dims sw.prm ++ allocState p.dims .state ++
  stp.ctor p.dims ++ [fillR p.dims (.test .hexact_cell) (lit 0)] ++
  [init_h_exact p.dims h timeend, init_vn p.dims vx vy] ++ stp.run p.dims B sw sched

/-- functor "compute_error", `nonlinear_swe_convergence.cpp:172-175` -/
def nonlinear_error_body (icell k : Int) (accum : R) : Prog R R := do
  let a ← rd2 (.test .hexact_cell) icell k
  let b ← rd2 (.h_cell .state) icell k
  let err := a - b
  pure (accum + err * err)

/-- the result of `run(n)`, `nonlinear_swe_convergence.cpp:168-178` -/
def IsNonlinearError (p : MeshParams) (m : Mem R) (v : R) : Prop :=
  ∃ errf, Reduces2 p.dims p.dims.ncells p.dims.nlayers nonlinear_error_body m errf ∧
    v = Scalar.sqrt (errf / lit (p.nx * p.ny))

/-! ### `test/double_vortex.cpp` and `benchmark/benchmark.cpp` -/

/-- device work of `run` before the first diagnostics, `double_vortex.cpp:79-126` -/
def vortex_init (p : MeshParams) (dc : R) (prm : Params R) (h vx vy : R → R → R) (stp : Stepper) :
    List (Cmd R) :=
  compute_mesh_arrays p dc ++ sw_model_ctor p.dims prm ++ allocState p.dims .state ++
  stp.ctor p.dims ++ [init_h p.dims h, init_vn p.dims vx vy]

/-- the relative changes printed and checked by `double_vortex.cpp:128-153`, between the initial state
`m0` and the final state `m1` -/
def IsVortexChange (d : Dims) (grav : R) (m0 m1 : Mem R) (mass cir en : R) : Prop :=
  ∃ mass0 cir0 en0 massf cirf enf,
    IsMassIntegral d .state m0 mass0 ∧ IsCirculationIntegral d .state m0 cir0 ∧
    IsEnergyIntegral d grav .state m0 en0 ∧ IsMassIntegral d .state m1 massf ∧
    IsCirculationIntegral d .state m1 cirf ∧ IsEnergyIntegral d grav .state m1 enf ∧
    mass = (massf - mass0) / mass0 ∧ cir = (cirf - cir0) / cir0 ∧ en = (enf - en0) / en0

/-- device work of the benchmark, `benchmark.cpp:83-161`: one step before the timed loop -/
def benchmark_run (p : MeshParams) (dc : R) (prm : Params R) (B : Build R) (h vx vy : R → R → R)
    (nsteps : Nat) (dt : R) : List (Cmd R) :=
  let stp := Stepper.lsrk (if nsteps = 1 then 1 else 5)
  compute_mesh_arrays p dc ++ sw_model_ctor p.dims prm ++ allocState p.dims .state ++
  stp.ctor p.dims ++ [init_h p.dims h] ++ init_tr p.dims (lit 1000) ++ [init_vn p.dims vx vy] ++
  stp.run p.dims B (SWModel.ofParams prm) ((lit 0, dt) ::
    (List.range nsteps).map fun step : Nat => (lit ((step : Int) + 1) * dt, dt))

/-! ### `test/operator_convergence.cpp` -/

/-- `sin(2 * pi * x / L)` and the like -/
def wave (f : R → R) (x L : R) : R := f (lit 2 * Scalar.pi * x / L)

/-- launches of `error_gradient`, `operator_convergence.cpp:15-50` -/
def gradient_launches (d : Dims) (Lx Ly : R) : List (Cmd R) :=
  [ fillR d (.test .input_cell) (lit 0), fillR d (.test .grad_field) (lit 0),
    fillR d (.test .exact_grad_field) (lit 0),
    par1 d.ncells fun icell => do
      let x ← rd1 .x_cell icell
      let y ← rd1 .y_cell icell
      wr1 (.test .input_cell) icell (wave Scalar.sin x Lx * wave Scalar.sin y Ly),
    par1 d.nedges fun iedge => do
      let icell0 ← rdI2 .cells_on_edge iedge 0
      let icell1 ← rdI2 .cells_on_edge iedge 1
      let f1 ← rd1 (.test .input_cell) icell1
      let f0 ← rd1 (.test .input_cell) icell0
      let dc ← rd1 .dc_edge iedge
      wr1 (.test .grad_field) iedge ((f1 - f0) / dc)
      let a ← rd1 .angle_edge iedge
      let nx := Scalar.cos a
      let b ← rd1 .angle_edge iedge
      let ny := Scalar.sin b
      let x ← rd1 .x_edge iedge
      let y ← rd1 .y_edge iedge
      let grad_x := lit 2 * Scalar.pi / Lx * wave Scalar.cos x Lx * wave Scalar.sin y Ly
      let grad_y := lit 2 * Scalar.pi / Ly * wave Scalar.sin x Lx * wave Scalar.cos y Ly
      wr1 (.test .exact_grad_field) iedge (nx * grad_x + ny * grad_y)
      let g ← rd1 (.test .grad_field) iedge
      let e ← rd1 (.test .exact_grad_field) iedge
      wr1 (.test .exact_grad_field) iedge (e - g)
      let e ← rd1 (.test .exact_grad_field) iedge
      wr1 (.test .exact_grad_field) iedge (absS e) ]

/-- the launch sampling the vector field, `operator_convergence.cpp:74-86, 129-141` -/
def input_launch (d : Dims) (Lx Ly : R) : Cmd R :=
  par1 d.nedges fun iedge => do
    let a ← rd1 .angle_edge iedge
    let nx := Scalar.cos a
    let b ← rd1 .angle_edge iedge
    let ny := Scalar.sin b
    let x ← rd1 .x_edge iedge
    let y ← rd1 .y_edge iedge
    let v_x := wave Scalar.sin x Lx * wave Scalar.cos y Ly
    let v_y := wave Scalar.cos x Lx * wave Scalar.sin y Ly
    wr1 (.test .input_edge) iedge (nx * v_x + ny * v_y)

/-- launches of `error_divergence`, `operator_convergence.cpp:67-105` -/
def divergence_launches (d : Dims) (Lx Ly : R) : List (Cmd R) :=
  [ fillR d (.test .input_edge) (lit 0), fillR d (.test .div_field) (lit 0),
    fillR d (.test .exact_div_field) (lit 0),
    input_launch d Lx Ly,
    par1 d.ncells fun icell => do
      let n ← rdI1 .nedges_on_cell icell
      let accum ← forI n (lit 0) fun j accum => do
        let jedge ← rdI2 .edges_on_cell icell j
        let dv ← rd1 .dv_edge jedge
        let sg ← rd2 .edge_sign_on_cell icell j
        let v ← rd1 (.test .input_edge) jedge
        pure (accum + dv * sg * v)
      let area ← rd1 .area_cell icell
      wr1 (.test .div_field) icell (accum / area)
      let x ← rd1 .x_cell icell
      let y ← rd1 .y_cell icell
      wr1 (.test .exact_div_field) icell (lit 2 * Scalar.pi * (lit 1 / Lx + lit 1 / Ly) *
        wave Scalar.cos x Lx * wave Scalar.cos y Ly)
      let g ← rd1 (.test .div_field) icell
      let e ← rd1 (.test .exact_div_field) icell
      wr1 (.test .exact_div_field) icell (e - g)
      let e ← rd1 (.test .exact_div_field) icell
      wr1 (.test .exact_div_field) icell (absS e) ]

/-- launches of `error_curl`, `operator_convergence.cpp:121-160` -/
def curl_launches (d : Dims) (Lx Ly : R) : List (Cmd R) :=
  [ fillR d (.test .input_edge) (lit 0), fillR d (.test .curl_field) (lit 0),
    fillR d (.test .exact_curl_field) (lit 0),
    input_launch d Lx Ly,
    par1 d.nvertices fun ivertex => do
      let accum ← forI 3 (lit 0) fun j accum => do
        let jedge ← rdI2 .edges_on_vertex ivertex j
        let dc ← rd1 .dc_edge jedge
        let sg ← rd2 .edge_sign_on_vertex ivertex j
        let v ← rd1 (.test .input_edge) jedge
        pure (accum + dc * sg * v)
      let area ← rd1 .area_triangle ivertex
      wr1 (.test .curl_field) ivertex (accum / area)
      let x ← rd1 .x_vertex ivertex
      let y ← rd1 .y_vertex ivertex
      wr1 (.test .exact_curl_field) ivertex (lit 2 * Scalar.pi * (lit (-1) / Lx + lit 1 / Ly) *
        wave Scalar.sin x Lx * wave Scalar.sin y Ly)
      let g ← rd1 (.test .curl_field) ivertex
      let e ← rd1 (.test .exact_curl_field) ivertex
      wr1 (.test .exact_curl_field) ivertex (e - g)
      let e ← rd1 (.test .exact_curl_field) ivertex
      wr1 (.test .exact_curl_field) ivertex (absS e) ]

/-- launches of `error_reconstruction`, `operator_convergence.cpp:176-214` -/
def reconstruction_launches (d : Dims) (Lx Ly : R) : List (Cmd R) :=
  [ fillR d (.test .input_edge) (lit 0), fillR d (.test .recon_field) (lit 0),
    fillR d (.test .exact_recon_field) (lit 0),
    par1 d.nedges fun iedge => do
      let a ← rd1 .angle_edge iedge
      let nx := Scalar.cos a
      let b ← rd1 .angle_edge iedge
      let ny := Scalar.sin b
      let tx := -ny
      let ty := nx
      let x ← rd1 .x_edge iedge
      let y ← rd1 .y_edge iedge
      let v_x := wave Scalar.sin x Lx * wave Scalar.cos y Ly
      let v_y := wave Scalar.cos x Lx * wave Scalar.sin y Ly
      wr1 (.test .input_edge) iedge (nx * v_x + ny * v_y)
      wr1 (.test .exact_recon_field) iedge (tx * v_x + ty * v_y),
    par1 d.nedges fun iedge => do
      let n ← rdI1 .nedges_on_edge iedge
      let accum ← forI n (lit 0) fun j accum => do
        let iedge2 ← rdI2 .edges_on_edge iedge j
        let w ← rd2 .weights_on_edge iedge j
        let v ← rd1 (.test .input_edge) iedge2
        pure (accum + w * v)
      wr1 (.test .recon_field) iedge accum
      let g ← rd1 (.test .recon_field) iedge
      let e ← rd1 (.test .exact_recon_field) iedge
      wr1 (.test .exact_recon_field) iedge (e - g)
      let e ← rd1 (.test .exact_recon_field) iedge
      wr1 (.test .exact_recon_field) iedge (absS e) ]

/-- the functor of the four maximum reductions, `operator_convergence.cpp:53-58, 108-113, 163-168,
217-222` -/
def max_body (a : TestArr) (i : Int) (accum : R) : Prog R R := do
  let v ← rd1 (.test a) i
  pure (maxS v accum)

/-- the results of the four functions of `operator_convergence.cpp` on one mesh, which `run` collects
(`:235-244`). The mesh `PlanarHexagonalMesh(nx, nx)` has spacing `1 / nx`
(`planar_hexagonal_mesh.cpp:5-6`). -/
def IsOperatorErrors (p : MeshParams) (dc : R) (lowest : R) (m0 : Mem R) (eg ed ec er : R) : Prop :=
  let d := p.dims
  let Lx := periodX p.nx dc
  let Ly := periodY p.ny dc
  ∃ m1 m2 m3 m4 m5, Exec d (compute_mesh_arrays p dc) m0 m1 ∧
    Exec d (gradient_launches d Lx Ly) m1 m2 ∧
    ReducesMax d lowest d.nedges (max_body .exact_grad_field) m2 eg ∧
    Exec d (divergence_launches d Lx Ly) m2 m3 ∧
    ReducesMax d lowest d.ncells (max_body .exact_div_field) m3 ed ∧
    Exec d (curl_launches d Lx Ly) m3 m4 ∧
    ReducesMax d lowest d.nvertices (max_body .exact_curl_field) m4 ec ∧
    Exec d (reconstruction_launches d Lx Ly) m4 m5 ∧
    ReducesMax d lowest d.nedges (max_body .exact_recon_field) m5 er

end Model
end Omega
