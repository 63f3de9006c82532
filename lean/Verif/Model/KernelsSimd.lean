import Verif.Model.Kernels

/-!
# Auxiliary-variable and tendency kernels, `OMEGA_KOKKOS_SIMD` build

`Vec` (`src/common.hpp:16`, `Kokkos::Experimental::native_simd<Real>`) is a register of `w` lanes;
here a function of the lane, of which only the lanes `0 ≤ x < w` are loaded or stored.  `copy_from` /
`copy_to` access the `w` elements starting at the given one.  `vl` is `vector_length`
(`src/common.hpp:19-25`): equal to `w` unless `OMEGA_NO_SIMD` is also defined, then 1.  Arithmetic
is lane by lane and a scalar operand is broadcast.  The loads of one kernel are in the order of the
code, operands of one expression being read left to right.
-/

namespace Omega
namespace Model
namespace Simd

open Prog

variable {R : Type} [Scalar R]

/-- `Vec x; x.copy_from(&a(i, k), VecTag())` (e.g. `kinetic_aux.hpp:32-33`): one element per lane -/
def vld2 (w : Int) (a : RArr) (i k : Int) : Prog R (Int → R) :=
  forI w (fun _ => lit 0) fun x v => do
    let s ← rd2 a i (k + x)
    pure (lset v x s)

/-- `Vec x; x.copy_from(&a(l, i, k), VecTag())` (e.g. `tracer_aux.hpp:19-20`) -/
def vld3 (w : Int) (a : RArr) (l i k : Int) : Prog R (Int → R) :=
  forI w (fun _ => lit 0) fun x v => do
    let s ← rd3 a l i (k + x)
    pure (lset v x s)

/-- `x.copy_to(&a(i, k), VecTag())` (e.g. `kinetic_aux.hpp:40`) -/
def vst2 (w : Int) (a : RArr) (i k : Int) (v : Int → R) : Prog R Unit :=
  forI w () fun x _ => wr2 a i (k + x) (v x)

/-- `x.copy_to(&a(l, i, k), VecTag())` (e.g. `tracer_aux.hpp:28`) -/
def vst3 (w : Int) (a : RArr) (l i k : Int) (v : Int → R) : Prog R Unit :=
  forI w () fun x _ => wr3 a l i (k + x) (v x)

/-! ### Auxiliary variables -/

/-- `KineticAuxVars::compute_kinetic_cell`, `kinetic_aux.hpp:21-42`. -/
def compute_kinetic_cell (vl w : Int) (vn : RArr) (icell kchunk : Int) : Prog R Unit := do
  let kstart ← imul kchunk vl
  let area ← rd1 .area_cell icell
  let inv_area_cell := lit 1 / area
  let n ← rdI1 .nedges_on_cell icell
  let acc ← forI n (fun _ : Int => (lit 0, lit 0)) fun j acc => do
    let jedge ← rdI2 .edges_on_cell icell j
    let dv ← rd1 .dv_edge jedge
    let dc ← rd1 .dc_edge jedge
    let area_edge := dv * dc
    let v ← vld2 w vn jedge kstart
    let dv' ← rd1 .dv_edge jedge
    let sg ← rd2 .edge_sign_on_cell icell j
    pure fun x => ((acc x).1 + inv_area_cell * area_edge * v x * v x * quarter,
      (acc x).2 + inv_area_cell * dv' * sg * v x)
  vst2 w .vel_div_cell icell kstart fun x => (acc x).2
  vst2 w .ke_cell icell kstart fun x => (acc x).1

/-- `ThicknessAuxVars::compute_thickness_edge`, `thickness_aux.hpp:15-31`. -/
def compute_thickness_edge (vl w : Int) (h : RArr) (iedge kchunk : Int) : Prog R Unit := do
  let kstart ← imul kchunk vl
  let jcell0 ← rdI2 .cells_on_edge iedge 0
  let jcell1 ← rdI2 .cells_on_edge iedge 1
  let h0 ← vld2 w h jcell0 kstart
  let h1 ← vld2 w h jcell1 kstart
  let mean := fun x => half * (h0 x + h1 x)
  vst2 w .mean_h_edge iedge kstart mean
  vst2 w .flux_h_edge iedge kstart mean

/-- `TracerAuxVars::compute_norm_tracer_cell`, `tracer_aux.hpp:13-29`. -/
def compute_norm_tracer_cell (vl w : Int) (tr h : RArr) (l icell kchunk : Int) : Prog R Unit := do
  let kstart ← imul vl kchunk
  let t ← vld3 w tr l icell kstart
  let hc ← vld2 w h icell kstart
  let inv_h_cell := fun x => lit 1 / hc x
  vst3 w .norm_tr_cell l icell kstart fun x => t x * inv_h_cell x

/-- `VorticityAuxVars::compute_vort_vertex`, `vorticity_aux.hpp:26-58`. -/
def compute_vort_vertex (vl w : Int) (h vn f : RArr) (ivertex kchunk : Int) : Prog R Unit := do
  let kstart ← imul kchunk vl
  let area ← rd1 .area_triangle ivertex
  let inv_area_triangle := lit 1 / area
  let acc ← forI 3 (fun _ : Int => (lit 0, lit 0)) fun j acc => do
    let jedge ← rdI2 .edges_on_vertex ivertex j
    let jcell ← rdI2 .cells_on_vertex ivertex j
    let v ← vld2 w vn jedge kstart
    let hc ← vld2 w h jcell kstart
    let dc ← rd1 .dc_edge jedge
    let sg ← rd2 .edge_sign_on_vertex ivertex j
    let kite ← rd2 .kiteareas_on_vertex ivertex j
    pure fun x => ((acc x).1 + dc * inv_area_triangle * sg * v x,
      (acc x).2 + kite * inv_area_triangle * hc x)
  let inv_thick_vertex := fun x => lit 1 / (acc x).2
  vst2 w .rvort_vertex ivertex kstart fun x => (acc x).1
  vst2 w .norm_rvort_vertex ivertex kstart fun x => (acc x).1 * inv_thick_vertex x
  let fv ← rd1 f ivertex
  vst2 w .norm_pvort_vertex ivertex kstart fun x => inv_thick_vertex x * fv

/-- `VorticityAuxVars::compute_vort_edge`, `vorticity_aux.hpp:60-83`. -/
def compute_vort_edge (vl w : Int) (iedge kchunk : Int) : Prog R Unit := do
  let kstart ← imul kchunk vl
  let jvertex0 ← rdI2 .vertices_on_edge iedge 0
  let jvertex1 ← rdI2 .vertices_on_edge iedge 1
  let r0 ← vld2 w .norm_rvort_vertex jvertex0 kstart
  let r1 ← vld2 w .norm_rvort_vertex jvertex1 kstart
  let p0 ← vld2 w .norm_pvort_vertex jvertex0 kstart
  let p1 ← vld2 w .norm_pvort_vertex jvertex1 kstart
  vst2 w .norm_rvort_edge iedge kstart fun x => half * (r0 x + r1 x)
  vst2 w .norm_pvort_edge iedge kstart fun x => half * (p0 x + p1 x)

/-! ### Tendency terms -/

/-- `ThicknessHorzAdvOnCell::operator()`, `thickness_hadv_cell.hpp:21-46`. -/
def thickness_hadv_cell (vl w : Int) (tend v h : RArr) (icell kchunk : Int) : Prog R Unit := do
  let kstart ← imul kchunk vl
  let area ← rd1 .area_cell icell
  let inv_area_cell := lit 1 / area
  let n ← rdI1 .nedges_on_cell icell
  let accum ← forI n (fun _ : Int => lit 0) fun j accum => do
    let jedge ← rdI2 .edges_on_cell icell j
    let vj ← vld2 w v jedge kstart
    let hj ← vld2 w h jedge kstart
    let dv ← rd1 .dv_edge jedge
    let sg ← rd2 .edge_sign_on_cell icell j
    pure fun x => accum x - dv * inv_area_cell * sg * hj x * vj x
  let t ← vld2 w tend icell kstart
  vst2 w tend icell kstart fun x => t x + accum x

/-- `PotentialVortFluxOnEdge::operator()`, `pv_flux_edge.hpp:19-54`. -/
def pv_flux_edge (vl w : Int) (tend nrv nf hflux vn : RArr) (iedge kchunk : Int) : Prog R Unit := do
  let kstart ← imul kchunk vl
  let ri ← vld2 w nrv iedge kstart
  let fi ← vld2 w nf iedge kstart
  let n ← rdI1 .nedges_on_edge iedge
  let qt ← forI n (fun _ : Int => lit 0) fun j qt => do
    let jedge ← rdI2 .edges_on_edge iedge j
    let rj ← vld2 w nrv jedge kstart
    let fj ← vld2 w nf jedge kstart
    let vj ← vld2 w vn jedge kstart
    let hj ← vld2 w hflux jedge kstart
    let norm_vort := fun x => half * (ri x + fi x + rj x + fj x)
    let w ← rd2 .weights_on_edge iedge j
    pure fun x => qt x + w * hj x * vj x * norm_vort x
  let t ← vld2 w tend iedge kstart
  vst2 w tend iedge kstart fun x => t x + qt x

/-- `KineticEnergyGradOnEdge::operator()`, `ke_grad_edge.hpp:18-35`. -/
def ke_grad_edge (vl w : Int) (tend ke : RArr) (iedge kchunk : Int) : Prog R Unit := do
  let kstart ← imul kchunk vl
  let icell0 ← rdI2 .cells_on_edge iedge 0
  let icell1 ← rdI2 .cells_on_edge iedge 1
  let dc ← rd1 .dc_edge iedge
  let inv_dc_edge := lit 1 / dc
  let k0 ← vld2 w ke icell0 kstart
  let k1 ← vld2 w ke icell1 kstart
  let t ← vld2 w tend iedge kstart
  vst2 w tend iedge kstart fun x => t x - (k1 x - k0 x) * inv_dc_edge

/-- `SSHGradOnEdge::operator()`, `ssh_grad_edge.hpp:19-35`. -/
def ssh_grad_edge (vl w : Int) (grav : R) (tend h : RArr) (iedge kchunk : Int) : Prog R Unit := do
  let kstart ← imul kchunk vl
  let icell0 ← rdI2 .cells_on_edge iedge 0
  let icell1 ← rdI2 .cells_on_edge iedge 1
  let dc ← rd1 .dc_edge iedge
  let inv_dc_edge := lit 1 / dc
  let h0 ← vld2 w h icell0 kstart
  let h1 ← vld2 w h icell1 kstart
  let t ← vld2 w tend iedge kstart
  vst2 w tend iedge kstart fun x => t x - grav * (h1 x - h0 x) * inv_dc_edge

/-- `VelocityDiffusionOnEdge::operator()`, `vel_diff_edge.hpp:24-59`. -/
def vel_diff_edge (vl w : Int) (visc : R) (tend div rvort : RArr) (iedge kchunk : Int) :
    Prog R Unit := do
  let kstart ← imul kchunk vl
  let icell0 ← rdI2 .cells_on_edge iedge 0
  let icell1 ← rdI2 .cells_on_edge iedge 1
  let ivertex0 ← rdI2 .vertices_on_edge iedge 0
  let ivertex1 ← rdI2 .vertices_on_edge iedge 1
  let dc ← rd1 .dc_edge iedge
  let dv ← rd1 .dv_edge iedge
  let dc_edge_inv := lit 1 / dc
  let dv_edge_inv := lit 1 / dv
  let d0 ← vld2 w div icell0 kstart
  let d1 ← vld2 w div icell1 kstart
  let r0 ← vld2 w rvort ivertex0 kstart
  let r1 ← vld2 w rvort ivertex1 kstart
  let del2u := fun x => (d1 x - d0 x) * dc_edge_inv - (r1 x - r0 x) * dv_edge_inv
  let mask ← vld2 w .edge_mask iedge kstart
  let t ← vld2 w tend iedge kstart
  let sc ← rd1 .mesh_scaling_del2 iedge
  vst2 w tend iedge kstart fun x => t x + visc * sc * mask x * del2u x

/-- `VelocityHyperDiffusionOnEdge::compute_vel_del2`, `vel_hyperdiff_edge.hpp:35-63`. -/
def compute_vel_del2 (vl w : Int) (div rvort : RArr) (iedge kchunk : Int) : Prog R Unit := do
  let kstart ← imul kchunk vl
  let icell0 ← rdI2 .cells_on_edge iedge 0
  let icell1 ← rdI2 .cells_on_edge iedge 1
  let ivertex0 ← rdI2 .vertices_on_edge iedge 0
  let ivertex1 ← rdI2 .vertices_on_edge iedge 1
  let dc ← rd1 .dc_edge iedge
  let dv ← rd1 .dv_edge iedge
  let dc' ← rd1 .dc_edge iedge
  let dc_edge_inv := lit 1 / dc
  let dv_edge_inv := lit 1 / maxS dv (quarter * dc')
  let d0 ← vld2 w div icell0 kstart
  let d1 ← vld2 w div icell1 kstart
  let r0 ← vld2 w rvort ivertex0 kstart
  let r1 ← vld2 w rvort ivertex1 kstart
  vst2 w .vel_del2_edge iedge kstart fun x =>
    (d1 x - d0 x) * dc_edge_inv - (r1 x - r0 x) * dv_edge_inv

/-- `VelocityHyperDiffusionOnEdge::compute_vel_del2_rvort`, `vel_hyperdiff_edge.hpp:65-80`.  The vector
`vel_del2_jedge` is loaded and not used: the sum uses the scalar element `(jedge, kstart)`. -/
def compute_vel_del2_rvort (vl w : Int) (ivertex kchunk : Int) : Prog R Unit := do
  let kstart ← imul kchunk vl
  let area ← rd1 .area_triangle ivertex
  let inv_area_triangle := lit 1 / area
  let rvort ← forI 3 (fun _ : Int => lit 0) fun j rvort => do
    let jedge ← rdI2 .edges_on_vertex ivertex j
    let _vel_del2_jedge ← vld2 w .vel_del2_edge jedge kstart
    let dc ← rd1 .dc_edge jedge
    let sg ← rd2 .edge_sign_on_vertex ivertex j
    let u ← rd2 .vel_del2_edge jedge kstart
    pure fun x => rvort x + dc * inv_area_triangle * sg * u
  vst2 w .vel_del2_rvort_vertex ivertex kstart rvort

/-- `VelocityHyperDiffusionOnEdge::compute_vel_del2_div`, `vel_hyperdiff_edge.hpp:82-97`. -/
def compute_vel_del2_div (vl w : Int) (icell kchunk : Int) : Prog R Unit := do
  let kstart ← imul kchunk vl
  let area ← rd1 .area_cell icell
  let inv_area_cell := lit 1 / area
  let n ← rdI1 .nedges_on_cell icell
  let accum ← forI n (fun _ : Int => lit 0) fun j accum => do
    let jedge ← rdI2 .edges_on_cell icell j
    let u ← vld2 w .vel_del2_edge jedge kstart
    let dv ← rd1 .dv_edge jedge
    let sg ← rd2 .edge_sign_on_cell icell j
    pure fun x => accum x + dv * inv_area_cell * sg * u x
  vst2 w .vel_del2_div_cell icell kstart accum

/-- `VelocityHyperDiffusionOnEdge::operator()`, `vel_hyperdiff_edge.hpp:99-138`. -/
def vel_hyperdiff_edge (vl w : Int) (visc4 : R) (tend : RArr) (iedge kchunk : Int) :
    Prog R Unit := do
  let kstart ← imul kchunk vl
  let icell0 ← rdI2 .cells_on_edge iedge 0
  let icell1 ← rdI2 .cells_on_edge iedge 1
  let ivertex0 ← rdI2 .vertices_on_edge iedge 0
  let ivertex1 ← rdI2 .vertices_on_edge iedge 1
  let dc ← rd1 .dc_edge iedge
  let dv ← rd1 .dv_edge iedge
  let dc_edge_inv := lit 1 / dc
  let dv_edge_inv := lit 1 / dv
  let d0 ← vld2 w .vel_del2_div_cell icell0 kstart
  let d1 ← vld2 w .vel_del2_div_cell icell1 kstart
  let r0 ← vld2 w .vel_del2_rvort_vertex ivertex0 kstart
  let r1 ← vld2 w .vel_del2_rvort_vertex ivertex1 kstart
  let del2u := fun x => (d1 x - d0 x) * dc_edge_inv - (r1 x - r0 x) * dv_edge_inv
  let mask ← vld2 w .edge_mask iedge kstart
  let t ← vld2 w tend iedge kstart
  let sc ← rd1 .mesh_scaling_del4 iedge
  vst2 w tend iedge kstart fun x => t x - mask x * visc4 * sc * del2u x

/-- `TracerHorzAdvOnCell::operator()`, `tracer_hadv_cell.hpp:22-58`. -/
def tracer_hadv_cell (vl w : Int) (tend v ntr hflux : RArr) (l icell kchunk : Int) :
    Prog R Unit := do
  let kstart ← imul kchunk vl
  let area ← rd1 .area_cell icell
  let inv_area_cell := lit 1 / area
  let n ← rdI1 .nedges_on_cell icell
  let accum ← forI n (fun _ : Int => lit 0) fun j accum => do
    let jedge ← rdI2 .edges_on_cell icell j
    let jcell0 ← rdI2 .cells_on_edge jedge 0
    let jcell1 ← rdI2 .cells_on_edge jedge 1
    let t0 ← vld3 w ntr l jcell0 kstart
    let t1 ← vld3 w ntr l jcell1 kstart
    let tj := fun x => half * (t0 x + t1 x)
    let hj ← vld2 w hflux jedge kstart
    let vj ← vld2 w v jedge kstart
    let dv ← rd1 .dv_edge jedge
    let sg ← rd2 .edge_sign_on_cell icell j
    pure fun x => accum x - dv * inv_area_cell * sg * hj x * tj x * vj x
  let t ← vld3 w tend l icell kstart
  vst3 w tend l icell kstart fun x => t x + accum x

/-- `TracerDiffusionOnCell::operator()`, `tracer_diff_cell.hpp:26-59`. -/
def tracer_diff_cell (vl w : Int) (eddy2 : R) (tend ntr hmean : RArr) (l icell kchunk : Int) :
    Prog R Unit := do
  let kstart ← imul kchunk vl
  let area ← rd1 .area_cell icell
  let inv_area_cell := lit 1 / area
  let n ← rdI1 .nedges_on_cell icell
  let accum ← forI n (fun _ : Int => lit 0) fun j accum => do
    let jedge ← rdI2 .edges_on_cell icell j
    let dc ← rd1 .dc_edge jedge
    let inv_dc_edge := lit 1 / dc
    let jcell0 ← rdI2 .cells_on_edge jedge 0
    let jcell1 ← rdI2 .cells_on_edge jedge 1
    let t0 ← vld3 w ntr l jcell0 kstart
    let t1 ← vld3 w ntr l jcell1 kstart
    let hj ← vld2 w hmean jedge kstart
    let grad := fun x => (t1 x - t0 x) * inv_dc_edge
    let dv ← rd1 .dv_edge jedge
    let sg ← rd2 .edge_sign_on_cell icell j
    let sc ← rd1 .mesh_scaling_del2 jedge
    pure fun x => accum x + eddy2 * inv_area_cell * dv * sg * sc * hj x * grad x
  let t ← vld3 w tend l icell kstart
  vst3 w tend l icell kstart fun x => t x + accum x

/-- `TracerHyperDiffusionOnCell::compute_tracer_del2`, `tracer_hyperdiff_cell.hpp:27-59`. -/
def compute_tracer_del2 (vl w : Int) (ntr hmean : RArr) (l icell kchunk : Int) : Prog R Unit := do
  let kstart ← imul kchunk vl
  let area ← rd1 .area_cell icell
  let inv_area_cell := lit 1 / area
  let n ← rdI1 .nedges_on_cell icell
  let accum ← forI n (fun _ : Int => lit 0) fun j accum => do
    let jedge ← rdI2 .edges_on_cell icell j
    let dc ← rd1 .dc_edge jedge
    let inv_dc_edge := lit 1 / dc
    let jcell0 ← rdI2 .cells_on_edge jedge 0
    let jcell1 ← rdI2 .cells_on_edge jedge 1
    let t0 ← vld3 w ntr l jcell0 kstart
    let t1 ← vld3 w ntr l jcell1 kstart
    let grad := fun x => (t1 x - t0 x) * inv_dc_edge
    let hj ← vld2 w hmean jedge kstart
    let dv ← rd1 .dv_edge jedge
    let sg ← rd2 .edge_sign_on_cell icell j
    pure fun x => accum x + dv * inv_area_cell * sg * hj x * grad x
  vst3 w .tracer_del2_cell l icell kstart accum

/-- `TracerHyperDiffusionOnCell::operator()`, `tracer_hyperdiff_cell.hpp:61-92`. -/
def tracer_hyperdiff_cell (vl w : Int) (eddy4 : R) (tend del2 : RArr) (l icell kchunk : Int) :
    Prog R Unit := do
  let kstart ← imul kchunk vl
  let area ← rd1 .area_cell icell
  let inv_area_cell := lit 1 / area
  let n ← rdI1 .nedges_on_cell icell
  let accum ← forI n (fun _ : Int => lit 0) fun j accum => do
    let jedge ← rdI2 .edges_on_cell icell j
    let dc ← rd1 .dc_edge jedge
    let inv_dc_edge := lit 1 / dc
    let jcell0 ← rdI2 .cells_on_edge jedge 0
    let jcell1 ← rdI2 .cells_on_edge jedge 1
    let t0 ← vld3 w del2 l jcell0 kstart
    let t1 ← vld3 w del2 l jcell1 kstart
    let grad := fun x => (t1 x - t0 x) * inv_dc_edge
    let dv ← rd1 .dv_edge jedge
    let sg ← rd2 .edge_sign_on_cell icell j
    let sc ← rd1 .mesh_scaling_del4 jedge
    pure fun x => accum x - eddy4 * inv_area_cell * dv * sg * sc * grad x
  let t ← vld3 w tend l icell kstart
  vst3 w tend l icell kstart fun x => t x + accum x

end Simd

variable {R : Type} [Scalar R]

/-- The `#ifdef OMEGA_KOKKOS_SIMD` branches. -/
def simdKernels (vl w : Int) : Kernels R where
  kinetic := Simd.compute_kinetic_cell vl w
  thickness := Simd.compute_thickness_edge vl w
  normTracer := Simd.compute_norm_tracer_cell vl w
  vortVertex := Simd.compute_vort_vertex vl w
  vortEdge := Simd.compute_vort_edge vl w
  hadv := Simd.thickness_hadv_cell vl w
  pvFlux := Simd.pv_flux_edge vl w
  keGrad := Simd.ke_grad_edge vl w
  sshGrad := Simd.ssh_grad_edge vl w
  velDiff := Simd.vel_diff_edge vl w
  velDel2 := Simd.compute_vel_del2 vl w
  velDel2Rvort := Simd.compute_vel_del2_rvort vl w
  velDel2Div := Simd.compute_vel_del2_div vl w
  velHyper := Simd.vel_hyperdiff_edge vl w
  trHadv := Simd.tracer_hadv_cell vl w
  trDiff := Simd.tracer_diff_cell vl w
  trDel2 := Simd.compute_tracer_del2 vl w
  trHyper := Simd.tracer_hyperdiff_cell vl w

end Model
end Omega
