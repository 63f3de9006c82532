import Verif.Model.Mesh

/-!
# Auxiliary-variable and tendency kernels, default build

These are the bodies compiled without `OMEGA_KOKKOS_SIMD`.  A view passed as an argument in the code
(`vn_edge`, `h_cell`, the tendency, ...) is an array name argument here.  `vl` is the compile-time
`vector_length` (`src/common.hpp:19-25`).  A local array `Real a[vector_length]` is a function of the
lane.  A loop bound `m_nedges_on_cell(icell)` is read once before the loop instead of at each test:
no kernel writes that table.
-/

namespace Omega
namespace Model

open Prog

variable {R : Type} [Scalar R]

/-- store into a local array `Real a[vector_length]` (`kinetic_aux.hpp:48` and all other kernels) -/
def lset {σ : Type} (a : Int → σ) (i : Int) (v : σ) : Int → σ := fun x => if x = i then v else a x

/-- The loop nest shared by the accumulating kernels (e.g. `thickness_hadv_cell.hpp:55-66`): local
array of accumulators initialised to `s0`; for each `j < n`, some loads `pre j`, then for each lane
update that lane's accumulator. -/
def forJK {σ β : Type} (n vl : Int) (s0 : σ) (pre : Int → Prog R β)
    (term : Int → β → Int → σ → Prog R σ) : Prog R (Int → σ) :=
  forI n (fun _ => s0) fun j acc => do
    let b ← pre j
    forI vl acc fun kvec acc => do
      let s ← term j b kvec (acc kvec)
      pure (lset acc kvec s)

/-- The lane loop shared by all kernels (e.g. `thickness_hadv_cell.hpp:68-71`):
`for (kvec) { const Int k = kstart + kvec; body }`. -/
def lanes (vl kstart : Int) (body : Int → Int → Prog R Unit) : Prog R Unit :=
  forI vl () fun kvec _ => do
    let k ← iadd kstart kvec
    body kvec k

/-- A lane loop computing a local array (e.g. `thickness_aux.hpp:39-44`). -/
def lanesL (vl kstart : Int) (body : Int → Prog R R) : Prog R (Int → R) :=
  forI vl (fun _ => lit 0) fun kvec acc => do
    let k ← iadd kstart kvec
    let v ← body k
    pure (lset acc kvec v)

/-! ### Auxiliary variables -/

/-- `KineticAuxVars::compute_kinetic_cell`, `kinetic_aux.hpp:44-73`. -/
def compute_kinetic_cell (vl : Int) (vn : RArr) (icell kchunk : Int) : Prog R Unit := do
  let kstart ← imul kchunk vl
  let area ← rd1 .area_cell icell
  let inv_area_cell := lit 1 / area
  let n ← rdI1 .nedges_on_cell icell
  let acc ← forJK n vl (lit 0, lit 0)
    (fun j => do
      let jedge ← rdI2 .edges_on_cell icell j
      let dv ← rd1 .dv_edge jedge
      let dc ← rd1 .dc_edge jedge
      pure (jedge, dv * dc))
    (fun j b kvec s => do
      let k ← iadd kstart kvec
      let v1 ← rd2 vn b.1 k
      let v2 ← rd2 vn b.1 k
      let dv ← rd1 .dv_edge b.1
      let sg ← rd2 .edge_sign_on_cell icell j
      let v3 ← rd2 vn b.1 k
      pure (s.1 + inv_area_cell * b.2 * v1 * v2 * quarter, s.2 + inv_area_cell * dv * sg * v3))
  lanes vl kstart fun kvec k => do
    wr2 .vel_div_cell icell k (acc kvec).2
    wr2 .ke_cell icell k (acc kvec).1

/-- `ThicknessAuxVars::compute_thickness_edge`, `thickness_aux.hpp:33-52`. -/
def compute_thickness_edge (vl : Int) (h : RArr) (iedge kchunk : Int) : Prog R Unit := do
  let kstart ← imul kchunk vl
  let jcell0 ← rdI2 .cells_on_edge iedge 0
  let jcell1 ← rdI2 .cells_on_edge iedge 1
  let mean ← lanesL vl kstart fun k => do
    let h0 ← rd2 h jcell0 k
    let h1 ← rd2 h jcell1 k
    pure (half * (h0 + h1))
  lanes vl kstart fun kvec k => do
    wr2 .mean_h_edge iedge k (mean kvec)
    wr2 .flux_h_edge iedge k (mean kvec)

/-- `TracerAuxVars::compute_norm_tracer_cell`, `tracer_aux.hpp:31-51`. -/
def compute_norm_tracer_cell (vl : Int) (tr h : RArr) (l icell kchunk : Int) : Prog R Unit := do
  let kstart ← imul vl kchunk
  let norm ← lanesL vl kstart fun k => do
    let hc ← rd2 h icell k
    let inv_h_cell := lit 1 / hc
    let t ← rd3 tr l icell k
    pure (t * inv_h_cell)
  lanes vl kstart fun kvec k => wr3 .norm_tr_cell l icell k (norm kvec)

/-- `VorticityAuxVars::compute_vort_vertex`, `vorticity_aux.hpp:85-116`. -/
def compute_vort_vertex (vl : Int) (h vn f : RArr) (ivertex kchunk : Int) : Prog R Unit := do
  let kstart ← imul kchunk vl
  let area ← rd1 .area_triangle ivertex
  let inv_area_triangle := lit 1 / area
  let acc ← forJK 3 vl (lit 0, lit 0)
    (fun j => do
      let jedge ← rdI2 .edges_on_vertex ivertex j
      let jcell ← rdI2 .cells_on_vertex ivertex j
      pure (jedge, jcell))
    (fun j b kvec s => do
      let k ← iadd kstart kvec
      let dc ← rd1 .dc_edge b.1
      let sg ← rd2 .edge_sign_on_vertex ivertex j
      let v ← rd2 vn b.1 k
      let kite ← rd2 .kiteareas_on_vertex ivertex j
      let hc ← rd2 h b.2 k
      pure (s.1 + dc * inv_area_triangle * sg * v, s.2 + kite * inv_area_triangle * hc))
  lanes vl kstart fun kvec k => do
    let inv_thick_vertex := lit 1 / (acc kvec).2
    wr2 .rvort_vertex ivertex k (acc kvec).1
    wr2 .norm_rvort_vertex ivertex k (inv_thick_vertex * (acc kvec).1)
    let fv ← rd1 f ivertex
    wr2 .norm_pvort_vertex ivertex k (inv_thick_vertex * fv)

/-- `VorticityAuxVars::compute_vort_edge`, `vorticity_aux.hpp:118-132`. -/
def compute_vort_edge (vl : Int) (iedge kchunk : Int) : Prog R Unit := do
  let kstart ← imul kchunk vl
  let jvertex0 ← rdI2 .vertices_on_edge iedge 0
  let jvertex1 ← rdI2 .vertices_on_edge iedge 1
  lanes vl kstart fun _ k => do
    let r0 ← rd2 .norm_rvort_vertex jvertex0 k
    let r1 ← rd2 .norm_rvort_vertex jvertex1 k
    wr2 .norm_rvort_edge iedge k (half * (r0 + r1))
    let p0 ← rd2 .norm_pvort_vertex jvertex0 k
    let p1 ← rd2 .norm_pvort_vertex jvertex1 k
    wr2 .norm_pvort_edge iedge k (half * (p0 + p1))

/-! ### Tendency terms -/

/-- `ThicknessHorzAdvOnCell::operator()`, `thickness_hadv_cell.hpp:48-72`. -/
def thickness_hadv_cell (vl : Int) (tend v h : RArr) (icell kchunk : Int) : Prog R Unit := do
  let kstart ← imul kchunk vl
  let area ← rd1 .area_cell icell
  let inv_area_cell := lit 1 / area
  let n ← rdI1 .nedges_on_cell icell
  let accum ← forJK n vl (lit 0) (fun j => rdI2 .edges_on_cell icell j)
    (fun j jedge kvec s => do
      let k ← iadd kstart kvec
      let dv ← rd1 .dv_edge jedge
      let sg ← rd2 .edge_sign_on_cell icell j
      let he ← rd2 h jedge k
      let ve ← rd2 v jedge k
      pure (s - dv * inv_area_cell * sg * he * ve))
  lanes vl kstart fun kvec k => do
    let t ← rd2 tend icell k
    wr2 tend icell k (t + accum kvec)

/-- `PotentialVortFluxOnEdge::operator()`, `pv_flux_edge.hpp:56-84`. -/
def pv_flux_edge (vl : Int) (tend nrv nf hflux vn : RArr) (iedge kchunk : Int) : Prog R Unit := do
  let kstart ← imul kchunk vl
  let n ← rdI1 .nedges_on_edge iedge
  let qt ← forJK n vl (lit 0) (fun j => rdI2 .edges_on_edge iedge j)
    (fun j jedge kvec s => do
      let k ← iadd kstart kvec
      let r0 ← rd2 nrv iedge k
      let f0 ← rd2 nf iedge k
      let r1 ← rd2 nrv jedge k
      let f1 ← rd2 nf jedge k
      let norm_vort := (r0 + f0 + r1 + f1) * half
      let w ← rd2 .weights_on_edge iedge j
      let hf ← rd2 hflux jedge k
      let v ← rd2 vn jedge k
      pure (s + w * hf * v * norm_vort))
  lanes vl kstart fun kvec k => do
    let t ← rd2 tend iedge k
    wr2 tend iedge k (t + qt kvec)

/-- `KineticEnergyGradOnEdge::operator()`, `ke_grad_edge.hpp:37-51`. -/
def ke_grad_edge (vl : Int) (tend ke : RArr) (iedge kchunk : Int) : Prog R Unit := do
  let kstart ← imul kchunk vl
  let icell0 ← rdI2 .cells_on_edge iedge 0
  let icell1 ← rdI2 .cells_on_edge iedge 1
  let dc ← rd1 .dc_edge iedge
  let inv_dc_edge := lit 1 / dc
  lanes vl kstart fun _ k => do
    let t ← rd2 tend iedge k
    let k1 ← rd2 ke icell1 k
    let k0 ← rd2 ke icell0 k
    wr2 tend iedge k (t - (k1 - k0) * inv_dc_edge)

/-- `SSHGradOnEdge::operator()`, `ssh_grad_edge.hpp:37-50`. -/
def ssh_grad_edge (vl : Int) (grav : R) (tend h : RArr) (iedge kchunk : Int) : Prog R Unit := do
  let kstart ← imul kchunk vl
  let icell0 ← rdI2 .cells_on_edge iedge 0
  let icell1 ← rdI2 .cells_on_edge iedge 1
  let dc ← rd1 .dc_edge iedge
  let inv_dc_edge := lit 1 / dc
  lanes vl kstart fun _ k => do
    let t ← rd2 tend iedge k
    let h1 ← rd2 h icell1 k
    let h0 ← rd2 h icell0 k
    wr2 tend iedge k (t - grav * (h1 - h0) * inv_dc_edge)

/-- `VelocityDiffusionOnEdge::operator()`, `vel_diff_edge.hpp:61-86`. -/
def vel_diff_edge (vl : Int) (visc : R) (tend div rvort : RArr) (iedge kchunk : Int) :
    Prog R Unit := do
  let kstart ← imul kchunk vl
  let icell0 ← rdI2 .cells_on_edge iedge 0
  let icell1 ← rdI2 .cells_on_edge iedge 1
  let ivertex0 ← rdI2 .vertices_on_edge iedge 0
  let ivertex1 ← rdI2 .vertices_on_edge iedge 1
  let dc ← rd1 .dc_edge iedge
  let dv ← rd1 .dv_edge iedge
  let dc_edge_inv := lit 1 / dc
  let dv_edge_inv := lit 1 / dv
  lanes vl kstart fun _ k => do
    let d1 ← rd2 div icell1 k
    let d0 ← rd2 div icell0 k
    let r1 ← rd2 rvort ivertex1 k
    let r0 ← rd2 rvort ivertex0 k
    let del2u := (d1 - d0) * dc_edge_inv - (r1 - r0) * dv_edge_inv
    let t ← rd2 tend iedge k
    let mask ← rd2 .edge_mask iedge k
    let sc ← rd1 .mesh_scaling_del2 iedge
    wr2 tend iedge k (t + mask * visc * sc * del2u)

/-- `VelocityHyperDiffusionOnEdge::compute_vel_del2`, `vel_hyperdiff_edge.hpp:140-164`. -/
def compute_vel_del2 (vl : Int) (div rvort : RArr) (iedge kchunk : Int) : Prog R Unit := do
  let kstart ← imul kchunk vl
  let icell0 ← rdI2 .cells_on_edge iedge 0
  let icell1 ← rdI2 .cells_on_edge iedge 1
  let ivertex0 ← rdI2 .vertices_on_edge iedge 0
  let ivertex1 ← rdI2 .vertices_on_edge iedge 1
  let dc ← rd1 .dc_edge iedge
  let dv ← rd1 .dv_edge iedge
  let dc_edge_inv := lit 1 / dc
  let dv_edge_inv := lit 1 / maxS dv (quarter * dc)
  lanes vl kstart fun _ k => do
    let d1 ← rd2 div icell1 k
    let d0 ← rd2 div icell0 k
    let r1 ← rd2 rvort ivertex1 k
    let r0 ← rd2 rvort ivertex0 k
    let del2u := (d1 - d0) * dc_edge_inv - (r1 - r0) * dv_edge_inv
    wr2 .vel_del2_edge iedge k del2u

/-- `VelocityHyperDiffusionOnEdge::compute_vel_del2_rvort`, `vel_hyperdiff_edge.hpp:166-187`. -/
def compute_vel_del2_rvort (vl : Int) (ivertex kchunk : Int) : Prog R Unit := do
  let kstart ← imul kchunk vl
  let area ← rd1 .area_triangle ivertex
  let inv_area_triangle := lit 1 / area
  let rvort ← forJK 3 vl (lit 0) (fun j => rdI2 .edges_on_vertex ivertex j)
    (fun j jedge kvec s => do
      let k ← iadd kstart kvec
      let dc ← rd1 .dc_edge jedge
      let sg ← rd2 .edge_sign_on_vertex ivertex j
      let v ← rd2 .vel_del2_edge jedge k
      pure (s + dc * inv_area_triangle * sg * v))
  lanes vl kstart fun kvec k => wr2 .vel_del2_rvort_vertex ivertex k (rvort kvec)

/-- `VelocityHyperDiffusionOnEdge::compute_vel_del2_div`, `vel_hyperdiff_edge.hpp:189-210`. -/
def compute_vel_del2_div (vl : Int) (icell kchunk : Int) : Prog R Unit := do
  let kstart ← imul kchunk vl
  let area ← rd1 .area_cell icell
  let inv_area_cell := lit 1 / area
  let n ← rdI1 .nedges_on_cell icell
  let accum ← forJK n vl (lit 0) (fun j => rdI2 .edges_on_cell icell j)
    (fun j jedge kvec s => do
      let k ← iadd kstart kvec
      let dv ← rd1 .dv_edge jedge
      let sg ← rd2 .edge_sign_on_cell icell j
      let v ← rd2 .vel_del2_edge jedge k
      pure (s + dv * inv_area_cell * sg * v))
  lanes vl kstart fun kvec k => wr2 .vel_del2_div_cell icell k (accum kvec)

/-- `VelocityHyperDiffusionOnEdge::operator()`, `vel_hyperdiff_edge.hpp:212-237`. -/
def vel_hyperdiff_edge (vl : Int) (visc4 : R) (tend : RArr) (iedge kchunk : Int) :
    Prog R Unit := do
  let kstart ← imul kchunk vl
  let icell0 ← rdI2 .cells_on_edge iedge 0
  let icell1 ← rdI2 .cells_on_edge iedge 1
  let ivertex0 ← rdI2 .vertices_on_edge iedge 0
  let ivertex1 ← rdI2 .vertices_on_edge iedge 1
  let dc ← rd1 .dc_edge iedge
  let dv ← rd1 .dv_edge iedge
  let dc_edge_inv := lit 1 / dc
  let dv_edge_inv := lit 1 / dv
  lanes vl kstart fun _ k => do
    let d1 ← rd2 .vel_del2_div_cell icell1 k
    let d0 ← rd2 .vel_del2_div_cell icell0 k
    let r1 ← rd2 .vel_del2_rvort_vertex ivertex1 k
    let r0 ← rd2 .vel_del2_rvort_vertex ivertex0 k
    let del2u := (d1 - d0) * dc_edge_inv - (r1 - r0) * dv_edge_inv
    let t ← rd2 tend iedge k
    let mask ← rd2 .edge_mask iedge k
    let sc ← rd1 .mesh_scaling_del4 iedge
    wr2 tend iedge k (t - mask * visc4 * sc * del2u)

/-- `TracerHorzAdvOnCell::operator()`, `tracer_hadv_cell.hpp:60-90`. -/
def tracer_hadv_cell (vl : Int) (tend v ntr hflux : RArr) (l icell kchunk : Int) :
    Prog R Unit := do
  let kstart ← imul kchunk vl
  let area ← rd1 .area_cell icell
  let inv_area_cell := lit 1 / area
  let n ← rdI1 .nedges_on_cell icell
  let accum ← forJK n vl (lit 0)
    (fun j => do
      let jedge ← rdI2 .edges_on_cell icell j
      let jcell0 ← rdI2 .cells_on_edge jedge 0
      let jcell1 ← rdI2 .cells_on_edge jedge 1
      pure (jedge, jcell0, jcell1))
    (fun j b kvec s => do
      let k ← iadd kstart kvec
      let t0 ← rd3 ntr l b.2.1 k
      let t1 ← rd3 ntr l b.2.2 k
      let norm_tr_edge := (t0 + t1) * half
      let dv ← rd1 .dv_edge b.1
      let sg ← rd2 .edge_sign_on_cell icell j
      let hf ← rd2 hflux b.1 k
      let ve ← rd2 v b.1 k
      pure (s - dv * inv_area_cell * sg * hf * norm_tr_edge * ve))
  lanes vl kstart fun kvec k => do
    let t ← rd3 tend l icell k
    wr3 tend l icell k (t + accum kvec)

/-- `TracerDiffusionOnCell::operator()`, `tracer_diff_cell.hpp:61-92`. -/
def tracer_diff_cell (vl : Int) (eddy2 : R) (tend ntr hmean : RArr) (l icell kchunk : Int) :
    Prog R Unit := do
  let kstart ← imul kchunk vl
  let area ← rd1 .area_cell icell
  let inv_area_cell := lit 1 / area
  let n ← rdI1 .nedges_on_cell icell
  let accum ← forJK n vl (lit 0)
    (fun j => do
      let jedge ← rdI2 .edges_on_cell icell j
      let dc ← rd1 .dc_edge jedge
      let jcell0 ← rdI2 .cells_on_edge jedge 0
      let jcell1 ← rdI2 .cells_on_edge jedge 1
      pure (jedge, jcell0, jcell1, lit 1 / dc))
    (fun j b kvec s => do
      let k ← iadd kstart kvec
      let t1 ← rd3 ntr l b.2.2.1 k
      let t0 ← rd3 ntr l b.2.1 k
      let grad_tr_edge := (t1 - t0) * b.2.2.2
      let dv ← rd1 .dv_edge b.1
      let sg ← rd2 .edge_sign_on_cell icell j
      let hm ← rd2 hmean b.1 k
      let sc ← rd1 .mesh_scaling_del2 b.1
      pure (s + eddy2 * inv_area_cell * dv * sg * hm * sc * grad_tr_edge))
  lanes vl kstart fun kvec k => do
    let t ← rd3 tend l icell k
    wr3 tend l icell k (t + accum kvec)

/-- `TracerHyperDiffusionOnCell::compute_tracer_del2`, `tracer_hyperdiff_cell.hpp:94-129`. -/
def compute_tracer_del2 (vl : Int) (ntr hmean : RArr) (l icell kchunk : Int) : Prog R Unit := do
  let kstart ← imul kchunk vl
  let area ← rd1 .area_cell icell
  let inv_area_cell := lit 1 / area
  let n ← rdI1 .nedges_on_cell icell
  let accum ← forJK n vl (lit 0)
    (fun j => do
      let jedge ← rdI2 .edges_on_cell icell j
      let dc ← rd1 .dc_edge jedge
      let jcell0 ← rdI2 .cells_on_edge jedge 0
      let jcell1 ← rdI2 .cells_on_edge jedge 1
      pure (jedge, jcell0, jcell1, lit 1 / dc))
    (fun j b kvec s => do
      let k ← iadd kstart kvec
      let t1 ← rd3 ntr l b.2.2.1 k
      let t0 ← rd3 ntr l b.2.1 k
      let grad_tr_edge := (t1 - t0) * b.2.2.2
      let dv ← rd1 .dv_edge b.1
      let sg ← rd2 .edge_sign_on_cell icell j
      let hm ← rd2 hmean b.1 k
      pure (s + dv * inv_area_cell * sg * hm * grad_tr_edge))
  lanes vl kstart fun kvec k => wr3 .tracer_del2_cell l icell k (accum kvec)

/-- `TracerHyperDiffusionOnCell::operator()`, `tracer_hyperdiff_cell.hpp:131-161`. -/
def tracer_hyperdiff_cell (vl : Int) (eddy4 : R) (tend del2 : RArr) (l icell kchunk : Int) :
    Prog R Unit := do
  let kstart ← imul kchunk vl
  let area ← rd1 .area_cell icell
  let inv_area_cell := lit 1 / area
  let n ← rdI1 .nedges_on_cell icell
  let accum ← forJK n vl (lit 0)
    (fun j => do
      let jedge ← rdI2 .edges_on_cell icell j
      let dc ← rd1 .dc_edge jedge
      let jcell0 ← rdI2 .cells_on_edge jedge 0
      let jcell1 ← rdI2 .cells_on_edge jedge 1
      pure (jedge, jcell0, jcell1, lit 1 / dc))
    (fun j b kvec s => do
      let k ← iadd kstart kvec
      let t1 ← rd3 del2 l b.2.2.1 k
      let t0 ← rd3 del2 l b.2.1 k
      let grad_tr_del2_edge := (t1 - t0) * b.2.2.2
      let dv ← rd1 .dv_edge b.1
      let sg ← rd2 .edge_sign_on_cell icell j
      let sc ← rd1 .mesh_scaling_del4 b.1
      pure (s - eddy4 * inv_area_cell * dv * sg * sc * grad_tr_del2_edge))
  lanes vl kstart fun kvec k => do
    let t ← rd3 tend l icell k
    wr3 tend l icell k (t + accum kvec)

/-! ### Replace mode -/

/-- the zeroing loop of `shallow_water_model.cpp:56-59, 74-79, 137-140, 189-194`
(`k = kchunk * vector_length + kvec`) on a rank-2 tendency -/
def zero2 (vl : Int) (tend : RArr) (i kchunk : Int) : Prog R Unit :=
  forI vl () fun kvec _ => do
    let ks ← imul kchunk vl
    let k ← iadd ks kvec
    wr2 tend i k (lit 0)

/-- the zeroing loop of `shallow_water_model.cpp:252-255, 289-294` on the rank-3 tendency -/
def zero3 (vl : Int) (tend : RArr) (l i kchunk : Int) : Prog R Unit :=
  forI vl () fun kvec _ => do
    let ks ← imul kchunk vl
    let k ← iadd ks kvec
    wr3 tend l i k (lit 0)

/-! ### The set of kernels of one build -/

/-- The kernels selected by the preprocessor symbol `OMEGA_KOKKOS_SIMD` in
`auxiliary_vars/*.hpp` and `tendency_terms/*.hpp`: `defaultKernels` here, `simdKernels` in
`KernelsSimd.lean`. -/
structure Kernels (R : Type) where
  kinetic : (vn : RArr) → (icell kchunk : Int) → Prog R Unit
  thickness : (h : RArr) → (iedge kchunk : Int) → Prog R Unit
  normTracer : (tr h : RArr) → (l icell kchunk : Int) → Prog R Unit
  vortVertex : (h vn f : RArr) → (ivertex kchunk : Int) → Prog R Unit
  vortEdge : (iedge kchunk : Int) → Prog R Unit
  hadv : (tend v h : RArr) → (icell kchunk : Int) → Prog R Unit
  pvFlux : (tend nrv nf hflux vn : RArr) → (iedge kchunk : Int) → Prog R Unit
  keGrad : (tend ke : RArr) → (iedge kchunk : Int) → Prog R Unit
  sshGrad : (grav : R) → (tend h : RArr) → (iedge kchunk : Int) → Prog R Unit
  velDiff : (visc : R) → (tend div rvort : RArr) → (iedge kchunk : Int) → Prog R Unit
  velDel2 : (div rvort : RArr) → (iedge kchunk : Int) → Prog R Unit
  velDel2Rvort : (ivertex kchunk : Int) → Prog R Unit
  velDel2Div : (icell kchunk : Int) → Prog R Unit
  velHyper : (visc4 : R) → (tend : RArr) → (iedge kchunk : Int) → Prog R Unit
  trHadv : (tend v ntr hflux : RArr) → (l icell kchunk : Int) → Prog R Unit
  trDiff : (eddy2 : R) → (tend ntr hmean : RArr) → (l icell kchunk : Int) → Prog R Unit
  trDel2 : (ntr hmean : RArr) → (l icell kchunk : Int) → Prog R Unit
  trHyper : (eddy4 : R) → (tend del2 : RArr) → (l icell kchunk : Int) → Prog R Unit

/-- The `#else` branches of the `OMEGA_KOKKOS_SIMD` conditionals (the default build). -/
def defaultKernels (vl : Int) : Kernels R where
  kinetic := compute_kinetic_cell vl
  thickness := compute_thickness_edge vl
  normTracer := compute_norm_tracer_cell vl
  vortVertex := compute_vort_vertex vl
  vortEdge := compute_vort_edge vl
  hadv := thickness_hadv_cell vl
  pvFlux := pv_flux_edge vl
  keGrad := ke_grad_edge vl
  sshGrad := ssh_grad_edge vl
  velDiff := vel_diff_edge vl
  velDel2 := compute_vel_del2 vl
  velDel2Rvort := compute_vel_del2_rvort vl
  velDel2Div := compute_vel_del2_div vl
  velHyper := vel_hyperdiff_edge vl
  trHadv := tracer_hadv_cell vl
  trDiff := tracer_diff_cell vl
  trDel2 := compute_tracer_del2 vl
  trHyper := tracer_hyperdiff_cell vl

end Model
end Omega
