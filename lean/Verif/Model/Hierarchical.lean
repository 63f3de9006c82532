import Verif.Model.Diagnostics

/-!
# The single-file implementation `src/shallow_water_hierarchical.cpp`

The file is in the tree but in no build target.  `parallel_outer` over rows with `parallel_inner` over
the layers is one iteration per (row, layer); the handler and `LaunchConfig` only choose how
iterations are mapped to threads.  Views keep the names of the modular code:
`m_div_cell` is `vel_div_cell`, `m_h_mean_edge`, `m_h_flux_edge` are `mean_h_edge`, `flux_h_edge`,
`m_norm_f_*` are `norm_pvort_*`, the temporaries `del2u_edge`, `del2div_cell`, `del2rvort_vertex`,
`tmp_tr_del2_cell` are `vel_del2_edge`, `vel_del2_div_cell`, `vel_del2_rvort_vertex`,
`tracer_del2_cell`.  `m_h_drag_edge` is written (`:277`) and never read; it is left out.  The literal
`-0` is the integer 0.  The compound assignments `x *= y` are `x = x * y`.
-/

namespace Omega
namespace Model

open Prog

variable {R : Type} [Scalar R]

/-- `ShallowWaterModel` of this file (`:115-132`): parameters and the virtual `additional_tendency`. -/
structure HModel (R : Type) where
  prm : Params R
  hook : R → StateId → StateId → List (Cmd R)

/-- the model without `additional_tendency` -/
def HModel.ofParams (prm : Params R) : HModel R := ⟨prm, fun _ _ _ => []⟩

/-! ### Auxiliary variables -/

/-- body of `compute_cell_auxiliary_variables`, `:157-187` -/
def h_cell_aux (ntracers : Int) (h vn tr : RArr) (icell k : Int) : Prog R Unit := do
  let n ← rdI1 .nedges_on_cell icell
  let s ← forI n (lit 0, lit 0) fun j s => do
    let jedge ← rdI2 .edges_on_cell icell j
    let dv ← rd1 .dv_edge jedge
    let dc ← rd1 .dc_edge jedge
    let v1 ← rd2 vn jedge k
    let v2 ← rd2 vn jedge k
    let sg ← rd2 .edge_sign_on_cell icell j
    pure (s.1 + dv * dc * v1 * v2 * quarter, s.2 + dv * sg * v1)
  let area ← rd1 .area_cell icell
  let inv_area_cell := lit 1 / area
  wr2 .vel_div_cell icell k (s.2 * inv_area_cell)
  wr2 .ke_cell icell k (s.1 * inv_area_cell)
  let hc ← rd2 h icell k
  let inv_h := lit 1 / hc
  forI ntracers () fun l _ => do
    let t ← rd3 tr l icell k
    wr3 .norm_tr_cell l icell k (t * inv_h)

/-- body of `compute_vertex_auxiliary_variables`, `:205-234` -/
def h_vertex_aux (h vn f : RArr) (ivertex k : Int) : Prog R Unit := do
  let area ← rd1 .area_triangle ivertex
  let inv_area_triangle := lit 1 / area
  let rcirc ← forI 3 (lit 0) fun j s => do
    let jedge ← rdI2 .edges_on_vertex ivertex j
    let dc ← rd1 .dc_edge jedge
    let sg ← rd2 .edge_sign_on_vertex ivertex j
    let v ← rd2 vn jedge k
    pure (s + dc * sg * v)
  let rvort := rcirc * inv_area_triangle
  let hs ← forI 3 (lit 0) fun j s => do
    let jcell ← rdI2 .cells_on_vertex ivertex j
    let kite ← rd2 .kiteareas_on_vertex ivertex j
    let hc ← rd2 h jcell k
    pure (s + kite * hc)
  let inv_h := lit 1 / (hs * inv_area_triangle)
  wr2 .rvort_vertex ivertex k rvort
  wr2 .norm_rvort_vertex ivertex k (rvort * inv_h)
  let fv ← rd1 f ivertex
  wr2 .norm_pvort_vertex ivertex k (fv * inv_h)

/-- body of `compute_edge_auxiliary_variables`, `:252-284` (without `h_drag_edge`) -/
def h_edge_aux (h : RArr) (iedge k : Int) : Prog R Unit := do
  let hs ← forI 2 (lit 0) fun j s => do
    let jcell ← rdI2 .cells_on_edge iedge j
    let hc ← rd2 h jcell k
    pure (s + hc)
  let s ← forI 2 (lit 0, lit 0) fun j s => do
    let jvertex ← rdI2 .vertices_on_edge iedge j
    let r ← rd2 .norm_rvort_vertex jvertex k
    let f ← rd2 .norm_pvort_vertex jvertex k
    pure (s.1 + r, s.2 + f)
  wr2 .mean_h_edge iedge k (hs * half)
  wr2 .flux_h_edge iedge k (hs * half)
  wr2 .norm_rvort_edge iedge k (s.1 * half)
  wr2 .norm_pvort_edge iedge k (s.2 * half)

/-- `compute_auxiliary_variables`, `:134-140` -/
def h_aux (d : Dims) (st : StateId) : List (Cmd R) :=
  [par2 d.nvertices d.nlayers (h_vertex_aux (.h_cell st) (.vn_edge st) .f_vertex),
   par2 d.ncells d.nlayers (h_cell_aux d.ntracers (.h_cell st) (.vn_edge st) (.tr_cell st)),
   par2 d.nedges d.nlayers (h_edge_aux (.h_cell st))]

/-! ### Tendencies -/

/-- the two `if (add_mode == ...)` stores that end the tendency kernels, e.g. `:315-321` -/
def put2m (mode : AddMode) (a : RArr) (i k : Int) (x : R) : Prog R Unit :=
  match mode with
  | .increment => do
    let t ← rd2 a i k
    wr2 a i k (t + x)
  | .replace => wr2 a i k x

/-- the same on a tracer view, `:630-636` -/
def put3m (mode : AddMode) (a : RArr) (l i k : Int) (x : R) : Prog R Unit :=
  match mode with
  | .increment => do
    let t ← rd3 a l i k
    wr3 a l i k (t + x)
  | .replace => wr3 a l i k x

/-- body of `compute_h_tendency`, `:299-325` -/
def h_htend (mode : AddMode) (tend vn : RArr) (icell k : Int) : Prog R Unit := do
  let n ← rdI1 .nedges_on_cell icell
  let accum ← forI n (lit 0) fun j s => do
    let jedge ← rdI2 .edges_on_cell icell j
    let dv ← rd1 .dv_edge jedge
    let sg ← rd2 .edge_sign_on_cell icell j
    let hf ← rd2 .flux_h_edge jedge k
    let v ← rd2 vn jedge k
    pure (s + dv * sg * hf * v)
  let area ← rd1 .area_cell icell
  let inv_area_cell := lit 1 / area
  put2m mode tend icell k (-accum * inv_area_cell)

/-- body of `compute_del2u_edge`, `:372-398` -/
def h_del2u (iedge k : Int) : Prog R Unit := do
  let icell0 ← rdI2 .cells_on_edge iedge 0
  let icell1 ← rdI2 .cells_on_edge iedge 1
  let ivertex0 ← rdI2 .vertices_on_edge iedge 0
  let ivertex1 ← rdI2 .vertices_on_edge iedge 1
  let dc ← rd1 .dc_edge iedge
  let dv ← rd1 .dv_edge iedge
  let dc_edge_inv := lit 1 / dc
  let dv_edge_inv := lit 1 / maxS dv (quarter * dc)
  let d1 ← rd2 .vel_div_cell icell1 k
  let d0 ← rd2 .vel_div_cell icell0 k
  let r1 ← rd2 .rvort_vertex ivertex1 k
  let r0 ← rd2 .rvort_vertex ivertex0 k
  wr2 .vel_del2_edge iedge k ((d1 - d0) * dc_edge_inv - (r1 - r0) * dv_edge_inv)

/-- body of `compute_del2div_cell`, `:400-419` -/
def h_del2div (icell k : Int) : Prog R Unit := do
  let n ← rdI1 .nedges_on_cell icell
  let s ← forI n (lit 0) fun j s => do
    let jedge ← rdI2 .edges_on_cell icell j
    let dv ← rd1 .dv_edge jedge
    let sg ← rd2 .edge_sign_on_cell icell j
    let u ← rd2 .vel_del2_edge jedge k
    pure (s + dv * sg * u)
  let area ← rd1 .area_cell icell
  let inv_area_cell := lit 1 / area
  wr2 .vel_del2_div_cell icell k (s * inv_area_cell)

/-- body of `compute_del2rvort_vertex`, `:421-441`; it reads the velocity, not `del2u_edge` (`:432`) -/
def h_del2rvort (vn : RArr) (ivertex k : Int) : Prog R Unit := do
  let s ← forI 3 (lit 0) fun j s => do
    let jedge ← rdI2 .edges_on_vertex ivertex j
    let dc ← rd1 .dc_edge jedge
    let sg ← rd2 .edge_sign_on_vertex ivertex j
    let v ← rd2 vn jedge k
    pure (s + dc * sg * v)
  let area ← rd1 .area_triangle ivertex
  let inv_area_triangle := lit 1 / area
  wr2 .vel_del2_rvort_vertex ivertex k (s * inv_area_triangle)

/-- body of `compute_vtend`, `:444-524` -/
def h_vtend (prm : Params R) (mode : AddMode) (tend h vn : RArr) (iedge k : Int) :
    Prog R Unit := do
  let n ← rdI1 .nedges_on_edge iedge
  let qt ← forI n (lit 0) fun j s => do
    let jedge ← rdI2 .edges_on_edge iedge j
    let r0 ← rd2 .norm_rvort_edge iedge k
    let f0 ← rd2 .norm_pvort_edge iedge k
    let r1 ← rd2 .norm_rvort_edge jedge k
    let f1 ← rd2 .norm_pvort_edge jedge k
    let norm_vort := (r0 + f0 + r1 + f1) * half
    let w ← rd2 .weights_on_edge iedge j
    let hf ← rd2 .flux_h_edge jedge k
    let v ← rd2 vn jedge k
    pure (s + w * hf * v * norm_vort)
  let icell0 ← rdI2 .cells_on_edge iedge 0
  let icell1 ← rdI2 .cells_on_edge iedge 1
  let ke0 ← rd2 .ke_cell icell0 k
  let ke1 ← rd2 .ke_cell icell1 k
  let dc ← rd1 .dc_edge iedge
  let inv_dc_edge := lit 1 / dc
  let h1 ← rd2 h icell1 k
  let h0 ← rd2 h icell0 k
  let grad_B := (ke1 - ke0 + prm.grav * (h1 - h0)) * inv_dc_edge
  let vn_tend := qt - grad_B
  let dv ← rd1 .dv_edge iedge
  let inv_dv_edge := lit 1 / dv
  let vn_tend ← if Scalar.lt (lit 0) prm.visc_del2 then do
      let ivertex0 ← rdI2 .vertices_on_edge iedge 0
      let ivertex1 ← rdI2 .vertices_on_edge iedge 1
      let sc ← rd1 .mesh_scaling_del2 iedge
      let d1 ← rd2 .vel_div_cell icell1 k
      let d0 ← rd2 .vel_div_cell icell0 k
      let r1 ← rd2 .rvort_vertex ivertex1 k
      let r0 ← rd2 .rvort_vertex ivertex0 k
      let visc2 := prm.visc_del2 * sc * ((d1 - d0) * inv_dc_edge - (r1 - r0) * inv_dv_edge)
      let mask ← rd2 .edge_mask iedge k
      pure (vn_tend + visc2 * mask)
    else pure vn_tend
  let vn_tend ← if Scalar.lt (lit 0) prm.visc_del4 then do
      let ivertex0 ← rdI2 .vertices_on_edge iedge 0
      let ivertex1 ← rdI2 .vertices_on_edge iedge 1
      let sc ← rd1 .mesh_scaling_del4 iedge
      let d1 ← rd2 .vel_del2_div_cell icell1 k
      let d0 ← rd2 .vel_del2_div_cell icell0 k
      let r1 ← rd2 .vel_del2_rvort_vertex ivertex1 k
      let r0 ← rd2 .vel_del2_rvort_vertex ivertex0 k
      let visc4 := prm.visc_del4 * sc * ((d1 - d0) * inv_dc_edge - (r1 - r0) * inv_dv_edge)
      let mask ← rd2 .edge_mask iedge k
      pure (vn_tend - visc4 * mask)
    else pure vn_tend
  put2m mode tend iedge k vn_tend

/-- body of `compute_tmp_tr_del2_cell`, `:553-581` -/
def h_trdel2 (l icell k : Int) : Prog R Unit := do
  let n ← rdI1 .nedges_on_cell icell
  let s ← forI n (lit 0) fun j s => do
    let jedge ← rdI2 .edges_on_cell icell j
    let jcell0 ← rdI2 .cells_on_edge jedge 0
    let jcell1 ← rdI2 .cells_on_edge jedge 1
    let dc ← rd1 .dc_edge jedge
    let inv_dc_edge := lit 1 / dc
    let t1 ← rd3 .norm_tr_cell l jcell1 k
    let t0 ← rd3 .norm_tr_cell l jcell0 k
    let grad_tr_edge := (t1 - t0) * inv_dc_edge
    let dv ← rd1 .dv_edge jedge
    let sg ← rd2 .edge_sign_on_cell icell j
    let hm ← rd2 .mean_h_edge jedge k
    let sc ← rd1 .mesh_scaling_del2 jedge
    pure (s + dv * sg * hm * sc * grad_tr_edge)
  let area ← rd1 .area_cell icell
  let inv_area_cell := lit 1 / area
  wr3 .tracer_del2_cell l icell k (s * inv_area_cell)

/-- body of `compute_tr_tend`, `:584-640` -/
def h_trtend (prm : Params R) (mode : AddMode) (tend vn : RArr) (l icell k : Int) :
    Prog R Unit := do
  let n ← rdI1 .nedges_on_cell icell
  let s ← forI n (lit 0) fun j s => do
    let jedge ← rdI2 .edges_on_cell icell j
    let jcell0 ← rdI2 .cells_on_edge jedge 0
    let jcell1 ← rdI2 .cells_on_edge jedge 1
    let t0 ← rd3 .norm_tr_cell l jcell0 k
    let t1 ← rd3 .norm_tr_cell l jcell1 k
    let norm_tr_edge := (t0 + t1) * half
    let hf ← rd2 .flux_h_edge jedge k
    let v ← rd2 vn jedge k
    let tr_flux := -hf * norm_tr_edge * v
    let dc ← rd1 .dc_edge jedge
    let inv_dc_edge := lit 1 / dc
    let tr_flux ← if Scalar.lt (lit 0) prm.eddy_diff2 then do
        let t1 ← rd3 .norm_tr_cell l jcell1 k
        let t0 ← rd3 .norm_tr_cell l jcell0 k
        let grad_tr_edge := (t1 - t0) * inv_dc_edge
        let hm ← rd2 .mean_h_edge jedge k
        pure (tr_flux + prm.eddy_diff2 * hm * grad_tr_edge)
      else pure tr_flux
    let tr_flux ← if Scalar.lt (lit 0) prm.eddy_diff4 then do
        let g1 ← rd3 .tracer_del2_cell l jcell1 k
        let g0 ← rd3 .tracer_del2_cell l jcell0 k
        let grad_tr_del2_edge := (g1 - g0) * inv_dc_edge
        let sc ← rd1 .mesh_scaling_del4 jedge
        pure (tr_flux - prm.eddy_diff4 * grad_tr_del2_edge * sc)
      else pure tr_flux
    let dv ← rd1 .dv_edge jedge
    let sg ← rd2 .edge_sign_on_cell icell j
    pure (s + dv * sg * tr_flux)
  let area ← rd1 .area_cell icell
  let inv_area_cell := lit 1 / area
  put3m mode tend l icell k (s * inv_area_cell)

/-- `ShallowWaterModel::compute_h_tendency`, `:287-326` -/
def h_compute_h (d : Dims) (mode : AddMode) (tn st : StateId) : List (Cmd R) :=
  [par2 d.ncells d.nlayers (h_htend mode (.h_cell tn) (.vn_edge st))]

/-- `ShallowWaterModel::compute_vn_tendency`, `:328-525` -/
def h_compute_vn (d : Dims) (prm : Params R) (mode : AddMode) (tn st : StateId) : List (Cmd R) :=
  (if Scalar.lt (lit 0) prm.visc_del4 then
    [par2 d.nedges d.nlayers h_del2u,
     par2 d.ncells d.nlayers h_del2div,
     par2 d.nvertices d.nlayers (h_del2rvort (.vn_edge st))] else []) ++
  [par2 d.nedges d.nlayers (h_vtend prm mode (.vn_edge tn) (.h_cell st) (.vn_edge st))]

/-- `ShallowWaterModel::compute_tr_tendency`, `:527-641` -/
def h_compute_tr (d : Dims) (prm : Params R) (mode : AddMode) (tn st : StateId) : List (Cmd R) :=
  (if Scalar.lt (lit 0) prm.eddy_diff4 then
    [par3 d.ntracers d.ncells d.nlayers h_trdel2] else []) ++
  [par3 d.ntracers d.ncells d.nlayers (h_trtend prm mode (.tr_cell tn) (.vn_edge st))]

/-- `ShallowWaterModelBase::compute_tendency`, `:21-57`, with the virtual functions of
`ShallowWaterModel` (timers omitted) -/
def h_compute_tendency (d : Dims) (sw : HModel R) (mode : AddMode) (tn st : StateId) (t : R) :
    List (Cmd R) :=
  h_aux d st ++
  ((if sw.prm.disable_h then [] else h_compute_h d mode tn st) ++
  ((if sw.prm.disable_vn then [] else h_compute_vn d sw.prm mode tn st) ++
  ((if 0 < d.ntracers then h_compute_tr d sw.prm mode tn st else []) ++
  sw.hook t tn st)))

/-! ### The linear model -/

/-- `LinearShallowWaterModel`, `:676-678`, as far as its tendency depends on it -/
structure LinModel (R : Type) where
  prm : Params R
  h0 : R

/-- body of `LinearShallowWaterModel::compute_h_tendency`, `:691-706` -/
def lin_htend (h0 : R) (mode : AddMode) (tend vn : RArr) (icell k : Int) : Prog R Unit := do
  let n ← rdI1 .nedges_on_cell icell
  let accum ← forI n (lit 0) fun j s => do
    let jedge ← rdI2 .edges_on_cell icell j
    let dv ← rd1 .dv_edge jedge
    let sg ← rd2 .edge_sign_on_cell icell j
    let v ← rd2 vn jedge k
    pure (s + dv * sg * v)
  let area ← rd1 .area_cell icell
  put2m mode tend icell k (-h0 * accum / area)

/-- body of `LinearShallowWaterModel::compute_vn_tendency`, `:721-740` -/
def lin_vtend (grav : R) (mode : AddMode) (tend h vn : RArr) (iedge k : Int) : Prog R Unit := do
  let n ← rdI1 .nedges_on_edge iedge
  let vt ← forI n (lit 0) fun j s => do
    let jedge ← rdI2 .edges_on_edge iedge j
    let w ← rd2 .weights_on_edge iedge j
    let v ← rd2 vn jedge k
    pure (s + w * v)
  let icell0 ← rdI2 .cells_on_edge iedge 0
  let icell1 ← rdI2 .cells_on_edge iedge 1
  let h1 ← rd2 h icell1 k
  let h0 ← rd2 h icell0 k
  let dc ← rd1 .dc_edge iedge
  let grad_h := (h1 - h0) / dc
  let f ← rd1 .f_edge iedge
  put2m mode tend iedge k (f * vt - grav * grad_h)

/-- `ShallowWaterModelBase::compute_tendency`, `:21-57`, with the virtual functions of
`LinearShallowWaterModel`: no auxiliary variables (`:18-19`).  The file defines no tracer tendency and
no additional tendency for the linear model; both are left out. -/
def lin_compute_tendency (d : Dims) (sw : LinModel R) (mode : AddMode) (tn st : StateId) :
    List (Cmd R) :=
  (if sw.prm.disable_h then [] else
    [par2 d.ncells d.nlayers (lin_htend sw.h0 mode (.h_cell tn) (.vn_edge st))]) ++
  (if sw.prm.disable_vn then [] else
    [par2 d.nedges d.nlayers
      (lin_vtend sw.prm.grav mode (.vn_edge tn) (.h_cell st) (.vn_edge st))])

/-! ### Integrals -/

/-- `yakl::intrinsics::sum` of a one-dimensional array whose element `i` is computed by `col i`
(e.g. `:65-72`): the elements are added in some order and grouping. -/
def sumCols (col : Int → Prog R R) (i : Int) (acc : R) : Prog R R := do
  let x ← col i
  pure (acc + x)

/-- column of `LinearShallowWaterModel::energy_integral`, `:756-771` -/
def lin_column_energy (grav h0 : R) (st : StateId) (icell : Int) : Prog R R := do
  let n ← rdI1 .max_level_cell icell
  forI n (lit 0) fun k column_energy => do
    let ne ← rdI1 .nedges_on_cell icell
    let K ← forI ne (lit 0) fun j K => do
      let jedge ← rdI2 .edges_on_cell icell j
      let dv ← rd1 .dv_edge jedge
      let dc ← rd1 .dc_edge jedge
      let v1 ← rd2 (.vn_edge st) jedge k
      let v2 ← rd2 (.vn_edge st) jedge k
      pure (K + dv * dc * v1 * v2 / lit 4)
    let area ← rd1 .area_cell icell
    let K := K / area
    let h ← rd2 (.h_cell st) icell k
    pure (column_energy + area * (grav * h * h / lit 2 + h0 * K))

/-- `LinearShallowWaterModel::energy_integral`, `:743-773` -/
def IsLinEnergyIntegral (d : Dims) (sw : LinModel R) (st : StateId) (m : Mem R) (v : R) : Prop :=
  Reduces d d.ncells (sumCols (lin_column_energy sw.prm.grav sw.h0 st)) m v

/-- column of `ShallowWaterModelBase::mass_integral`, `:65-71` -/
def h_column_mass (st : StateId) (icell : Int) : Prog R R := do
  let n ← rdI1 .max_level_cell icell
  forI n (lit 0) fun k column_mass => do
    let area ← rd1 .area_cell icell
    let h ← rd2 (.h_cell st) icell k
    pure (column_mass + area * h)

/-- `ShallowWaterModelBase::mass_integral`, `:59-73` -/
def IsHMassIntegral (d : Dims) (st : StateId) (m : Mem R) (v : R) : Prop :=
  Reduces d d.ncells (sumCols (h_column_mass st)) m v

end Model
end Omega
