import Verif.Model.ShallowWater
import Mathlib.Algebra.BigOperators.Intervals
import Mathlib.Order.Interval.Finset.Basic
import Mathlib.Data.Int.Interval

/-!
# The discrete operators of the TRiSK scheme

Textbook definitions (Ringler et al. 2010; MPAS notation) on the mesh tables of a memory, in exact
arithmetic.  They are written as sums and quotients, independently of the loops of the code.
-/

namespace Omega
noncomputable section

namespace Spec

open Model Finset

variable (m : Mem ℝ)

/-- cells, edges, vertices -/
abbrev cells (d : Dims) : Finset ℤ := Finset.Ico 0 d.ncells
/-- edges -/
abbrev edges (d : Dims) : Finset ℤ := Finset.Ico 0 d.nedges
/-- vertices -/
abbrev verts (d : Dims) : Finset ℤ := Finset.Ico 0 d.nvertices
/-- layers, with the padding -/
abbrev layers (d : Dims) : Finset ℤ := Finset.Ico 0 d.nlayers

/-- area of a cell -/
abbrev areaC (c : Int) : ℝ := m.real .area_cell 0 c 0
/-- area of a triangle -/
abbrev areaT (v : Int) : ℝ := m.real .area_triangle 0 v 0
/-- distance of the cell centers of an edge -/
abbrev dcE (e : Int) : ℝ := m.real .dc_edge 0 e 0
/-- length of an edge -/
abbrev dvE (e : Int) : ℝ := m.real .dv_edge 0 e 0
/-- cell on side `s` of an edge -/
abbrev cellOf (e s : Int) : Int := m.int .cells_on_edge e s
/-- end point `s` of an edge -/
abbrev vertOf (e s : Int) : Int := m.int .vertices_on_edge e s
/-- side `j` of a cell -/
abbrev side (c j : Int) : Int := m.int .edges_on_cell c j
/-- edge `j` at a vertex -/
abbrev spoke (v j : Int) : Int := m.int .edges_on_vertex v j

/-- normal derivative of a cell field on an edge -/
def grad (φ : Int → ℝ) (e : Int) : ℝ := (φ (cellOf m e 1) - φ (cellOf m e 0)) / dcE m e
/-- tangential derivative of a vertex field on an edge -/
def gradT (ψ : Int → ℝ) (e : Int) : ℝ := (ψ (vertOf m e 1) - ψ (vertOf m e 0)) / dvE m e
/-- divergence of an edge field on a cell -/
def div (u : Int → ℝ) (c : Int) : ℝ :=
  (∑ j ∈ Ico 0 (m.int .nedges_on_cell c 0),
    m.real .edge_sign_on_cell 0 c j * dvE m (side m c j) * u (side m c j)) / areaC m c
/-- curl of an edge field on a vertex -/
def curl (u : Int → ℝ) (v : Int) : ℝ :=
  (∑ j ∈ Ico (0 : Int) 3,
    m.real .edge_sign_on_vertex 0 v j * dcE m (spoke m v j) * u (spoke m v j)) / areaT m v
/-- mean of a cell field on an edge -/
def mean (φ : Int → ℝ) (e : Int) : ℝ := (φ (cellOf m e 0) + φ (cellOf m e 1)) / 2
/-- mean of a vertex field on an edge -/
def vmean (ψ : Int → ℝ) (e : Int) : ℝ := (ψ (vertOf m e 0) + ψ (vertOf m e 1)) / 2
/-- kite-weighted mean of a cell field on a vertex -/
def kiteMean (φ : Int → ℝ) (v : Int) : ℝ :=
  (∑ j ∈ Ico (0 : Int) 3, m.real .kiteareas_on_vertex 0 v j * φ (m.int .cells_on_vertex v j)) /
    areaT m v
/-- kinetic energy per unit mass on a cell -/
def kinetic (u : Int → ℝ) (c : Int) : ℝ :=
  (∑ j ∈ Ico 0 (m.int .nedges_on_cell c 0),
    dcE m (side m c j) * dvE m (side m c j) * u (side m c j) ^ 2 / 4) / areaC m c
/-- tangential component reconstructed from normal components -/
def tang (u : Int → ℝ) (e : Int) : ℝ :=
  ∑ j ∈ Ico 0 (m.int .nedges_on_edge e 0),
    m.real .weights_on_edge 0 e j * u (m.int .edges_on_edge e j)
/-- flux of the edge vorticity `q` with the mass flux `F`, averaged so as to do no work -/
def pvFlux (q F : Int → ℝ) (e : Int) : ℝ :=
  ∑ j ∈ Ico 0 (m.int .nedges_on_edge e 0), m.real .weights_on_edge 0 e j *
    F (m.int .edges_on_edge e j) * ((q e + q (m.int .edges_on_edge e j)) / 2)
/-- potential vorticity on a vertex -/
def pv (h u : Int → ℝ) (v : Int) : ℝ := (curl m u v + m.real .f_vertex 0 v 0) / kiteMean m h v
/-- vector Laplacian, with the limit on short edges -/
def vecLap (u : Int → ℝ) (e : Int) : ℝ :=
  grad m (div m u) e -
    (curl m u (vertOf m e 1) - curl m u (vertOf m e 0)) / max (dvE m e) (dcE m e / 4)

/-- thickness tendency of one layer -/
def thicknessTend (sw : SWModel ℝ) (h u : Int → ℝ) (c : Int) : ℝ :=
  if sw.en_hadv then -div m (fun e => mean m h e * u e) c else 0

/-- velocity tendency of one layer `k` -/
def velocityTend (sw : SWModel ℝ) (k : Int) (h u : Int → ℝ) (e : Int) : ℝ :=
  (if sw.en_pv then pvFlux m (vmean m (pv m h u)) (fun e => mean m h e * u e) e else 0) -
  (if sw.en_ke then grad m (kinetic m u) e else 0) -
  (if sw.en_ssh then sw.prm.grav * grad m h e else 0) +
  (if sw.en_vdiff then sw.prm.visc_del2 * m.real .edge_mask 0 e k *
    m.real .mesh_scaling_del2 0 e 0 * (grad m (div m u) e - gradT m (curl m u) e) else 0) -
  (if sw.en_vhyper then sw.prm.visc_del4 * m.real .edge_mask 0 e k *
    m.real .mesh_scaling_del4 0 e 0 *
      (grad m (div m (vecLap m u)) e - gradT m (curl m (vecLap m u)) e) else 0)

/-- tracer tendency of one layer, for a tracer with content `s` -/
def tracerTend (sw : SWModel ℝ) (h u s : Int → ℝ) (c : Int) : ℝ :=
  (if sw.en_thadv then
    -div m (fun e => mean m h e * mean m (fun i => s i / h i) e * u e) c else 0) +
  (if sw.en_tdiff then sw.prm.eddy_diff2 * div m (fun e => m.real .mesh_scaling_del2 0 e 0 *
    mean m h e * grad m (fun i => s i / h i) e) c else 0) -
  (if sw.en_thyper then sw.prm.eddy_diff4 * div m (fun e => m.real .mesh_scaling_del4 0 e 0 *
    grad m (div m fun e => mean m h e * grad m (fun i => s i / h i) e) e) c else 0)

end Spec
end
end Omega
