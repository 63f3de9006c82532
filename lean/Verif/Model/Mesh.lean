import Verif.Kokkos.Par

/-!
# Model of the mesh construction

`src/mesh/planar_hexagonal_mesh.cpp` and `src/mesh/mpas_mesh.cpp`.
-/

namespace Omega
namespace Model

open Prog

variable {R : Type} [Scalar R]

/-- Constructor arguments of `PlanarHexagonalMesh` (`planar_hexagonal_mesh.cpp:8-9`), with the
compile-time vector length and the tracer count of the model that will use the mesh. -/
structure MeshParams where
  nx : Int
  ny : Int
  nlayers : Int
  ntracers : Int
  vl : Int
  deriving Repr, DecidableEq

/-- `std::ceil(Real(nlayers) / vector_length)`, converted back to `Int`
(`planar_hexagonal_mesh.cpp:11-12`).  Simplification: the division is done in exact rationals; in the
code it is a double division, exact because `vector_length` is a power of two. -/
def ceilDiv (nlayers vl : Int) : Int := Int.ceil ((nlayers : ℚ) / (vl : ℚ))

/-- Sizes set by the constructor, `planar_hexagonal_mesh.cpp:11-15`. -/
def MeshParams.dims (p : MeshParams) : Dims where
  nlayers := ceilDiv p.nlayers p.vl * p.vl
  nlayersVec := ceilDiv p.nlayers p.vl
  ncells := p.nx * p.ny
  nedges := 3 * (p.nx * p.ny)
  nvertices := 2 * (p.nx * p.ny)
  ntracers := p.ntracers
  vl := p.vl

/-- The host arithmetic of the constructor on 32-bit `Int`s, `planar_hexagonal_mesh.cpp:11-15`: each
product, and each conversion of `std::ceil(..)` back to `Int`, must be in range. -/
def hostDims (p : MeshParams) : Prog R Dims := do
  let nl ← int32 (ceilDiv p.nlayers p.vl * p.vl)
  let nlv ← int32 (ceilDiv p.nlayers p.vl)
  let ncells ← imul p.nx p.ny
  let nedges ← imul 3 ncells
  let nvertices ← imul 2 ncells
  pure { nlayers := nl, nlayersVec := nlv, ncells := ncells, nedges := nedges,
         nvertices := nvertices, ntracers := p.ntracers, vl := p.vl }

/-- `m_period_x = nx * dc`, `planar_hexagonal_mesh.cpp:16`. -/
def periodX (nx : Int) (dc : R) : R := lit nx * dc
/-- `m_period_y = ny * dc * sqrt(3) / 2`, `planar_hexagonal_mesh.cpp:17`. -/
def periodY (ny : Int) (dc : R) : R := lit ny * dc * Scalar.sqrt (lit 3) / lit 2
/-- The default spacing `1. / nx` of the three-argument constructor,
`planar_hexagonal_mesh.cpp:5-6`. -/
def defaultDc (nx : Int) : R := lit 1 / lit nx

/-- `PlanarHexagonalMesh::cellidx`, `planar_hexagonal_mesh.cpp:64-67`. -/
def cellidx (nx icol irow : Int) : Prog R Int := do
  let t ← imul irow nx
  iadd t icol

/-- `PlanarHexagonalMesh::cell_on_cell`, `planar_hexagonal_mesh.cpp:69-117`. -/
def cell_on_cell (nx ny icol irow nb : Int) : Prog R Int := do
  let nx1 ← isub nx 1
  let ny1 ← isub ny 1
  let mx ← (if icol = 0 then pure nx1 else isub icol 1)
  let px ← (if icol = nx1 then pure 0 else iadd icol 1)
  let my ← (if irow = 0 then pure ny1 else isub irow 1)
  let py ← (if irow = ny1 then pure 0 else iadd irow 1)
  if irow.tmod 2 = 0 then
    if nb = 0 then cellidx nx mx irow
    else if nb = 1 then cellidx nx mx my
    else if nb = 2 then cellidx nx icol my
    else if nb = 3 then cellidx nx px irow
    else if nb = 4 then cellidx nx icol py
    else if nb = 5 then cellidx nx mx py
    else pure (-1)
  else
    if nb = 0 then cellidx nx mx irow
    else if nb = 1 then cellidx nx icol my
    else if nb = 2 then cellidx nx px my
    else if nb = 3 then cellidx nx px irow
    else if nb = 4 then cellidx nx px py
    else if nb = 5 then cellidx nx icol py
    else pure (-1)

/-- `PlanarHexagonalMesh::edge_on_cell`, `planar_hexagonal_mesh.cpp:119-141`. -/
def edge_on_cell (nx ny icell icol irow nb : Int) : Prog R Int :=
  if nb = 0 then imul 3 icell
  else if nb = 1 then do let t ← imul 3 icell; iadd t 1
  else if nb = 2 then do let t ← imul 3 icell; iadd t 2
  else if nb = 3 then do let c ← cell_on_cell nx ny icol irow nb; imul 3 c
  else if nb = 4 then do let c ← cell_on_cell nx ny icol irow nb; let t ← imul 3 c; iadd t 1
  else if nb = 5 then do let c ← cell_on_cell nx ny icol irow nb; let t ← imul 3 c; iadd t 2
  else pure (-1)

/-- `PlanarHexagonalMesh::vertex_on_cell`, `planar_hexagonal_mesh.cpp:143-166`. -/
def vertex_on_cell (nx ny icell icol irow nb : Int) : Prog R Int :=
  if nb = 0 then imul 2 icell
  else if nb = 1 then do let t ← imul 2 icell; iadd t 1
  else if nb = 2 then do let c ← cell_on_cell nx ny icol irow 2; imul 2 c
  else if nb = 3 then do let c ← cell_on_cell nx ny icol irow 3; let t ← imul 2 c; iadd t 1
  else if nb = 4 then do let c ← cell_on_cell nx ny icol irow 3; imul 2 c
  else if nb = 5 then do let c ← cell_on_cell nx ny icol irow 4; let t ← imul 2 c; iadd t 1
  else pure (-1)

/-- `m_dst(m_edges_on_cell(icell, a), s) = m_edges_on_cell(icell, b)`, the statement form of
`planar_hexagonal_mesh.cpp:200-264`. -/
def eoe (icell a s b : Int) : Prog R Unit := do
  let v ← rdI2 .edges_on_cell icell b
  let e ← rdI2 .edges_on_cell icell a
  wrI2 .edges_on_edge e s v

/-- `m_weights_on_edge(m_edges_on_cell(icell, a), s) = w`, the statement form of
`planar_hexagonal_mesh.cpp:266-300`. -/
def woe (icell a s : Int) (w : R) : Prog R Unit := do
  let e ← rdI2 .edges_on_cell icell a
  wr2 .weights_on_edge e s w

/-- `m_vertices_on_edge(m_edges_on_cell(icell, a), s) = m_vertices_on_cell(icell, b)`, the statement
form of `planar_hexagonal_mesh.cpp:187-198`. -/
def voe (icell a s b : Int) : Prog R Unit := do
  let v ← rdI2 .vertices_on_cell icell b
  let e ← rdI2 .edges_on_cell icell a
  wrI2 .vertices_on_edge e s v

/-- `m_cells_on_vertex(m_vertices_on_cell(icell, a), s) = icell`, the statement form of
`planar_hexagonal_mesh.cpp:302-307`. -/
def cov (icell a s : Int) : Prog R Unit := do
  let v ← rdI2 .vertices_on_cell icell a
  wrI2 .cells_on_vertex v s icell

/-- `m_edges_on_vertex(m_vertices_on_cell(icell, a), s) = m_edges_on_cell(icell, b)`, the statement
form of `planar_hexagonal_mesh.cpp:309-320`. -/
def eov (icell a s b : Int) : Prog R Unit := do
  let e ← rdI2 .edges_on_cell icell b
  let v ← rdI2 .vertices_on_cell icell a
  wrI2 .edges_on_vertex v s e

/-- `planar_hexagonal_mesh.cpp:172-179`: cell tables. -/
def meshCellTables (nx ny irow icol : Int) : Prog R Int := do
  let icell ← cellidx nx icol irow
  wrI1 .nedges_on_cell icell 6
  let _ ← forI maxedges () fun j _ => do
    let c ← cell_on_cell nx ny icol irow j
    wrI2 .cells_on_cell icell j c
    let e ← edge_on_cell nx ny icell icol irow j
    wrI2 .edges_on_cell icell j e
    let v ← vertex_on_cell nx ny icell icol irow j
    wrI2 .vertices_on_cell icell j v
  pure icell

/-- `planar_hexagonal_mesh.cpp:181-186`: cells of each side edge.  The second loop
`for (j = 3; j < maxedges; ++j)` is written with `j = 3 + j'`. -/
def meshCellsOnEdge (icell : Int) : Prog R Unit := do
  let _ ← forI 3 () fun j _ => do
    let e ← rdI2 .edges_on_cell icell j
    wrI2 .cells_on_edge e 1 icell
  let _ ← forI 3 () fun j' _ => do
    let e ← rdI2 .edges_on_cell icell (3 + j')
    wrI2 .cells_on_edge e 0 icell
  pure ()

/-- `planar_hexagonal_mesh.cpp:187-198`. -/
def meshVerticesOnEdge (icell : Int) : Prog R Unit := do
  voe icell 0 0 1
  voe icell 0 1 0
  voe icell 1 0 2
  voe icell 1 1 1
  voe icell 2 0 3
  voe icell 2 1 2

/-- `planar_hexagonal_mesh.cpp:200-231`. -/
def meshEdgesOnEdgeA (icell : Int) : Prog R Unit := do
  eoe icell 3 0 4
  eoe icell 3 1 5
  eoe icell 3 2 0
  eoe icell 3 3 1
  eoe icell 3 4 2
  eoe icell 4 0 5
  eoe icell 4 1 0
  eoe icell 4 2 1
  eoe icell 4 3 2
  eoe icell 4 4 3
  eoe icell 5 0 0
  eoe icell 5 1 1
  eoe icell 5 2 2
  eoe icell 5 3 3
  eoe icell 5 4 4

/-- `planar_hexagonal_mesh.cpp:233-264`. -/
def meshEdgesOnEdgeB (icell : Int) : Prog R Unit := do
  eoe icell 0 5 1
  eoe icell 0 6 2
  eoe icell 0 7 3
  eoe icell 0 8 4
  eoe icell 0 9 5
  eoe icell 1 5 2
  eoe icell 1 6 3
  eoe icell 1 7 4
  eoe icell 1 8 5
  eoe icell 1 9 0
  eoe icell 2 5 3
  eoe icell 2 6 4
  eoe icell 2 7 5
  eoe icell 2 8 0
  eoe icell 2 9 1

/-- `planar_hexagonal_mesh.cpp:266-282`. -/
def meshWeightsA (icell : Int) : Prog R Unit := do
  woe icell 3 0 (lit 1 / lit 3)
  woe icell 3 1 (lit 1 / lit 6)
  woe icell 3 2 (lit 0)
  woe icell 3 3 (lit 1 / lit 6)
  woe icell 3 4 (lit 1 / lit 3)
  woe icell 4 0 (lit 1 / lit 3)
  woe icell 4 1 (-lit 1 / lit 6)
  woe icell 4 2 (lit 0)
  woe icell 4 3 (lit 1 / lit 6)
  woe icell 4 4 (-lit 1 / lit 3)
  woe icell 5 0 (-lit 1 / lit 3)
  woe icell 5 1 (-lit 1 / lit 6)
  woe icell 5 2 (lit 0)
  woe icell 5 3 (-lit 1 / lit 6)
  woe icell 5 4 (-lit 1 / lit 3)

/-- `planar_hexagonal_mesh.cpp:284-300`. -/
def meshWeightsB (icell : Int) : Prog R Unit := do
  woe icell 0 5 (lit 1 / lit 3)
  woe icell 0 6 (lit 1 / lit 6)
  woe icell 0 7 (lit 0)
  woe icell 0 8 (lit 1 / lit 6)
  woe icell 0 9 (lit 1 / lit 3)
  woe icell 1 5 (lit 1 / lit 3)
  woe icell 1 6 (-lit 1 / lit 6)
  woe icell 1 7 (lit 0)
  woe icell 1 8 (lit 1 / lit 6)
  woe icell 1 9 (-lit 1 / lit 3)
  woe icell 2 5 (-lit 1 / lit 3)
  woe icell 2 6 (-lit 1 / lit 6)
  woe icell 2 7 (lit 0)
  woe icell 2 8 (-lit 1 / lit 6)
  woe icell 2 9 (-lit 1 / lit 3)

/-- `planar_hexagonal_mesh.cpp:302-320`. -/
def meshVertexTables (icell : Int) : Prog R Unit := do
  cov icell 1 2
  cov icell 3 0
  cov icell 5 1
  cov icell 0 0
  cov icell 2 1
  cov icell 4 2
  eov icell 0 0 0
  eov icell 1 0 0
  eov icell 2 2 1
  eov icell 1 2 1
  eov icell 2 1 2
  eov icell 3 1 2

/-- Body of the kernel "compute_mesh_arrays", `planar_hexagonal_mesh.cpp:171-321`. -/
def meshArraysBody (nx ny irow icol : Int) : Prog R Unit := do
  let icell ← meshCellTables nx ny irow icol
  meshCellsOnEdge icell
  meshVerticesOnEdge icell
  meshEdgesOnEdgeA icell
  meshEdgesOnEdgeB icell
  meshWeightsA icell
  meshWeightsB icell
  meshVertexTables icell

/-- Body of the kernel "scale_weights", `planar_hexagonal_mesh.cpp:325-327`. -/
def scaleWeightsBody (iedge j : Int) : Prog R Unit := do
  let w ← rd2 .weights_on_edge iedge j
  wr2 .weights_on_edge iedge j (w * (lit 1 / Scalar.sqrt (lit 3)))

/-- Cell centre coordinates, `planar_hexagonal_mesh.cpp:337-345`. -/
def cellCoords (dc : R) (irow icol icell : Int) : Prog R Unit :=
  if irow.tmod 2 = 0 then do
    wr1 .x_cell icell (dc * lit icol + dc / lit 2)
    let r1 ← iadd irow 1
    wr1 .y_cell icell (dc * lit r1 * Scalar.sqrt (lit 3) / lit 2)
    wr1 .z_cell icell (lit 0)
  else do
    let c1 ← iadd icol 1
    wr1 .x_cell icell (dc * lit c1)
    let r1 ← iadd irow 1
    wr1 .y_cell icell (dc * lit r1 * Scalar.sqrt (lit 3) / lit 2)
    wr1 .z_cell icell (lit 0)

/-- Body of the kernel "compute_cell_arrays", `planar_hexagonal_mesh.cpp:331-376`.  Simplification:
`m_x_cell(icell)`, `m_y_cell(icell)` and the edge and vertex numbers are read once instead of at each
use; nothing writes them in between. -/
def cellArraysBody (nx : Int) (dc : R) (irow icol : Int) : Prog R Unit := do
  let icell ← cellidx nx icol irow
  wr1 .area_cell icell (dc * dc * Scalar.sqrt (lit 3) / lit 2)
  wr1 .lat_cell icell (lit 0)
  wr1 .lon_cell icell (lit 0)
  cellCoords dc irow icol icell
  let e0 ← rdI2 .edges_on_cell icell 0
  let e1 ← rdI2 .edges_on_cell icell 1
  let e2 ← rdI2 .edges_on_cell icell 2
  let x ← rd1 .x_cell icell
  let y ← rd1 .y_cell icell
  wr1 .x_edge e0 (x - dc / lit 2)
  wr1 .y_edge e0 y
  wr1 .z_edge e0 (lit 0)
  wr1 .x_edge e1 (x - dc / lit 2 * Scalar.cos (Scalar.pi / lit 3))
  wr1 .y_edge e1 (y - dc / lit 2 * Scalar.sin (Scalar.pi / lit 3))
  wr1 .z_edge e1 (lit 0)
  wr1 .x_edge e2 (x + dc / lit 2 * Scalar.cos (Scalar.pi / lit 3))
  wr1 .y_edge e2 (y - dc / lit 2 * Scalar.sin (Scalar.pi / lit 3))
  wr1 .z_edge e2 (lit 0)
  wr1 .angle_edge e0 (lit 0)
  wr1 .angle_edge e1 (Scalar.pi / lit 3)
  wr1 .angle_edge e2 (lit 2 * Scalar.pi / lit 3)
  let v0 ← rdI2 .vertices_on_cell icell 0
  let v1 ← rdI2 .vertices_on_cell icell 1
  wr1 .x_vertex v0 (x - dc / lit 2)
  wr1 .y_vertex v0 (y + dc * Scalar.sqrt (lit 3) / lit 6)
  wr1 .z_vertex v0 (lit 0)
  wr1 .x_vertex v1 (x - dc / lit 2)
  wr1 .y_vertex v1 (y - dc * Scalar.sqrt (lit 3) / lit 6)
  wr1 .z_vertex v1 (lit 0)

/-- Body of the kernel "compute_edge_arrays", `planar_hexagonal_mesh.cpp:379-385`. -/
def edgeArraysBody (dc : R) (iedge : Int) : Prog R Unit := do
  wrI1 .nedges_on_edge iedge 10
  wr1 .dc_edge iedge dc
  let dce ← rd1 .dc_edge iedge
  wr1 .dv_edge iedge (dce * Scalar.sqrt (lit 3) / lit 3)
  wr1 .lat_edge iedge (lit 0)
  wr1 .lon_edge iedge (lit 0)

/-- Body of the kernel "compute_vertex_arrays", `planar_hexagonal_mesh.cpp:388-395`. -/
def vertexArraysBody (dc : R) (ivertex : Int) : Prog R Unit := do
  wr1 .lat_vertex ivertex (lit 0)
  wr1 .lon_vertex ivertex (lit 0)
  wr1 .area_triangle ivertex (dc * dc * Scalar.sqrt (lit 3) / lit 4)
  let _ ← forI 3 () fun j _ =>
    wr2 .kiteareas_on_vertex ivertex j (dc * dc * Scalar.sqrt (lit 3) / lit 12)

/-- Body of the kernel "finalize_cell", `mpas_mesh.cpp:22-36`. -/
def finalizeCellBody (icell : Int) : Prog R Unit := do
  let n ← rdI1 .nedges_on_cell icell
  let _ ← forI n () fun j _ => do
    let e ← rdI2 .edges_on_cell icell j
    let c0 ← rdI2 .cells_on_edge e 0
    wr2 .edge_sign_on_cell icell j (if c0 = icell then lit 1 else lit (-1))
  let _ ← forI n () fun j _ => do
    let jvertex ← rdI2 .vertices_on_cell icell j
    forI 3 () fun l _ => do
      let c ← rdI2 .cells_on_vertex jvertex l
      if c = icell then wrI2 .kite_index_on_cell icell j l else pure ()
  pure ()

/-- Body of the kernel "finalize_vertex", `mpas_mesh.cpp:39-46`. -/
def finalizeVertexBody (ivertex : Int) : Prog R Unit := do
  let _ ← forI 3 () fun j _ => do
    let e ← rdI2 .edges_on_vertex ivertex j
    let v0 ← rdI2 .vertices_on_edge e 0
    wr2 .edge_sign_on_vertex ivertex j (if v0 = ivertex then lit (-1) else lit 1)
  pure ()

/-- `omega_parallel_for({n0}, body)`, `src/common.hpp:92-98`. -/
def par1 (n0 : Int) (body : Int → Prog R Unit) : Cmd R := ⟨n0, 1, 1, fun x => body x.1⟩
/-- `omega_parallel_for({n0, n1}, body)`, `src/common.hpp:99-103`. -/
def par2 (n0 n1 : Int) (body : Int → Int → Prog R Unit) : Cmd R :=
  ⟨n0, n1, 1, fun x => body x.1 x.2.1⟩
/-- `omega_parallel_for({n0, n1, n2}, body)`, `src/common.hpp:99-103`. -/
def par3 (n0 n1 n2 : Int) (body : Int → Int → Int → Prog R Unit) : Cmd R :=
  ⟨n0, n1, n2, fun x => body x.1 x.2.1 x.2.2⟩

/-- `deep_copy(view, value)` on a real view (`src/common.hpp:31`): every element of the extent. -/
def fillR (d : Dims) (a : RArr) (v : R) : Cmd R :=
  par3 (a.ext d).1 (a.ext d).2.1 (a.ext d).2.2 fun l i k => wr3 a l i k v
/-- `deep_copy(view, value)` on an integer view (`src/common.hpp:31`). -/
def fillI (d : Dims) (a : IArr) (v : Int) : Cmd R :=
  par2 (a.ext d).1 (a.ext d).2 fun i j => wrI2 a i j v
/-- `deep_copy(dst, src)` on real views of equal extents (`src/common.hpp:31`). -/
def copyR (d : Dims) (dst src : RArr) : Cmd R :=
  par3 (dst.ext d).1 (dst.ext d).2.1 (dst.ext d).2.2 fun l i k => do
    let v ← rd3 src l i k
    wr3 dst l i k v

/-- `MPASMesh::finalize_mesh`, `mpas_mesh.cpp:5-57` (allocation is implicit in `RArr.ext`). -/
def finalize_mesh (d : Dims) : List (Cmd R) :=
  [ par1 d.ncells finalizeCellBody,
    par1 d.nvertices finalizeVertexBody,
    fillR d .mesh_scaling_del2 (lit 1),
    fillR d .mesh_scaling_del4 (lit 1),
    fillR d .edge_mask (lit 1),
    fillI d .max_level_cell d.nlayers,
    fillI d .max_level_edge_bot d.nlayers,
    fillI d .max_level_edge_top d.nlayers,
    fillI d .max_level_vertex_bot d.nlayers,
    fillI d .max_level_vertex_top d.nlayers ]

/-- The launches of `PlanarHexagonalMesh::compute_mesh_arrays` before `finalize_mesh`,
`planar_hexagonal_mesh.cpp:169-395`. -/
def mesh_tables (p : MeshParams) (dc : R) : List (Cmd R) :=
  let d := p.dims
  [ par2 p.ny p.nx (meshArraysBody p.nx p.ny),
    par2 d.nedges (2 * maxedges) scaleWeightsBody,
    par2 p.ny p.nx (cellArraysBody p.nx dc),
    par1 d.nedges (edgeArraysBody dc),
    par1 d.nvertices (vertexArraysBody dc) ]

/-- `PlanarHexagonalMesh::compute_mesh_arrays`, `planar_hexagonal_mesh.cpp:168-398`, the device work
of the constructor (`:61`). -/
def compute_mesh_arrays (p : MeshParams) (dc : R) : List (Cmd R) :=
  mesh_tables p dc ++ finalize_mesh p.dims

end Model
end Omega
