import Verif.Refine.MeshFinal

/-!
# The mesh constructor as a whole
-/

set_option linter.unusedSectionVars false
set_option linter.unusedVariables false

namespace Omega
namespace Refine

open Prog Model

variable {R : Type} [Scalar R]

/-- The tables of the finished mesh, at every valid index. -/
structure IsHexMesh (p : MeshParams) (dc : R) (m : Mem R) : Prop extends TablesOK p m where
  coc : ∀ c, Hex.IsCell p.nx p.ny c → ∀ j, 0 ≤ j → j < 6 →
    m.int .cells_on_cell c j = Hex.nb p.nx p.ny j c
  neoe : ∀ e, 0 ≤ e → e < 3 * (p.nx * p.ny) → m.int .nedges_on_edge e 0 = 10
  eoe : ∀ e, 0 ≤ e → e < 3 * (p.nx * p.ny) → ∀ s, 0 ≤ s → s < 10 →
    m.int .edges_on_edge e s = Hex.eoe p.nx p.ny e s
  kite : ∀ c, Hex.IsCell p.nx p.ny c → ∀ j, 0 ≤ j → j < 6 →
    m.int .kite_index_on_cell c j = kiteIdx (Hex.cov p.nx p.ny) (Hex.V p.nx p.ny c j) c
  woe : ∀ e, 0 ≤ e → e < 3 * (p.nx * p.ny) → ∀ s, 0 ≤ s → s < 10 →
    m.real .weights_on_edge 0 e s = wRaw (e % 3) (s % 5) * (lit 1 / Scalar.sqrt (lit 3))
  area_cell : ∀ c, Hex.IsCell p.nx p.ny c →
    m.real .area_cell 0 c 0 = dc * dc * Scalar.sqrt (lit 3) / lit 2
  x_cell : ∀ c, Hex.IsCell p.nx p.ny c → m.real .x_cell 0 c 0 = xC p.nx dc c
  y_cell : ∀ c, Hex.IsCell p.nx p.ny c → m.real .y_cell 0 c 0 = yC p.nx dc c
  sign_cell : ∀ c, Hex.IsCell p.nx p.ny c → ∀ j, 0 ≤ j → j < 6 →
    m.real .edge_sign_on_cell 0 c j =
      if Hex.coe p.nx p.ny (Hex.E p.nx p.ny c j) 0 = c then lit 1 else lit (-1)
  dc_edge : ∀ e, 0 ≤ e → e < 3 * (p.nx * p.ny) → m.real .dc_edge 0 e 0 = dc
  dv_edge : ∀ e, 0 ≤ e → e < 3 * (p.nx * p.ny) →
    m.real .dv_edge 0 e 0 = dc * Scalar.sqrt (lit 3) / lit 3
  angle_edge : ∀ e, 0 ≤ e → e < 3 * (p.nx * p.ny) → m.real .angle_edge 0 e 0 = angE e
  x_edge : ∀ e, 0 ≤ e → e < 3 * (p.nx * p.ny) → m.real .x_edge 0 e 0 = xE p.nx dc e
  y_edge : ∀ e, 0 ≤ e → e < 3 * (p.nx * p.ny) → m.real .y_edge 0 e 0 = yE p.nx dc e
  del2 : ∀ e, 0 ≤ e → e < 3 * (p.nx * p.ny) → m.real .mesh_scaling_del2 0 e 0 = lit 1
  del4 : ∀ e, 0 ≤ e → e < 3 * (p.nx * p.ny) → m.real .mesh_scaling_del4 0 e 0 = lit 1
  mask : ∀ e, 0 ≤ e → e < 3 * (p.nx * p.ny) → ∀ k, 0 ≤ k → k < p.dims.nlayers →
    m.real .edge_mask 0 e k = lit 1
  area_triangle : ∀ v, 0 ≤ v → v < 2 * (p.nx * p.ny) →
    m.real .area_triangle 0 v 0 = dc * dc * Scalar.sqrt (lit 3) / lit 4
  x_vertex : ∀ v, 0 ≤ v → v < 2 * (p.nx * p.ny) → m.real .x_vertex 0 v 0 = xV p.nx dc v
  y_vertex : ∀ v, 0 ≤ v → v < 2 * (p.nx * p.ny) → m.real .y_vertex 0 v 0 = yV p.nx dc v
  kitearea : ∀ v, 0 ≤ v → v < 2 * (p.nx * p.ny) → ∀ s, 0 ≤ s → s < 3 →
    m.real .kiteareas_on_vertex 0 v s = dc * dc * Scalar.sqrt (lit 3) / lit 12
  sign_vertex : ∀ v, 0 ≤ v → v < 2 * (p.nx * p.ny) → ∀ s, 0 ≤ s → s < 3 →
    m.real .edge_sign_on_vertex 0 v s =
      if Hex.voe p.nx p.ny (Hex.eov p.nx p.ny v s) 0 = v then lit (-1) else lit 1
  levels : ∀ i, (Hex.IsCell p.nx p.ny i → m.int .max_level_cell i 0 = p.dims.nlayers) ∧
    (0 ≤ i → i < 3 * (p.nx * p.ny) → m.int .max_level_edge_bot i 0 = p.dims.nlayers ∧
      m.int .max_level_edge_top i 0 = p.dims.nlayers) ∧
    (0 ≤ i → i < 2 * (p.nx * p.ny) → m.int .max_level_vertex_bot i 0 = p.dims.nlayers ∧
      m.int .max_level_vertex_top i 0 = p.dims.nlayers)
  flat : ∀ i, (Hex.IsCell p.nx p.ny i → m.real .z_cell 0 i 0 = lit 0 ∧ m.real .lat_cell 0 i 0 = lit 0
      ∧ m.real .lon_cell 0 i 0 = lit 0) ∧
    (0 ≤ i → i < 3 * (p.nx * p.ny) → m.real .z_edge 0 i 0 = lit 0 ∧ m.real .lat_edge 0 i 0 = lit 0 ∧
      m.real .lon_edge 0 i 0 = lit 0) ∧
    (0 ≤ i → i < 2 * (p.nx * p.ny) → m.real .z_vertex 0 i 0 = lit 0 ∧
      m.real .lat_vertex 0 i 0 = lit 0 ∧ m.real .lon_vertex 0 i 0 = lit 0)

/-- memory after the table kernel and the weight scaling -/
def mesh2 (p : MeshParams) (m : Mem R) : Mem R :=
  let m1 := m.patch (tabP p.dims) (tabT p.nx p.ny)
  m1.patch (scaleP p.dims) (scaleT m1)
/-- memory after the geometry kernels -/
def mesh5 (p : MeshParams) (dc : R) (m : Mem R) : Mem R :=
  (((mesh2 p m).patch (geomP p.dims) (geomT p.nx dc)).patch (edgeP p.dims) (edgeT dc)).patch
    (vertP p.dims) (vertT dc)
/-- memory after `finalize_cell` and `finalize_vertex` -/
def mesh7 (p : MeshParams) (dc : R) (m : Mem R) : Mem R :=
  ((mesh5 p dc m).patch (fcP p.dims) (fcT p.nx p.ny)).patch (fvP p.dims) (fvT p.nx p.ny)
/-- memory after the real fills -/
def mesh10 (p : MeshParams) (dc : R) (m : Mem R) : Mem R :=
  (((mesh7 p dc m).patch (arrP p.dims .mesh_scaling_del2) (constR (lit 1))).patch
    (arrP p.dims .mesh_scaling_del4) (constR (lit 1))).patch
    (arrP p.dims .edge_mask) (constR (lit 1))
/-- memory after the whole constructor -/
def meshMem (p : MeshParams) (dc : R) (m : Mem R) : Mem R :=
  (((((mesh10 p dc m).patch (iarrP p.dims .max_level_cell) (constI p.dims.nlayers)).patch
    (iarrP p.dims .max_level_edge_bot) (constI p.dims.nlayers)).patch
    (iarrP p.dims .max_level_edge_top) (constI p.dims.nlayers)).patch
    (iarrP p.dims .max_level_vertex_bot) (constI p.dims.nlayers)).patch
    (iarrP p.dims .max_level_vertex_top) (constI p.dims.nlayers)

section

variable {p : MeshParams} (hv : MeshParams.Valid p) (dc : R) (m : Mem R)

/-- The tables are in place as soon as the first kernel has run and stay so. -/
theorem tablesOK_mesh2 : TablesOK p (mesh2 p m) := by
  constructor
  · intro c hc
    simp only [mesh2, Mem.patch_int, scaleP, tabP]
    simp [IArr.InB, IArr.ext, MeshParams.dims, hc.1, hc.2, tabT]
  · intro c hc j h0 h6
    simp only [mesh2, Mem.patch_int, scaleP, tabP]
    simp [IArr.InB, IArr.ext, MeshParams.dims, hc.1, hc.2, tabT, maxedges, h0, h6]
  · intro c hc j h0 h6
    simp only [mesh2, Mem.patch_int, scaleP, tabP]
    simp [IArr.InB, IArr.ext, MeshParams.dims, hc.1, hc.2, tabT, maxedges, h0, h6]
  · intro e h0 h1 s h2 h3
    simp only [mesh2, Mem.patch_int, scaleP, tabP]
    simp [IArr.InB, IArr.ext, MeshParams.dims, tabT, h0, h1, h2, h3]
  · intro e h0 h1 s h2 h3
    simp only [mesh2, Mem.patch_int, scaleP, tabP]
    simp [IArr.InB, IArr.ext, MeshParams.dims, tabT, h0, h1, h2, h3]
  · intro e h0 h1 s h2 h3
    simp only [mesh2, Mem.patch_int, scaleP, tabP]
    simp [IArr.InB, IArr.ext, MeshParams.dims, tabT, h0, h1, h2, h3]
  · intro e h0 h1 s h2 h3
    simp only [mesh2, Mem.patch_int, scaleP, tabP]
    simp [IArr.InB, IArr.ext, MeshParams.dims, tabT, h0, h1, h2, h3]

/-- table arrays -/
def isTable : IArr → Bool
  | .nedges_on_cell | .edges_on_cell | .vertices_on_cell | .cells_on_edge | .vertices_on_edge
  | .cells_on_vertex | .edges_on_vertex => true
  | _ => false

theorem TablesOK.congr {m m' : Mem R} (h : TablesOK p m)
    (he : ∀ a i j, isTable a = true → m'.int a i j = m.int a i j) : TablesOK p m' where
  neoc c hc := by rw [he _ _ _ rfl]; exact h.neoc c hc
  eoc c hc j h0 h6 := by rw [he _ _ _ rfl]; exact h.eoc c hc j h0 h6
  voc c hc j h0 h6 := by rw [he _ _ _ rfl]; exact h.voc c hc j h0 h6
  coe e h0 h1 s h2 h3 := by rw [he _ _ _ rfl]; exact h.coe e h0 h1 s h2 h3
  voe e h0 h1 s h2 h3 := by rw [he _ _ _ rfl]; exact h.voe e h0 h1 s h2 h3
  cov e h0 h1 s h2 h3 := by rw [he _ _ _ rfl]; exact h.cov e h0 h1 s h2 h3
  eov e h0 h1 s h2 h3 := by rw [he _ _ _ rfl]; exact h.eov e h0 h1 s h2 h3

theorem tablesOK_mesh5 : TablesOK p (mesh5 p dc m) := by
  refine (tablesOK_mesh2 m).congr fun a i j ha => ?_
  cases a <;> simp only [isTable, Bool.false_eq_true] at ha <;>
    simp [mesh5, geomP, edgeP, vertP]

theorem tablesOK_mesh6 :
    TablesOK p ((mesh5 p dc m).patch (fcP p.dims) (fcT p.nx p.ny)) := by
  refine (tablesOK_mesh5 dc m).congr fun a i j ha => ?_
  cases a <;> simp only [isTable, Bool.false_eq_true] at ha <;> simp [fcP]

theorem tablesOK_meshMem : TablesOK p (meshMem p dc m) := by
  refine (tablesOK_mesh5 dc m).congr fun a i j ha => ?_
  cases a <;> simp only [isTable, Bool.false_eq_true] at ha <;>
    simp [meshMem, mesh10, mesh7, fcP, fvP, arrP, iarrP]

include hv in
/-- `PlanarHexagonalMesh::compute_mesh_arrays` is safe and race free and ends in `meshMem`,
whatever the memory held before. -/
theorem compute_mesh_arrays_runs :
    Runs p.dims (compute_mesh_arrays p dc) m (meshMem p dc m) := by
  have hT2 := tablesOK_mesh2 (p := p) m
  have hT5 := tablesOK_mesh5 (p := p) dc m
  have hT6 := tablesOK_mesh6 (p := p) dc m
  refine Runs.append (m1 := mesh5 p dc m) ?_ ?_
  · refine .cons (meshArrays_runs hv m) (.cons (scaleWeights_runs _ _)
      (.cons (cellArrays_runs hv dc _ ?_ ?_)
      (.cons (edgeArrays_runs _ dc _) (.cons (vertexArrays_runs _ dc _) (.nil _)))))
    · exact fun c hc j h0 h3 => hT2.eoc c hc j h0 (by omega)
    · exact fun c hc j h0 h3 => hT2.voc c hc j h0 (by omega)
  · exact .cons (finalizeCell_runs hv _ hT5) (.cons (finalizeVertex_runs hv _ hT6)
      (.cons (fillR_runs _ _ _ _) (.cons (fillR_runs _ _ _ _) (.cons (fillR_runs _ _ _ _)
      (.cons (fillI_runs _ _ _ _) (.cons (fillI_runs _ _ _ _) (.cons (fillI_runs _ _ _ _)
      (.cons (fillI_runs _ _ _ _) (.cons (fillI_runs _ _ _ _) (.nil _))))))))))

/-- The constructor establishes the closed-form tables. -/
theorem isHexMesh_meshMem : IsHexMesh p dc (meshMem p dc m) := by
  apply IsHexMesh.mk (tablesOK_meshMem dc m)
  · intro c hc j h0 h6
    simp only [meshMem, mesh10, mesh7, mesh5, mesh2, Mem.patch_int, iarrP, arrP, fvP, fcP, vertP,
      edgeP, geomP, scaleP, tabP]
    simp [IArr.InB, IArr.ext, MeshParams.dims, hc.1, hc.2, tabT, maxedges, h0, h6]
  · intro e h0 h1
    simp only [meshMem, mesh10, mesh7, mesh5, mesh2, Mem.patch_int, iarrP, arrP, fvP, fcP, vertP,
      edgeP, geomP, scaleP, tabP]
    simp [IArr.InB, IArr.ext, MeshParams.dims, edgeT, h0, h1]
  · intro e h0 h1 s h2 h3
    simp only [meshMem, mesh10, mesh7, mesh5, mesh2, Mem.patch_int, iarrP, arrP, fvP, fcP, vertP,
      edgeP, geomP, scaleP, tabP]
    have : s < 12 := by omega
    simp [IArr.InB, IArr.ext, MeshParams.dims, tabT, maxedges, h0, h1, h2, h3, this]
  · intro c hc j h0 h6
    simp only [meshMem, mesh10, mesh7, mesh5, mesh2, Mem.patch_int, iarrP, arrP, fvP, fcP, vertP,
      edgeP, geomP, scaleP, tabP]
    simp [IArr.InB, IArr.ext, MeshParams.dims, hc.1, hc.2, fcT, maxedges, h0, h6]
  · intro e h0 h1 s h2 h3
    simp only [meshMem, mesh10, mesh7, mesh5, mesh2, Mem.patch_real, iarrP, arrP, fvP, fcP, vertP,
      edgeP, geomP, scaleP, tabP]
    have : s < 12 := by omega
    simp [RArr.InB, RArr.ext, MeshParams.dims, tabT, scaleT, tabP, geomArr, maxedges, h0, h1, h2, h3,
      this]
  · intro c hc
    simp only [meshMem, mesh10, mesh7, mesh5, mesh2, Mem.patch_real, iarrP, arrP, fvP, fcP, vertP,
      edgeP, geomP, scaleP, tabP]
    simp [RArr.InB, RArr.ext, MeshParams.dims, geomT, geomArr, hc.1, hc.2]
  · intro c hc
    simp only [meshMem, mesh10, mesh7, mesh5, mesh2, Mem.patch_real, iarrP, arrP, fvP, fcP, vertP,
      edgeP, geomP, scaleP, tabP]
    simp [RArr.InB, RArr.ext, MeshParams.dims, geomT, geomArr, hc.1, hc.2]
  · intro c hc
    simp only [meshMem, mesh10, mesh7, mesh5, mesh2, Mem.patch_real, iarrP, arrP, fvP, fcP, vertP,
      edgeP, geomP, scaleP, tabP]
    simp [RArr.InB, RArr.ext, MeshParams.dims, geomT, geomArr, hc.1, hc.2]
  · intro c hc j h0 h6
    simp only [meshMem, mesh10, mesh7, mesh5, mesh2, Mem.patch_real, iarrP, arrP, fvP, fcP, vertP,
      edgeP, geomP, scaleP, tabP]
    simp [RArr.InB, RArr.ext, MeshParams.dims, fcT, hc.1, hc.2, maxedges, h0, h6]
  · intro e h0 h1
    simp only [meshMem, mesh10, mesh7, mesh5, mesh2, Mem.patch_real, iarrP, arrP, fvP, fcP, vertP,
      edgeP, geomP, scaleP, tabP]
    simp [RArr.InB, RArr.ext, MeshParams.dims, edgeT, geomArr, h0, h1]
  · intro e h0 h1
    simp only [meshMem, mesh10, mesh7, mesh5, mesh2, Mem.patch_real, iarrP, arrP, fvP, fcP, vertP,
      edgeP, geomP, scaleP, tabP]
    simp [RArr.InB, RArr.ext, MeshParams.dims, edgeT, geomArr, h0, h1]
  · intro e h0 h1
    simp only [meshMem, mesh10, mesh7, mesh5, mesh2, Mem.patch_real, iarrP, arrP, fvP, fcP, vertP,
      edgeP, geomP, scaleP, tabP]
    simp [RArr.InB, RArr.ext, MeshParams.dims, geomT, geomArr, h0, h1]
  · intro e h0 h1
    simp only [meshMem, mesh10, mesh7, mesh5, mesh2, Mem.patch_real, iarrP, arrP, fvP, fcP, vertP,
      edgeP, geomP, scaleP, tabP]
    simp [RArr.InB, RArr.ext, MeshParams.dims, geomT, geomArr, h0, h1]
  · intro e h0 h1
    simp only [meshMem, mesh10, mesh7, mesh5, mesh2, Mem.patch_real, iarrP, arrP, fvP, fcP, vertP,
      edgeP, geomP, scaleP, tabP]
    simp [RArr.InB, RArr.ext, MeshParams.dims, geomT, geomArr, h0, h1]
  · intro e h0 h1
    simp only [meshMem, mesh10, mesh7, mesh5, mesh2, Mem.patch_real, iarrP, arrP, fvP, fcP, vertP,
      edgeP, geomP, scaleP, tabP]
    simp [RArr.InB, RArr.ext, MeshParams.dims, constR, h0, h1]
  · intro e h0 h1
    simp only [meshMem, mesh10, mesh7, mesh5, mesh2, Mem.patch_real, iarrP, arrP, fvP, fcP, vertP,
      edgeP, geomP, scaleP, tabP]
    simp [RArr.InB, RArr.ext, MeshParams.dims, constR, h0, h1]
  · intro e h0 h1 k h2 h3
    simp only [meshMem, mesh10, mesh7, mesh5, mesh2, Mem.patch_real, iarrP, arrP, fvP, fcP, vertP,
      edgeP, geomP, scaleP, tabP]
    have h3' := h3
    simp only [MeshParams.dims] at h3'
    simp [RArr.InB, RArr.ext, MeshParams.dims, constR, h0, h1, h2, h3']
  · intro e h0 h1
    simp only [meshMem, mesh10, mesh7, mesh5, mesh2, Mem.patch_real, iarrP, arrP, fvP, fcP, vertP,
      edgeP, geomP, scaleP, tabP]
    simp [RArr.InB, RArr.ext, MeshParams.dims, vertT, h0, h1]
  · intro e h0 h1
    simp only [meshMem, mesh10, mesh7, mesh5, mesh2, Mem.patch_real, iarrP, arrP, fvP, fcP, vertP,
      edgeP, geomP, scaleP, tabP]
    simp [RArr.InB, RArr.ext, MeshParams.dims, geomT, geomArr, h0, h1]
  · intro e h0 h1
    simp only [meshMem, mesh10, mesh7, mesh5, mesh2, Mem.patch_real, iarrP, arrP, fvP, fcP, vertP,
      edgeP, geomP, scaleP, tabP]
    simp [RArr.InB, RArr.ext, MeshParams.dims, geomT, geomArr, h0, h1]
  · intro e h0 h1 s h2 h3
    simp only [meshMem, mesh10, mesh7, mesh5, mesh2, Mem.patch_real, iarrP, arrP, fvP, fcP, vertP,
      edgeP, geomP, scaleP, tabP]
    simp [RArr.InB, RArr.ext, MeshParams.dims, vertT, h0, h1, h2, h3]
  · intro e h0 h1 s h2 h3
    simp only [meshMem, mesh10, mesh7, mesh5, mesh2, Mem.patch_real, iarrP, arrP, fvP, fcP, vertP,
      edgeP, geomP, scaleP, tabP]
    simp [RArr.InB, RArr.ext, MeshParams.dims, fvT, h0, h1, h2, h3]
  · intro i
    refine ⟨fun hc => ?_, fun h0 h1 => ⟨?_, ?_⟩, fun h0 h1 => ⟨?_, ?_⟩⟩
    · simp only [meshMem, Mem.patch_int, iarrP]
      simp [IArr.InB, IArr.ext, MeshParams.dims, hc.1, hc.2, constI]
    all_goals
      simp only [meshMem, Mem.patch_int, iarrP]
      simp [IArr.InB, IArr.ext, MeshParams.dims, h0, h1, constI]
  · intro i
    refine ⟨fun hc => ⟨?_, ?_, ?_⟩, fun h0 h1 => ⟨?_, ?_, ?_⟩, fun h0 h1 => ⟨?_, ?_, ?_⟩⟩
    case refine_1 | refine_2 | refine_3 =>
      simp only [meshMem, mesh10, mesh7, mesh5, mesh2, Mem.patch_real, iarrP, arrP, fvP, fcP, vertP,
        edgeP, geomP, scaleP, tabP]
      simp [RArr.InB, RArr.ext, MeshParams.dims, geomT, geomArr, hc.1, hc.2]
    all_goals
      simp only [meshMem, mesh10, mesh7, mesh5, mesh2, Mem.patch_real, iarrP, arrP, fvP, fcP, vertP,
        edgeP, geomP, scaleP, tabP]
      simp [RArr.InB, RArr.ext, MeshParams.dims, geomT, edgeT, vertT, geomArr, h0, h1]

/-- views written by the mesh constructor -/
def isMeshR : RArr → Bool
  | .area_cell | .lat_cell | .lon_cell | .x_cell | .y_cell | .z_cell | .edge_sign_on_cell
  | .dc_edge | .dv_edge | .angle_edge | .lat_edge | .lon_edge | .x_edge | .y_edge | .z_edge
  | .weights_on_edge | .mesh_scaling_del2 | .mesh_scaling_del4 | .edge_mask
  | .area_triangle | .lat_vertex | .lon_vertex | .x_vertex | .y_vertex | .z_vertex
  | .kiteareas_on_vertex | .edge_sign_on_vertex => true
  | _ => false

/-- The constructor leaves every other view alone. -/
theorem meshMem_frame (a : RArr) (ha : isMeshR a = false) (l i k : Int) :
    (meshMem p dc m).real a l i k = m.real a l i k := by
  cases a <;> simp only [isMeshR, Bool.true_eq_false] at ha <;>
    simp [meshMem, mesh10, mesh7, mesh5, mesh2, iarrP, arrP, fvP, fcP, vertP,
      edgeP, geomP, scaleP, tabP, geomArr]

end

end Refine
end Omega
