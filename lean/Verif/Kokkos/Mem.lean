import Verif.Lib.Loop

/-!
# Arrays and memory

One constructor per `Kokkos::View` of the code.  Index tuples are padded to a fixed length: an
integer array is indexed by `(i, j)` (rank 1: `j = 0`), a real array by `(l, i, k)` (rank 2:
`l = 0`; rank 1: `l = 0, k = 0`).
-/

namespace Omega

/-- Integer views: `src/mesh/mpas_mesh.hpp:16-22, 33-39, 55-59`. -/
inductive IArr
  | nedges_on_cell | edges_on_cell | cells_on_cell | vertices_on_cell
  | kite_index_on_cell | max_level_cell
  | nedges_on_edge | edges_on_edge | cells_on_edge | vertices_on_edge
  | max_level_edge_bot | max_level_edge_top
  | edges_on_vertex | cells_on_vertex
  | max_level_vertex_bot | max_level_vertex_top
  deriving DecidableEq, Repr

/-- The `ShallowWaterState` objects of one run: the user's state
(`src/model/shallow_water_state.hpp`), the stepper's tendency, provisional and old states
(`src/time_integration/time_stepper.hpp:21, 32-34`). They are distinct allocations. -/
inductive StateId
  | state | tend | provis | old
  deriving DecidableEq, Repr

/-- Views local to the test programs: `tracer_*_convergence.cpp:55-56`,
`nonlinear_swe_convergence.cpp:135`, and `operator_convergence.cpp:18-20, 70-72, 124-127, 179-182`
(the views called `input_field` there are one on cells and one on edges here, the functions declaring
them run one after the other). -/
inductive TestArr
  | tr_exact_cell | hexact_cell
  | input_cell | input_edge
  | grad_field | exact_grad_field | div_field | exact_div_field
  | curl_field | exact_curl_field | recon_field | exact_recon_field
  deriving DecidableEq, Repr

/-- Real views: `src/mesh/mpas_mesh.hpp:24-31, 41-53, 61-68`; auxiliary views
`src/model/auxiliary_vars/*.hpp`; work views of `vel_hyperdiff_edge.hpp:12-14` and
`tracer_hyperdiff_cell.hpp:11`; `f_vertex`, `f_edge` of `shallow_water_model.hpp:32-33`; and the
state views of `shallow_water_state.cpp:7-10`. -/
inductive RArr
  -- mesh, cells
  | area_cell | lat_cell | lon_cell | x_cell | y_cell | z_cell | mesh_density
  | edge_sign_on_cell
  -- mesh, edges
  | dc_edge | dv_edge | angle_edge | lat_edge | lon_edge | x_edge | y_edge | z_edge
  | weights_on_edge | mesh_scaling_del2 | mesh_scaling_del4 | edge_mask
  -- mesh, vertices
  | area_triangle | lat_vertex | lon_vertex | x_vertex | y_vertex | z_vertex
  | kiteareas_on_vertex | edge_sign_on_vertex
  -- model
  | f_vertex | f_edge
  -- auxiliary variables
  | mean_h_edge | flux_h_edge
  | rvort_vertex | norm_rvort_vertex | norm_pvort_vertex | norm_rvort_edge | norm_pvort_edge
  | ke_cell | vel_div_cell | norm_tr_cell
  | vel_del2_edge | vel_del2_rvort_vertex | vel_del2_div_cell | tracer_del2_cell
  -- states
  | h_cell (s : StateId) | vn_edge (s : StateId) | tr_cell (s : StateId)
  -- test programs
  | test (a : TestArr)
  deriving DecidableEq, Repr

/-- Sizes of the mesh and of the tracer set: `src/mesh/mpas_mesh.hpp:10-14`,
`ShallowWaterParams::m_ntracers`, and the compile-time `vector_length` (`src/common.hpp:19-25`). -/
structure Dims where
  ncells : Int
  nedges : Int
  nvertices : Int
  nlayers : Int
  nlayersVec : Int
  ntracers : Int
  vl : Int
  deriving Repr, DecidableEq

/-- `maxedges`, `src/mesh/mpas_mesh.hpp:8`. -/
def maxedges : Int := 6

/-- Extents of the integer views: `src/mesh/planar_hexagonal_mesh.cpp:20-23, 34-37, 50-51` and
`src/mesh/mpas_mesh.cpp:7-18`. -/
def IArr.ext (d : Dims) : IArr → Int × Int
  | .nedges_on_cell => (d.ncells, 1)
  | .edges_on_cell => (d.ncells, maxedges)
  | .cells_on_cell => (d.ncells, maxedges)
  | .vertices_on_cell => (d.ncells, maxedges)
  | .kite_index_on_cell => (d.ncells, maxedges)
  | .max_level_cell => (d.ncells, 1)
  | .nedges_on_edge => (d.nedges, 1)
  | .edges_on_edge => (d.nedges, 2 * maxedges)
  | .cells_on_edge => (d.nedges, 2)
  | .vertices_on_edge => (d.nedges, 2)
  | .max_level_edge_bot => (d.nedges, 1)
  | .max_level_edge_top => (d.nedges, 1)
  | .edges_on_vertex => (d.nvertices, 3)
  | .cells_on_vertex => (d.nvertices, 3)
  | .max_level_vertex_bot => (d.nvertices, 1)
  | .max_level_vertex_top => (d.nvertices, 1)

/-- Extents of the views of the test programs, lines as at `TestArr`. -/
def TestArr.ext (d : Dims) : TestArr → Int × Int × Int
  | .tr_exact_cell => (d.ntracers, d.ncells, d.nlayers)
  | .hexact_cell => (1, d.ncells, d.nlayers)
  | .input_cell | .div_field | .exact_div_field => (1, d.ncells, 1)
  | .input_edge | .grad_field | .exact_grad_field | .recon_field
  | .exact_recon_field => (1, d.nedges, 1)
  | .curl_field | .exact_curl_field => (1, d.nvertices, 1)

/-- Extents `(l, i, k)` of the real views: `src/mesh/planar_hexagonal_mesh.cpp:25-59`,
`src/mesh/mpas_mesh.cpp:8-19`, `kinetic_aux.hpp:77-78`, `thickness_aux.hpp:56-57`,
`tracer_aux.hpp:55-56`, `vorticity_aux.hpp:136-142`, `vel_hyperdiff_edge.hpp:241-245`,
`tracer_hyperdiff_cell.hpp:166-167`, `shallow_water_model.cpp:14-15`,
`shallow_water_state.cpp:7-10`. -/
def RArr.ext (d : Dims) : RArr → Int × Int × Int
  | .area_cell | .lat_cell | .lon_cell | .x_cell | .y_cell | .z_cell
  | .mesh_density => (1, d.ncells, 1)
  | .edge_sign_on_cell => (1, d.ncells, maxedges)
  | .dc_edge | .dv_edge | .angle_edge | .lat_edge | .lon_edge
  | .x_edge | .y_edge | .z_edge => (1, d.nedges, 1)
  | .weights_on_edge => (1, d.nedges, 2 * maxedges)
  | .mesh_scaling_del2 | .mesh_scaling_del4 => (1, d.nedges, 1)
  | .edge_mask => (1, d.nedges, d.nlayers)
  | .area_triangle | .lat_vertex | .lon_vertex
  | .x_vertex | .y_vertex | .z_vertex => (1, d.nvertices, 1)
  | .kiteareas_on_vertex | .edge_sign_on_vertex => (1, d.nvertices, 3)
  | .f_vertex => (1, d.nvertices, 1)
  | .f_edge => (1, d.nedges, 1)
  | .mean_h_edge | .flux_h_edge => (1, d.nedges, d.nlayers)
  | .rvort_vertex | .norm_rvort_vertex | .norm_pvort_vertex => (1, d.nvertices, d.nlayers)
  | .norm_rvort_edge | .norm_pvort_edge => (1, d.nedges, d.nlayers)
  | .ke_cell | .vel_div_cell => (1, d.ncells, d.nlayers)
  | .norm_tr_cell => (d.ntracers, d.ncells, d.nlayers)
  | .vel_del2_edge => (1, d.nedges, d.nlayers)
  | .vel_del2_rvort_vertex => (1, d.nvertices, d.nlayers)
  | .vel_del2_div_cell => (1, d.ncells, d.nlayers)
  | .tracer_del2_cell => (d.ntracers, d.ncells, d.nlayers)
  | .h_cell _ => (1, d.ncells, d.nlayers)
  | .vn_edge _ => (1, d.nedges, d.nlayers)
  | .tr_cell _ => (d.ntracers, d.ncells, d.nlayers)
  | .test a => a.ext d

/-- Index in bounds of an integer view. -/
def IArr.InB (d : Dims) (a : IArr) (i j : Int) : Prop :=
  (0 ≤ i ∧ i < (a.ext d).1) ∧ (0 ≤ j ∧ j < (a.ext d).2)

/-- Index in bounds of a real view. -/
def RArr.InB (d : Dims) (a : RArr) (l i k : Int) : Prop :=
  (0 ≤ l ∧ l < (a.ext d).1) ∧ (0 ≤ i ∧ i < (a.ext d).2.1) ∧ (0 ≤ k ∧ k < (a.ext d).2.2)

instance (d : Dims) (a : IArr) (i j : Int) : Decidable (a.InB d i j) := by
  unfold IArr.InB; infer_instance
instance (d : Dims) (a : RArr) (l i k : Int) : Decidable (a.InB d l i k) := by
  unfold RArr.InB; infer_instance

/-- Device memory: the contents of every view. -/
structure Mem (R : Type) where
  int : IArr → Int → Int → Int
  real : RArr → Int → Int → Int → R

@[ext] theorem Mem.ext' {R : Type} {m m' : Mem R} (hi : m.int = m'.int) (hr : m.real = m'.real) :
    m = m' := by
  cases m; cases m'; simp_all

/-- Memory locations. -/
inductive Loc
  | int (a : IArr) (i j : Int)
  | real (a : RArr) (l i k : Int)
  deriving DecidableEq, Repr

/-- The two memories hold the same value at a location. -/
def Mem.EqAt {R : Type} (m m' : Mem R) : Loc → Prop
  | .int a i j => m.int a i j = m'.int a i j
  | .real a l i k => m.real a l i k = m'.real a l i k

theorem Mem.EqAt.rfl' {R : Type} {m : Mem R} {x : Loc} : m.EqAt m x := by cases x <;> rfl
theorem Mem.EqAt.symm {R : Type} {m m' : Mem R} {x : Loc} (h : m.EqAt m' x) : m'.EqAt m x := by
  cases x <;> exact Eq.symm h
theorem Mem.EqAt.trans {R : Type} {m m' m'' : Mem R} {x : Loc} (h : m.EqAt m' x)
    (h' : m'.EqAt m'' x) : m.EqAt m'' x := by
  cases x <;> exact Eq.trans h h'

theorem Mem.eq_of_EqAt {R : Type} {m m' : Mem R} (h : ∀ x, m.EqAt m' x) : m = m' := by
  apply Mem.ext'
  · funext a i j; exact h (.int a i j)
  · funext a l i k; exact h (.real a l i k)

/-- Store an integer. -/
def Mem.setI {R : Type} (m : Mem R) (a : IArr) (i j v : Int) : Mem R :=
  { m with int := fun b i' j' => if b = a ∧ i' = i ∧ j' = j then v else m.int b i' j' }

/-- Store a real. -/
def Mem.setR {R : Type} (m : Mem R) (a : RArr) (l i k : Int) (v : R) : Mem R :=
  { m with real := fun b l' i' k' =>
      if b = a ∧ l' = l ∧ i' = i ∧ k' = k then v else m.real b l' i' k' }

theorem Mem.setI_eqAt {R : Type} (m : Mem R) (a : IArr) (i j v : Int) {x : Loc}
    (h : x ≠ .int a i j) : (m.setI a i j v).EqAt m x := by
  cases x with
  | int b i' j' =>
    simp only [Mem.EqAt, Mem.setI]
    rw [if_neg]
    rintro ⟨rfl, rfl, rfl⟩; exact h rfl
  | real b l' i' k' => rfl

theorem Mem.setR_eqAt {R : Type} (m : Mem R) (a : RArr) (l i k : Int) (v : R) {x : Loc}
    (h : x ≠ .real a l i k) : (m.setR a l i k v).EqAt m x := by
  cases x with
  | int b i' j' => rfl
  | real b l' i' k' =>
    simp only [Mem.EqAt, Mem.setR]
    rw [if_neg]
    rintro ⟨rfl, rfl, rfl, rfl⟩; exact h rfl

theorem Mem.setI_congr {R : Type} {m m' : Mem R} (a : IArr) (i j v : Int) {x : Loc}
    (h : m.EqAt m' x) : (m.setI a i j v).EqAt (m'.setI a i j v) x := by
  cases x with
  | int b i' j' => simp only [Mem.EqAt, Mem.setI] at *; rw [h]
  | real b l' i' k' => exact h

theorem Mem.setR_congr {R : Type} {m m' : Mem R} (a : RArr) (l i k : Int) (v : R) {x : Loc}
    (h : m.EqAt m' x) : (m.setR a l i k v).EqAt (m'.setR a l i k v) x := by
  cases x with
  | int b i' j' => exact h
  | real b l' i' k' => simp only [Mem.EqAt, Mem.setR] at *; rw [h]

end Omega
