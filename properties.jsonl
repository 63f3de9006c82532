{"id": "C01", "title": "Vertical padding and chunking cover every layer exactly once", "statement": "The mesh's layer count is the least multiple of the compile-time vector length that is at least the requested number of layers, and the (chunk, lane) pairs visited by the kernels enumerate the layers 0..layers-1 without gap, overlap or overrun.", "quantifier": "every requested layer count >= 0 and every vector length >= 1", "why_tests_cant": "unbounded range of layer counts and vector lengths; a build has only one vector length", "anchors": ["src/mesh/planar_hexagonal_mesh.cpp:PlanarHexagonalMesh::PlanarHexagonalMesh", "src/common.hpp:vector_length"]}
{"id": "C02", "title": "Mesh construction is memory safe and free of integer overflow", "statement": "Constructing a periodic hexagonal mesh with at least one row and one column, whose edge count and padded layer count fit in a 32-bit int, never indexes an array out of bounds and never overflows a signed int; every cell, edge and vertex id it stores is a valid id.", "quantifier": "every nx, ny, nlayers, every schedule of the parallel construction loops", "why_tests_cant": "all sizes and all thread interleavings; out-of-bounds writes are usually silent", "anchors": ["src/mesh/planar_hexagonal_mesh.cpp:compute_mesh_arrays", "src/mesh/planar_hexagonal_mesh.cpp:cell_on_cell", "src/mesh/mpas_mesh.cpp:finalize_mesh"]}
{"id": "C03", "title": "Mesh construction is schedule independent and complete", "statement": "The parallel construction loops are free of data races: every interleaving produces the same connectivity and geometry tables, and every table entry that the model later reads has been written, whatever the memory held before.", "quantifier": "every nx, ny >= 1, every interleaving of loop iterations, every initial memory content", "why_tests_cant": "a test sees one schedule and usually zeroed memory", "anchors": ["src/mesh/planar_hexagonal_mesh.cpp:compute_mesh_arrays", "src/mesh/mpas_mesh.cpp:finalize_mesh", "src/common.hpp:omega_parallel_for"]}
{"id": "C04", "title": "Each edge is a side of exactly two cell slots", "statement": "In the finished mesh every edge id occurs exactly twice in the cell-to-edge table, once among the first three sides of one cell and once among the last three sides of another, and the edge-to-cell table names exactly those two cells in that (1,0) order.", "quantifier": "every nx, ny >= 1 (even or odd rows)", "why_tests_cant": "all mesh sizes; the seam rows/columns are where scatter writes could collide", "anchors": ["src/mesh/planar_hexagonal_mesh.cpp:edge_on_cell", "src/mesh/planar_hexagonal_mesh.cpp:compute_mesh_arrays"]}
{"id": "C05", "title": "Outward normal signs are opposite on the two sides of an edge", "statement": "For meshes with at least two rows and two columns the edge sign seen from the edge's first cell is +1 and from its second cell is -1. (For nx = 1 or ny = 1 this is false: some edge carries +1 on both sides.)", "quantifier": "every nx, ny; the positive part for nx, ny >= 2, the negative part for every mesh with nx = 1 or ny = 1", "why_tests_cant": "boundary sizes are never run by the tests", "anchors": ["src/mesh/mpas_mesh.cpp:finalize_mesh (edge_sign_on_cell)"]}
{"id": "C06", "title": "Cell neighbour table is symmetric", "statement": "Going to neighbour j and then to neighbour j+3 (mod 6) returns to the starting cell, and neighbour j is the cell on the other side of side j's edge, whenever the number of rows is even. (For odd ny >= 3 with nx >= 2 both statements fail at the seam; double_vortex builds such a mesh, ny = 29.)", "quantifier": "every nx >= 1, even ny, all cells and sides; refutation for every odd ny >= 3, nx >= 2", "why_tests_cant": "all sizes and parities; the tests never inspect the neighbour table", "anchors": ["src/mesh/planar_hexagonal_mesh.cpp:cell_on_cell", "test/double_vortex.cpp:run"]}
{"id": "C07", "title": "Vertex incidence tables are mutually consistent", "statement": "Every vertex lists three edges, each listing that vertex as one of its two distinct end points; every edge is listed by exactly its two end vertices, once each; every vertex's three cells each list it among their corners, and every cell corner lists the cell back.", "quantifier": "every nx, ny >= 1, all vertices, edges, cells", "why_tests_cant": "all sizes; scatter writes at the seam", "anchors": ["src/mesh/planar_hexagonal_mesh.cpp:vertex_on_cell", "src/mesh/planar_hexagonal_mesh.cpp:compute_mesh_arrays"]}
{"id": "C08", "title": "Kite index inverts the vertex-to-cell table", "statement": "For each corner of each cell the stored kite index is the position of that cell in the corner's cell list.", "quantifier": "every nx, ny >= 2 (position well defined), all cells and corners", "why_tests_cant": "all sizes", "anchors": ["src/mesh/mpas_mesh.cpp:finalize_mesh (kite_index_on_cell)"]}
{"id": "C09", "title": "Areas tile the periodic domain", "statement": "The cell areas sum to period_x * period_y, so do the dual triangle areas; the three kite areas at a vertex sum to its triangle area; the kites of a cell sum to its area; and a quarter of dc*dv summed over a cell's sides is the cell area.", "quantifier": "every nx, ny >= 1, every spacing dc", "why_tests_cant": "all sizes and spacings, exact identity", "anchors": ["src/mesh/planar_hexagonal_mesh.cpp:compute_mesh_arrays (area_cell, area_triangle, kiteareas_on_vertex, dv_edge)"]}
{"id": "C10", "title": "Stored coordinates agree with the connectivity", "statement": "For an even number of rows, across every edge the second cell's centre equals the first cell's centre displaced by dc in the direction of the stored edge angle, modulo the periods; the edge point is the midpoint of that displacement; and the edge's second vertex equals its first displaced by dv along the left-hand tangent, modulo the periods, both vertices being at distance dc/sqrt(3) from both cells.", "quantifier": "every nx >= 1, even ny, every dc, every edge", "why_tests_cant": "all sizes including the periodic seam", "anchors": ["src/mesh/planar_hexagonal_mesh.cpp:compute_mesh_arrays (x_cell..y_vertex, angle_edge)"]}
{"id": "C11", "title": "Edge orientation is right handed", "statement": "Each edge's vertex pair is ordered so that the circulation sign at its first vertex is -1 and at its second +1, for every mesh size.", "quantifier": "every nx, ny >= 1, all edges", "why_tests_cant": "all sizes", "anchors": ["src/mesh/mpas_mesh.cpp:finalize_mesh (edge_sign_on_vertex)", "src/mesh/planar_hexagonal_mesh.cpp:compute_mesh_arrays"]}
{"id": "C12", "title": "The discrete curl of a discrete gradient vanishes", "statement": "On a mesh with an even number of rows the circulation of the gradient of any cell field around any vertex is exactly zero. (For odd ny >= 3, nx >= 2 there is a cell field and a vertex where it is not.)", "quantifier": "every nx, even ny, every cell field, every vertex; refutation for every odd ny >= 3, nx >= 2", "why_tests_cant": "all fields and sizes; convergence tests use one smooth field and only even sizes", "anchors": ["src/model/tendency_terms/ssh_grad_edge.hpp", "src/model/tendency_terms/ke_grad_edge.hpp", "src/model/auxiliary_vars/vorticity_aux.hpp"]}
{"id": "C13", "title": "Gradient and divergence are negative adjoints", "statement": "For every cell field and edge flux, the area-weighted sum of field times divergence equals minus the dc*dv-weighted sum of flux times gradient; in particular the total divergence is zero.", "quantifier": "every nx, ny >= 2, every cell field, every edge field", "why_tests_cant": "all fields and sizes", "anchors": ["src/model/auxiliary_vars/kinetic_aux.hpp", "src/model/tendency_terms/ssh_grad_edge.hpp", "src/model/tendency_terms/thickness_hadv_cell.hpp"]}
{"id": "C14", "title": "Tangential reconstruction is exact for uniform flow", "statement": "The edge-to-edge weights map the normal components of any spatially uniform velocity to its exact left-hand tangential components on every edge.", "quantifier": "every nx, ny >= 1, every uniform velocity, every edge", "why_tests_cant": "the test only checks a convergence rate for one smooth field", "anchors": ["src/mesh/planar_hexagonal_mesh.cpp:compute_mesh_arrays (weights_on_edge, scale_weights)", "test/operator_convergence.cpp:error_reconstruction"]}
{"id": "C15", "title": "The vorticity flux does no work", "statement": "The dc*dv-weighted sum over edges of mass flux times the potential-vorticity-flux term is zero for any edge vorticity, thickness and velocity (the weights are antisymmetric with multiplicity).", "quantifier": "every nx, ny >= 1, every layer, every edge field", "why_tests_cant": "all fields", "anchors": ["src/model/tendency_terms/pv_flux_edge.hpp", "src/mesh/planar_hexagonal_mesh.cpp:compute_mesh_arrays"]}
{"id": "C16", "title": "Curl of the reconstructed flux is minus the interpolated divergence", "statement": "At every vertex the circulation of the tangential reconstruction of any edge flux, divided by the triangle area, equals minus the kite-weighted average of the cell divergences of that flux (even number of rows, at least two columns).", "quantifier": "every nx >= 2, even ny, every edge field, every vertex", "why_tests_cant": "all fields and sizes", "anchors": ["src/mesh/planar_hexagonal_mesh.cpp:compute_mesh_arrays", "src/model/tendency_terms/pv_flux_edge.hpp", "src/model/auxiliary_vars/vorticity_aux.hpp"]}
{"id": "C17", "title": "Mass is conserved exactly by any run", "statement": "Without additional forcing the total mass reported by mass_integral is unchanged by any number of steps of either stepper, for any time step sizes, parameters and any state. (With one column or one row it is not.)", "quantifier": "every nx, ny >= 2, nlayers, state, parameters, sequence of (t, dt), stepper; exact arithmetic", "why_tests_cant": "all states and histories; the test runs one case with a tolerance", "anchors": ["src/time_integration/lsrk.cpp:do_step", "src/time_integration/rk4.cpp:do_step", "src/model/tendency_terms/thickness_hadv_cell.hpp", "src/model/shallow_water_diagnostics.cpp:mass_integral"]}
{"id": "C18", "title": "Total tracer content is conserved exactly by any run", "statement": "For each tracer and each layer the area-weighted tracer sum is unchanged by any number of steps of either stepper, with any combination of advection, diffusion and hyperdiffusion.", "quantifier": "every nx, ny >= 2, tracer, layer, state, coefficients, history; exact arithmetic", "why_tests_cant": "no test looks at tracer mass", "anchors": ["src/model/tendency_terms/tracer_hadv_cell.hpp", "src/model/tendency_terms/tracer_diff_cell.hpp", "src/model/tendency_terms/tracer_hyperdiff_cell.hpp", "src/time_integration/lsrk.cpp", "src/time_integration/rk4.cpp"]}
{"id": "C19", "title": "A uniform tracer concentration stays uniform", "statement": "If tracer = c * thickness everywhere then after any number of steps it still is, for any velocity, provided thickness does not vanish at a stage the thickness equation is not disabled, and advection is on for both thickness and tracers or for neither (a model built from parameters has both on).", "quantifier": "every constant c, mesh, state, coefficients, history with non-vanishing stage thickness", "why_tests_cant": "all states and histories", "anchors": ["src/model/tendency_terms/tracer_hadv_cell.hpp", "src/model/tendency_terms/thickness_hadv_cell.hpp", "src/model/auxiliary_vars/tracer_aux.hpp", "src/model/shallow_water_model.cpp:compute_tr_tendency"]}
{"id": "C20", "title": "Energy is conserved by the inviscid tendency", "statement": "Without viscosity the rate of change of energy_integral along the computed tendency is exactly zero for every thickness and velocity field.", "quantifier": "every nx, ny >= 2, layer count, state, gravity, Coriolis parameter; exact arithmetic, continuous time", "why_tests_cant": "the test sees only one trajectory with tolerance", "anchors": ["src/model/shallow_water_model.cpp:compute_tendency", "src/model/shallow_water_diagnostics.cpp:energy_integral"]}
{"id": "C21", "title": "Reported circulation is a constant of the mesh", "statement": "circulation_integral does not depend on the velocity at all: it equals the Coriolis parameter times domain area times the number of layers for every state, hence is unchanged by every step.", "quantifier": "every nx, ny >= 1, every velocity field, every run of either stepper, with any forcing that is a pointwise update of the tendencies", "why_tests_cant": "all states", "anchors": ["src/model/shallow_water_diagnostics.cpp:circulation_integral"]}
{"id": "C22", "title": "A resting fluid of uniform depth stays at rest", "statement": "With zero velocity and uniform thickness every tendency is zero and any number of steps of either stepper leaves thickness and velocity unchanged, with any viscosity.", "quantifier": "every mesh size, depth, parameters, history", "why_tests_cant": "all parameters and histories", "anchors": ["src/model/shallow_water_model.cpp:compute_tendency", "src/time_integration/lsrk.cpp", "src/time_integration/rk4.cpp"]}
{"id": "C23", "title": "Uniform potential vorticity is preserved", "statement": "If the potential vorticity is uniform over the vertices then the rate of change of absolute vorticity equals that value times the rate of change of vertex thickness at every vertex (even rows, inviscid).", "quantifier": "every nx >= 2, even ny, state with uniform PV and non-zero vertex thickness", "why_tests_cant": "all states", "anchors": ["src/model/tendency_terms/pv_flux_edge.hpp", "src/model/auxiliary_vars/vorticity_aux.hpp", "src/model/shallow_water_model.cpp:compute_vn_tendency"]}
{"id": "C24", "title": "Laplacian viscosity dissipates", "statement": "The viscous velocity tendency removes kinetic energy: the dc*dv-weighted product of velocity with it equals minus viscosity times (area-weighted squared divergence plus squared vorticity), hence is never positive.", "quantifier": "every nx, ny >= 2, velocity field, viscosity > 0", "why_tests_cant": "all fields", "anchors": ["src/model/tendency_terms/vel_diff_edge.hpp"]}
{"id": "C25", "title": "Biharmonic viscosity dissipates", "statement": "The hyperviscous velocity tendency of the scalar build removes kinetic energy: the dc*dv-weighted product of velocity with it equals minus the coefficient times the weighted squared Laplacian.", "quantifier": "every nx, ny >= 2, velocity field, coefficient > 0", "why_tests_cant": "all fields; no test enables it except the benchmark", "anchors": ["src/model/tendency_terms/vel_hyperdiff_edge.hpp"]}
{"id": "C26", "title": "Tracer diffusion dissipates concentration variance", "statement": "The area-weighted product of concentration with the diffusive tracer tendency equals minus the coefficient times the thickness-weighted squared concentration differences, hence is never positive when edge thickness is non-negative.", "quantifier": "every nx, ny >= 2, state, coefficient", "why_tests_cant": "all fields", "anchors": ["src/model/tendency_terms/tracer_diff_cell.hpp"]}
{"id": "C27", "title": "Tracer hyperdiffusion dissipates for uniform thickness", "statement": "For uniform non-negative thickness the area-weighted product of concentration with the hyperdiffusive tendency equals minus coefficient times thickness times the squared Laplacian, hence is never positive.", "quantifier": "every nx, ny >= 2, concentration field, uniform thickness", "why_tests_cant": "all fields", "anchors": ["src/model/tendency_terms/tracer_hyperdiff_cell.hpp"]}
{"id": "C28", "title": "Explicit-SIMD build computes what the scalar build computes", "statement": "For every kernel the OMEGA_KOKKOS_SIMD variant stores the same values as the default variant in exact arithmetic, so that tendencies and runs agree. (False with hyperviscosity for every vector length >= 2: the vorticity kernel broadcasts the first lane, and the velocity tendencies at a layer agree exactly when its vorticity equals that of the first layer of its vector. True for everything else.)", "quantifier": "every kernel, mesh, state, vector length", "why_tests_cant": "two different builds must agree on all inputs", "anchors": ["src/model/auxiliary_vars/kinetic_aux.hpp", "src/model/auxiliary_vars/thickness_aux.hpp", "src/model/auxiliary_vars/tracer_aux.hpp", "src/model/auxiliary_vars/vorticity_aux.hpp", "src/model/tendency_terms/ke_grad_edge.hpp", "src/model/tendency_terms/pv_flux_edge.hpp", "src/model/tendency_terms/ssh_grad_edge.hpp", "src/model/tendency_terms/thickness_hadv_cell.hpp", "src/model/tendency_terms/tracer_diff_cell.hpp", "src/model/tendency_terms/tracer_hadv_cell.hpp", "src/model/tendency_terms/tracer_hyperdiff_cell.hpp", "src/model/tendency_terms/vel_diff_edge.hpp", "src/model/tendency_terms/vel_hyperdiff_edge.hpp", "src/model/tendency_terms/vel_hyperdiff_edge.hpp:compute_vel_del2_rvort"]}
{"id": "C29", "title": "Split-kernel build computes what the fused build computes", "statement": "The OMEGA_NO_INNER_IF build (one loop per term) stores bit-for-bit the same tendencies as the default fused loops.", "quantifier": "every state, parameters, add mode, arithmetic (including floating point), schedule", "why_tests_cant": "two builds, all inputs and schedules", "anchors": ["src/model/shallow_water_model.cpp:OMEGA_NO_INNER_IF"]}
{"id": "C30", "title": "Replace and increment modes", "statement": "In replace mode an enabled tendency does not depend on the previous contents of the output; in increment mode the output is the previous contents plus what replace mode would store (exact arithmetic).", "quantifier": "every state, previous tendency contents, parameters", "why_tests_cant": "all previous contents", "anchors": ["src/model/shallow_water_model.cpp:compute_h_tendency", "src/model/shallow_water_model.cpp:compute_vn_tendency", "src/model/shallow_water_model.cpp:compute_tr_tendency", "src/model/shallow_water_model.hpp:AddMode"]}
{"id": "C31", "title": "Layers do not interact", "statement": "In the default build the tendencies and the stepped state at a layer depend only on the state at that layer, bit for bit, so padding layers can never contaminate requested layers. (False for the SIMD build with hyperviscosity.)", "quantifier": "every layer, state, parameters, arithmetic, number of steps", "why_tests_cant": "all states; NaN in padding is data dependent", "anchors": ["src/model/auxiliary_vars/kinetic_aux.hpp", "src/model/auxiliary_vars/thickness_aux.hpp", "src/model/auxiliary_vars/tracer_aux.hpp", "src/model/auxiliary_vars/vorticity_aux.hpp", "src/model/tendency_terms/ke_grad_edge.hpp", "src/model/tendency_terms/pv_flux_edge.hpp", "src/model/tendency_terms/ssh_grad_edge.hpp", "src/model/tendency_terms/thickness_hadv_cell.hpp", "src/model/tendency_terms/tracer_diff_cell.hpp", "src/model/tendency_terms/tracer_hadv_cell.hpp", "src/model/tendency_terms/tracer_hyperdiff_cell.hpp", "src/model/tendency_terms/vel_diff_edge.hpp", "src/model/tendency_terms/vel_hyperdiff_edge.hpp", "src/time_integration/lsrk.cpp", "src/time_integration/rk4.cpp"]}
{"id": "C32", "title": "Tracers are passive and independent", "statement": "Thickness and velocity evolution do not depend on any tracer, and a tracer's evolution does not depend on the other tracers, bit for bit; in exact arithmetic the tracer tendency is linear in the tracer.", "quantifier": "every state, tracer count, arithmetic, number of steps", "why_tests_cant": "all states", "anchors": ["src/model/shallow_water_model.cpp:compute_tendency", "src/model/shallow_water_auxstate.cpp:compute"]}
{"id": "C33", "title": "Disabled equations freeze their variable", "statement": "With the thickness (velocity) equation disabled and no forcing, any number of steps of either stepper leaves thickness (velocity) unchanged.", "quantifier": "every state, parameters, history starting from a new stepper", "why_tests_cant": "all histories", "anchors": ["src/model/shallow_water_model.cpp:compute_tendency", "src/time_integration/lsrk.cpp", "src/time_integration/rk4.cpp", "src/model/shallow_water_params.hpp"]}
{"id": "C34", "title": "Steps have no memory", "statement": "The state after do_step depends only on the state before, t and dt, not on earlier calls to the stepper: in exact arithmetic for the low-storage stepper, and in any arithmetic for RK4 with enabled equations. (With NaN arithmetic the low-storage stepper does remember.)", "quantifier": "every previous content of the stepper's work arrays, every state", "why_tests_cant": "all histories", "anchors": ["src/time_integration/lsrk.cpp:do_step", "src/time_integration/rk4.cpp:do_step"]}
{"id": "C35", "title": "One-stage stepper is forward Euler; unsupported stage counts do nothing", "statement": "LSRKStepper with 1 stage advances the state by dt times the tendency at time t; with any stage count other than 1 and 5 it leaves the state unchanged.", "quantifier": "every stage count, state, t, dt", "why_tests_cant": "all stage counts and states", "anchors": ["src/time_integration/lsrk.cpp:LSRKStepper", "src/time_integration/lsrk.cpp:do_step"]}
{"id": "C36", "title": "RK4 stepper is the classical Runge-Kutta method", "statement": "RK4Stepper advances the state by dt/6 (k1+2k2+2k3+k4) with k1..k4 evaluated at t, t+dt/2, t+dt/2, t+dt on the classical stage states, including forcing.", "quantifier": "every state, t, dt, parameters with both equations enabled, forcing that is a pointwise update", "why_tests_cant": "all states and times", "anchors": ["src/time_integration/rk4.cpp:RK4Stepper", "src/time_integration/rk4.cpp:do_step"]}
{"id": "C37", "title": "Five-stage stepper satisfies the fourth-order conditions to its rational precision", "statement": "The five-stage low-storage step equals the explicit Runge-Kutta step with the tableau generated by its coefficients, its abscissae are the row sums and all order conditions through order four hold with residual at most 1e-25 in exact arithmetic.", "quantifier": "every state, t, dt (the tableau identity); the eight order conditions", "why_tests_cant": "the tableau identity is for all tendencies", "anchors": ["src/time_integration/lsrk.cpp:LSRKStepper", "src/time_integration/lsrk.cpp:do_step"]}
{"id": "C38", "title": "Forcing is applied once per tendency evaluation", "statement": "User forcing (additional_tendency that adds S) enters each tendency evaluation exactly once. With RK4 and the corresponding equation disabled this is false: the forcing accumulates over evaluations because the work array is never reset.", "quantifier": "every forcing, parameters, number of steps", "why_tests_cant": "all histories", "anchors": ["src/model/shallow_water_model.cpp:compute_tendency", "src/model/shallow_water_model.hpp:additional_tendency", "src/time_integration/rk4.cpp:do_step"]}
{"id": "C39", "title": "Translation equivariance: the periodic seam is invisible", "statement": "Shifting the state by one column (any ny) or by two rows (even ny) and then computing a tendency or a step gives the shifted result, in the default and in the explicit-SIMD build.", "quantifier": "every nx >= 2, ny >= 2, state, parameters, steps", "why_tests_cant": "all states and shifts", "anchors": ["src/mesh/planar_hexagonal_mesh.cpp:cell_on_cell", "src/model/shallow_water_model.cpp:compute_tendency"]}
{"id": "C40", "title": "Tendency and step kernels are race free and memory safe", "statement": "On any mesh whose tables hold valid ids, every kernel launched by compute_tendency and do_step is free of data races, out-of-bounds accesses and int overflow under every interleaving, and the result is the same for all interleavings, bit for bit.", "quantifier": "every valid mesh, state contents, parameters, interleaving, arithmetic", "why_tests_cant": "all schedules", "anchors": ["src/common.hpp:omega_parallel_for", "src/model/shallow_water_model.cpp", "src/model/shallow_water_auxstate.cpp", "src/time_integration/lsrk.cpp", "src/time_integration/rk4.cpp"]}
{"id": "C41", "title": "Integral diagnostics do not depend on the reduction order", "statement": "mass_integral, energy_integral and circulation_integral return the same value for every way the parallel reduction may split and join the work (exact arithmetic).", "quantifier": "every partition of cells into chunks, every joining order, every state", "why_tests_cant": "all schedules", "anchors": ["src/common.hpp:omega_parallel_reduce", "src/model/shallow_water_diagnostics.cpp"]}
{"id": "C42", "title": "Energy diagnostic matches the model's kinetic energy and is positive", "statement": "energy_integral equals the area-weighted sum of g h^2/2 + h * ke with ke the kinetic energy used by the momentum equation, and is non-negative for non-negative thickness and gravity.", "quantifier": "every state, mesh", "why_tests_cant": "all states", "anchors": ["src/model/shallow_water_diagnostics.cpp:energy_integral", "src/model/auxiliary_vars/kinetic_aux.hpp"]}
{"id": "C43", "title": "Diagnostics count the padded layers", "statement": "All integrals run over the padded number of layers, so the value equals the requested-layer integral plus the padding's contribution.", "quantifier": "every requested layer count and vector length, every state", "why_tests_cant": "all sizes", "anchors": ["src/model/shallow_water_diagnostics.cpp", "src/mesh/mpas_mesh.cpp:finalize_mesh (max_level_cell)", "src/mesh/planar_hexagonal_mesh.cpp:PlanarHexagonalMesh"]}
{"id": "C44", "title": "Computing a tendency does not change the state or the mesh", "statement": "compute_tendency writes only the tendency, and internal work arrays; the state arrays and every mesh table are unchanged; do_step changes only the state and work arrays.", "quantifier": "every state, parameters, schedule", "why_tests_cant": "all states and schedules", "anchors": ["src/model/shallow_water_model.cpp:compute_tendency", "src/time_integration/lsrk.cpp", "src/time_integration/rk4.cpp"]}
{"id": "C45", "title": "Linear shallow-water model conserves energy and mass", "statement": "The linear model's tendency has zero total mass tendency and zero rate of change of its energy integral.", "quantifier": "every nx, ny >= 2, state, parameters", "why_tests_cant": "all states (source is in the tree but not compiled)", "anchors": ["src/shallow_water_hierarchical.cpp:LinearShallowWaterModel"]}
{"id": "C46", "title": "The monolithic implementation agrees with the modular one", "statement": "The single-file implementation computes the same tendencies as the modular one, except for hyperviscosity, where it takes the vorticity of the velocity instead of the vorticity of its Laplacian.", "quantifier": "every mesh of the planar hexagonal family, state, parameters", "why_tests_cant": "two implementations, all inputs", "anchors": ["src/shallow_water_hierarchical.cpp", "src/model/shallow_water_model.cpp"]}
{"id": "C47", "title": "Manufactured forcing is the exact residual", "statement": "The forcing of the nonlinear convergence test is the residual of the rotating shallow-water equations for its manufactured fields at every point and time.", "quantifier": "every x, y, t and all parameter values", "why_tests_cant": "all points; the test itself relies on it", "anchors": ["test/nonlinear_swe_convergence.cpp:ManufacturedSolution"]}
{"id": "C48", "title": "Double-vortex initial state is in geostrophic balance", "statement": "The initial velocity of the double vortex case is the geostrophic velocity of its thickness: f*vx = -g dh/dy, f*vy = g dh/dx at every point.", "quantifier": "every x, y and all parameter values with non-zero f, sigma, lengths", "why_tests_cant": "all points", "anchors": ["test/double_vortex.cpp:DoubleVortex", "benchmark/benchmark.cpp:DoubleVortex"]}
{"id": "C49", "title": "Drivers reach the end time exactly with a step not exceeding the requested one", "statement": "The step count and step size computed by the test drivers satisfy steps*dt = end time and dt <= requested dt.", "quantifier": "every positive end time and requested step", "why_tests_cant": "all values", "anchors": ["test/double_vortex.cpp:run", "test/nonlinear_swe_convergence.cpp:run"]}
{"id": "C50", "title": "Gradient is second-order accurate", "statement": "For every doubly periodic field with third derivative bounded by B, sampled at the stored cell coordinates, the discrete gradient at every edge differs from the exact normal derivative at the stored edge point by at most B dc^2 / 24. On all meshes of one domain one constant bounds the errors of the gradient, divergence, curl and reconstruction of any given smooth fields.", "quantifier": "every smooth doubly periodic field, every mesh with even ny, every edge and spacing", "why_tests_cant": "a convergence-rate test samples one field on five meshes", "anchors": ["src/model/tendency_terms/ssh_grad_edge.hpp", "test/operator_convergence.cpp:error_gradient"]}
{"id": "C51", "title": "Computed tendency is the documented TRiSK discretisation", "statement": "After compute_tendency in replace mode, every in-range entry of the tendency arrays equals the textbook formula written with divergence, gradient, curl, edge mean, kite average and tangential reconstruction over the mesh tables: thickness -div(h u), velocity q F_perp - grad K - g grad h + viscosity, tracer -div(h c u) + diffusion, each term present exactly when its switch is on.", "quantifier": "every mesh with valid connectivity tables, every state, every choice of enabled terms and coefficients, every number of layers and tracers, both kernel launch layouts", "why_tests_cant": "convergence tests see only a norm of the sum of all terms on smooth fields", "anchors": ["src/model/shallow_water_model.cpp:compute_tendency", "src/model/tendency_terms/", "src/model/auxiliary_vars/"]}
{"id": "C52", "title": "Nothing is computed from a division by zero while the layer is wet", "statement": "In arithmetic where a division by zero yields an undefined value that contaminates whatever is computed from it, a run either leaves an entry of the final state undefined or gives it the exact value; if the thickness is nonzero at every vertex (and in every cell when there are tracers) at each tendency evaluation, no entry is undefined; and a run with a defined final state conserves thickness and tracer content. The first two hold in the default and in the explicit-SIMD build.", "quantifier": "every mesh, initial state, parameter set, stepper and sequence of steps", "why_tests_cant": "all states and runs; a test cannot show that no evaluation order or state divides by zero", "anchors": ["src/model/auxiliary_vars/vorticity_aux.hpp", "src/model/auxiliary_vars/tracer_aux.hpp", "src/model/shallow_water_model.cpp:compute_tendency"]}
{"id": "C53", "title": "Combining OMEGA_NO_SIMD with OMEGA_KOKKOS_SIMD is not a usable build", "statement": "The two CMake options are independent; with both, vector_length is 1 while the SIMD registers keep their native width, and every compute_tendency call accesses elements beyond the last layer of its arrays, whatever the mesh and the state are.", "quantifier": "every mesh with at least one layer, every state, every register width larger than the chunk", "why_tests_cant": "an out-of-bounds access that lands inside an allocation goes unnoticed when executed", "anchors": ["CMakeLists.txt:29-34", "src/common.hpp:16-25", "src/model/auxiliary_vars/vorticity_aux.hpp:26-58"]}
{"id": "C54", "title": "The explicit-SIMD build is free of undefined behaviour and deterministic", "statement": "With vectors of the length of a chunk, compute_tendency and any sequence of steps in the OMEGA_KOKKOS_SIMD build access no element outside an array, have no data race under any thread interleaving, and have exactly one possible result, the same for fused and separate launches.", "quantifier": "every mesh with valid tables, every state, parameters, arithmetic, interleaving, number of steps", "why_tests_cant": "interleavings and all mesh sizes", "anchors": ["src/model/auxiliary_vars/kinetic_aux.hpp", "src/model/auxiliary_vars/thickness_aux.hpp", "src/model/auxiliary_vars/tracer_aux.hpp", "src/model/auxiliary_vars/vorticity_aux.hpp", "src/model/tendency_terms/ke_grad_edge.hpp", "src/model/tendency_terms/pv_flux_edge.hpp", "src/model/tendency_terms/ssh_grad_edge.hpp", "src/model/tendency_terms/thickness_hadv_cell.hpp", "src/model/tendency_terms/tracer_diff_cell.hpp", "src/model/tendency_terms/tracer_hadv_cell.hpp", "src/model/tendency_terms/tracer_hyperdiff_cell.hpp", "src/model/tendency_terms/vel_diff_edge.hpp", "src/model/tendency_terms/vel_hyperdiff_edge.hpp", "src/model/shallow_water_model.cpp"]}
{"id": "C55", "title": "Divergence is second-order accurate", "statement": "For every doubly periodic vector field with third derivatives bounded by B, whose normal components are sampled at the stored edge points with the stored angles, the discrete divergence at every cell differs from the exact divergence at the stored cell center by at most B dc^2 / 9.", "quantifier": "every smooth vector field, every mesh with nx >= 2 and even ny, every cell and spacing", "why_tests_cant": "a convergence-rate test samples one field on five meshes", "anchors": ["test/operator_convergence.cpp:error_divergence", "src/model/tendency_terms/thickness_hadv_cell.hpp"]}
{"id": "C56", "title": "Curl is first-order accurate", "statement": "For every doubly periodic vector field with second derivatives bounded by B the discrete curl at every vertex differs from the exact curl at the stored vertex position by at most 2 B dc / (3 sqrt 3).", "quantifier": "every smooth vector field, every mesh with even ny, every vertex and spacing", "why_tests_cant": "a convergence-rate test samples one field on five meshes", "anchors": ["test/operator_convergence.cpp:error_curl", "src/model/auxiliary_vars/vorticity_aux.hpp"]}
{"id": "C57", "title": "Tangential reconstruction is second-order accurate", "statement": "For every doubly periodic vector field with second derivatives bounded by B the weighted sum of normal components differs from the exact component 90 degrees to the left of the normal by at most sqrt 3 / 2 B dc^2 at every edge.", "quantifier": "every smooth vector field, every mesh with even ny, every edge and spacing", "why_tests_cant": "a convergence-rate test samples one field on five meshes", "anchors": ["test/operator_convergence.cpp:error_reconstruction", "src/mesh/planar_hexagonal_mesh.cpp"]}
{"id": "C58", "title": "Which terms a model built from parameters has", "statement": "A ShallowWaterModel built from a parameter struct always applies thickness advection, the vorticity flux, the kinetic energy gradient, the surface gradient and tracer advection. Each of the four diffusion terms acts exactly when its coefficient is positive. A zero or negative coefficient has the same effect as zero, so a caller can never get anti-diffusion by a negative coefficient.", "quantifier": "all meshes with consistent tables, all parameter structs, all states, both launch modes, every execution", "why_tests_cant": "Tests use a handful of coefficient values and never a negative one.", "anchors": ["src/model/shallow_water_model.cpp:8-41", "src/model/shallow_water_model.cpp:127-317"]}
{"id": "C59", "title": "The reference solutions of the tracer convergence tests solve their equations", "statement": "The time-dependent references in the tracer advection, diffusion and hyperdiffusion tests are exact solutions of the equations the model discretises, with the velocity, thickness and coefficients those tests set.", "quantifier": "all points, times, wave numbers and coefficients", "why_tests_cant": "A convergence test measures the distance to the reference; it cannot tell a wrong reference from a wrong scheme.", "anchors": ["test/tracer_advection_convergence.cpp", "test/tracer_diffusion_convergence.cpp", "test/tracer_hyperdiffusion_convergence.cpp"]}
{"id": "C60", "title": "Geostrophically balanced states of the linear model are stationary", "statement": "In the linear shallow-water model, take any stream function on the vertices of each layer, let the normal velocities be its derivative along the edges and let gravity times thickness be a constant minus f0 times the stream function averaged to the cells. Then compute_tendency returns exactly zero for thickness and velocity.", "quantifier": "every mesh with even ny and nx, ny >= 2, every stream function per layer, every f0, gravity and constant", "why_tests_cant": "The balanced states form a space whose dimension grows with the mesh; a test tries a few and sees rounding noise rather than an exact identity.", "anchors": ["src/shallow_water_hierarchical.cpp", "src/mesh/planar_hexagonal_mesh.cpp"]}
{"id": "C61", "title": "Forward Euler tracer diffusion obeys the maximum principle", "statement": "With thickness and velocity prescribed and the fluid at rest, one-stage steps with 4 kappa dt hmax <= hmin dc^2 keep every tracer concentration between any bounds that hold initially.", "quantifier": "every mesh with nx, ny >= 2, every thickness field, tracer field, bounds, coefficient, number and size of steps below the limit, both launch modes", "why_tests_cant": "A test tries one field and one step size; overshoot may need many steps or a particular field to appear.", "anchors": ["src/model/shallow_water_model.cpp", "src/time_integration/lsrk.cpp", "src/model/tendency_terms/tracer_diff_cell.hpp"]}
{"id": "C62", "title": "Tracer diffusion and hyperdiffusion steps are stable up to an explicit step size", "statement": "With thickness and velocity prescribed and the fluid at rest, steps with 6 kappa dt hmax <= L hmin dc^2 do not increase the variance of the concentration, where L is 2 for one-stage, 9/2 for five-stage low-storage and 11/4 for RK4 stepping. With uniform thickness the same holds with hyperdiffusion if 6 kappa2 dt/dc^2 + 36 kappa4 dt/dc^4 <= L. The steps which the diffusion and hyperdiffusion tests take satisfy this at every resolution.", "quantifier": "every mesh with even ny and nx, ny >= 2, every state at rest, every schedule of steps within the limit, all steppers", "why_tests_cant": "Instability grows from the worst mode of the mesh; a test with a smooth field may not excite it in the time it runs.", "anchors": ["src/time_integration/lsrk.cpp", "src/time_integration/rk4.cpp", "test/tracer_diffusion_convergence.cpp:47-53", "test/tracer_hyperdiffusion_convergence.cpp:47-53"]}
{"id": "C63", "title": "The error reported by the tracer diffusion tests, in closed form", "statement": "A tracer convergence test that starts from sin(2 pi x/Lx) sin(2 pi y/Ly) in a layer at rest with thickness and velocity prescribed runs without fault or race, and in exact arithmetic its result (for every order of the final reduction) is sqrt(nlayers)/2 times |P(dt (kappa2 lambda - kappa4 lambda^2))^N - g(T)|, where P is the polynomial of the stepper, lambda the eigenvalue of the discrete Laplacian for that wave, N and dt the steps chosen by the driver, and g(T) the exact amplitude.", "quantifier": "every mesh with nx, ny >= 3 and ny even, every number of layers, coefficients, stepper, end time, step size, both launch modes, every initial memory", "why_tests_cant": "The test prints one number per mesh and compares two of them; it cannot show that the number measures the amplitude error of that wave and nothing else.", "anchors": ["test/tracer_diffusion_convergence.cpp:30-101", "test/tracer_hyperdiffusion_convergence.cpp:30-101"]}
{"id": "C64", "title": "The rate checks of the diffusion and hyperdiffusion tests hold at every resolution", "statement": "For the diffusion test and for the hyperdiffusion test, run with n and with 2n columns, the second error is positive and the base-2 logarithm of the ratio of the errors differs from 2 by less than 0.05, the tolerance of the test.", "quantifier": "every even n >= 16, every number of layers and vector length (the same for the two runs), both launch modes, every order of the final reductions", "why_tests_cant": "The test tries one pair of resolutions; the claim is about the asymptotic regime, and passing at one pair can be a coincidence.", "anchors": ["test/tracer_diffusion_convergence.cpp:104-133", "test/tracer_hyperdiffusion_convergence.cpp:104-133", "src/time_integration/lsrk.cpp"]}
{"id": "C65", "title": "The test programs and the benchmark are safe and reproducible", "statement": "The run functions of the tracer tests, the nonlinear test, the double vortex and the benchmark, from mesh construction to the last step and the error reductions, make no out-of-bounds access and have no data race. They end in exactly one memory state, and the final fields and the set of possible errors do not depend on what the memory contained before (no uninitialised value is used) nor on fused or split launches.", "quantifier": "every arithmetic, every mesh size and layer count within int range, every test function, stepper, schedule, both launch modes, every initial memory, every interleaving", "why_tests_cant": "A sanitizer run sees one schedule and one size; reading stale memory usually gives the right answer on a fresh heap.", "anchors": ["test/tracer_diffusion_convergence.cpp:30-101", "test/nonlinear_swe_convergence.cpp:115-178", "test/double_vortex.cpp:79-153", "benchmark/benchmark.cpp:83-161"]}
{"id": "C66", "title": "The conservation checks of the double vortex test are about rounding only", "statement": "In exact arithmetic the relative change of mass and of circulation reported by the double vortex test is zero and the divisors are nonzero. The benchmark ends with the mass of its initial thickness and with 1000 times the domain area of each tracer in each layer.", "quantifier": "every mesh with nx, ny >= 2 (odd ny included, as in the test), every positive initial thickness, velocity, f0 != 0, stepper, schedule, reduction order", "why_tests_cant": "The test compares with 5e-14 and cannot separate a scheme that drifts slowly from one that only rounds.", "anchors": ["test/double_vortex.cpp:128-160", "benchmark/benchmark.cpp:83-161"]}
{"id": "C67", "title": "What the operator convergence test measures", "statement": "On every mesh the operator convergence test makes no out-of-bounds access, has no data race and leaves exactly one memory state. The four numbers it returns exist and are, whatever the order of the parallel iterations and of the max-reductions, exactly the largest pointwise errors of the discrete gradient, divergence, curl and tangential reconstruction against the derivatives and components of its test fields.", "quantifier": "every mesh size within int range, every spacing, every initial memory, every interleaving and reduction order (safety: every arithmetic)", "why_tests_cant": "The test trusts its own hand-written derivatives and reductions; a sign slip in both the exact and the discrete field, or a partly covered maximum, would still show a rate.", "anchors": ["test/operator_convergence.cpp:8-223", "test/operator_convergence.cpp:225-244"]}
{"id": "C68", "title": "The operator convergence test passes: rates within 0.05", "statement": "On two successive square meshes with n and 2n columns (n even, n >= 48, spacing 1/n; the test ends with 48 and 96) the rates log2(e(n)/e(2n)) of the errors the test returns differ by less than 0.05 from 2 for the gradient, 2 for the divergence, 1 for the curl and 2 for the reconstruction.", "quantifier": "every even n >= 48 within int range, every initial memory, interleaving and reduction order", "why_tests_cant": "The test looks at one pair of meshes; it cannot tell that the curl stays first order and the others second order on all finer meshes.", "anchors": ["test/operator_convergence.cpp:225-309", "src/mesh/planar_hexagonal_mesh.cpp:5-20"]}
{"id": "C69", "title": "Velocity diffusion does not converge pointwise to the Laplacian", "statement": "On the doubly periodic 1 x sqrt(3)/2 domain there are smooth periodic velocity fields, fixed once for all resolutions, for which the operator that the velocity diffusion applies (grad div - rotated grad curl) differs from the normal component of the Laplacian by at least 25 at some edge of every mesh with n x n cells, n >= 48 even, spacing 1/n: refinement does not make the error small.", "quantifier": "every even n >= 48 within int range, every initial memory of the mesh", "why_tests_cant": "No test exercises velocity diffusion; a test at a few resolutions could not exclude convergence on finer meshes.", "anchors": ["src/model/tendency_terms/vel_diff_edge.hpp:61-87", "src/model/auxiliary_vars/kinetic_aux.hpp", "src/model/auxiliary_vars/vorticity_aux.hpp"]}
{"id": "C70", "title": "Velocity diffusion is consistent in the weak sense", "statement": "Tested with the edge values of any smooth periodic field, the operator of the velocity diffusion agrees up to a constant times the spacing with minus the sums over cells and triangles of the products of the exact divergences and vorticities; the constant depends on the fields and the periods only, not on the mesh.", "quantifier": "all C^3 periodic fields and test fields, every mesh with at least two columns, an even number of rows and spacing at most one (first theorem: every spacing, explicit constant)", "why_tests_cant": "Statement about all fields and all resolutions.", "anchors": ["src/model/tendency_terms/vel_diff_edge.hpp:61-87", "src/model/auxiliary_vars/kinetic_aux.hpp", "src/model/auxiliary_vars/vorticity_aux.hpp"]}
{"id": "C71", "title": "The tendency is second-order consistent with the shallow-water equations", "statement": "For a state sampled from smooth doubly periodic fields (layer thickness bounded below by eta > 0), compute_tendency of the shallow-water model stores, at every cell and edge, the right-hand side of the rotating shallow-water equations in vector-invariant form, with conservative tracer advection and diffusion, up to a constant times the square of the spacing. The constant depends only on eta, on a bound for the values and derivatives of the fields, on the parameters and on an upper bound for the spacing: not on the mesh, the periods or the individual fields.", "quantifier": "all doubly periodic thickness and velocity fields with derivatives up to order 3 and concentrations with derivatives up to order 4 below a given bound, all gravity, Coriolis and diffusivity values with viscosity, hyperviscosity and hyperdiffusion off; every mesh with at least two columns and an even number of rows; every layer; split or fused horizontal tendencies", "why_tests_cant": "The operator test measures single operators on one analytic field at three resolutions; the claim is about the full nonlinear tendency for all fields and all resolutions.", "anchors": ["src/model/shallow_water_model.cpp", "src/model/tendency_terms/", "src/model/auxiliary_vars/"]}
{"id": "C72", "title": "The manufactured solution satisfies the discrete equations to second order", "statement": "In the manufactured-solution test (nonlinear_swe_convergence), the tendency that the forced model computes for the exact solution sampled on the mesh at time t equals the sampled exact time derivative, up to a constant times the square of the spacing, at every cell (thickness) and every edge (normal velocity). The constant depends only on gravity, rotation, bounds on wave numbers, amplitude and depth, and an upper bound for the spacing; it does not depend on the time or the mesh.", "quantifier": "all manufactured solutions within given bounds whose thickness stays above a positive minimum, all meshes with an even number of rows on which the solution is periodic, all times, all layers, split or fused tendencies", "why_tests_cant": "the test measures one error norm at one final time on two meshes, where wrong forcing, wrong discretisation and time stepping errors are mixed and can cancel", "anchors": ["test/nonlinear_swe_convergence.cpp:12-113", "src/model/shallow_water_model.cpp"]}
{"id": "C73", "title": "Tracer advection in a prescribed flow converges", "statement": "Run the model with thickness and velocity equations disabled and without diffusion, from a sampled flow and tracer content, with equal steps of either fourth-order stepper and a Courant number of at most one on every edge. The root mean square over the cells of the difference between the tracer and the solution of the advection equation at the final time is at most a constant times dc^2 + dt^4 for RK4, and dc^2 + dt^4 + 1e-20 for the low-storage stepper, whose coefficients are rounded. The constant is the same for both and depends only on a bound for the derivatives of flow and solution, a minimum thickness, an upper bound for the spacing and the end time.", "quantifier": "all meshes with an even number of rows and a spacing within the bound, all smooth periodic flows with variable thickness and velocity (divergent ones included) within the bounds, all solutions of the advection equation within the bounds, all step sizes and numbers of steps (up to 1e18) within the Courant limit and end time, all layers and tracers, split or fused tendencies", "why_tests_cant": "the convergence test compares two errors of one flow on two meshes; it cannot show that the error goes to zero, at what rate, or that no other flow or step size is unstable", "anchors": ["src/model/shallow_water_model.cpp", "src/time_integration/lsrk.cpp", "src/time_integration/rk4.cpp", "test/tracer_advection_convergence.cpp:12-110"]}
{"id": "C74", "title": "The tracer advection test converges for every test case", "statement": "The number returned by run(nx) of a tracer test (the root mean square tracer error at the end time) is at most a constant times the root of the number of layers times dc^2 + dt^4 (RK4) or dc^2 + dt^4 + 1e-20 (low-storage stepper), where dt is the requested step, if the reference of the test is its thickness times a solution of the advection equation and the Courant number is at most one on every edge. The constant depends only on bounds for the derivatives of flow and solution, a minimum thickness, an upper bound for the spacing and the end time. The test case of the repository meets these hypotheses at every resolution of at least eight columns, with bounds that do not depend on the resolution.", "quantifier": "all tracer tests (thickness, velocity, reference) within the bounds, all meshes with an even number of rows, all steps within the Courant limit (at most 1e18 of them), both fourth-order steppers, all initial memory contents, all values of the other parameters (m_f0 is uninitialised in the test), split or fused tendencies", "why_tests_cant": "the test itself is one flow on two meshes; that its error is small for a reason that persists on finer meshes and in other flows is not a statement about two numbers", "anchors": ["test/tracer_advection_convergence.cpp:31-102", "src/model/shallow_water_model.cpp", "src/time_integration/lsrk.cpp"]}
{"id": "C75", "title": "The result of a tracer test does not depend on parameters of the velocity equation", "statement": "With the velocity equation disabled, as in the tracer tests, the final thickness, velocity and tracers of run(nx) and the numbers it can return are the same whatever the Coriolis parameter, gravity and the two viscosities are. The tests rely on it: they never set m_f0, which has no initialiser, so that an indeterminate value is copied into the Coriolis arrays. It may even be a NaN.", "quantifier": "all tracer tests, meshes, time steppers, step sequences, pairs of parameter sets that agree in the diffusivities and in disable_h, all initial memory contents, split or fused tendencies, any arithmetic (rounding, NaN)", "why_tests_cant": "the indeterminate value is usually zero or the same in repeated runs, so a dependence on it would not show, and no test varies it", "anchors": ["src/model/shallow_water_params.hpp:8", "src/model/shallow_water_model.cpp:39-40", "test/tracer_advection_convergence.cpp:50-102"]}
{"id": "C76", "title": "Mass and tracer content are conserved up to rounding", "statement": "In arithmetic with unit roundoff u (every operation has relative error at most u, integers below 2^53 are exact), a run of the five-stage low-storage stepper changes the sum of the thicknesses of a layer by at most u (5 + 574 |dt| V/dc) per step, relative to the number of cells times H, where H and V bound thickness and speed between the stages. Without tracer diffusion the sum of a tracer changes by at most u (5 + 574 (H/b) |dt| V/dc) per step relative to the number of cells times the largest tracer value, where b is the smallest thickness. The drift therefore grows at most linearly with the number of steps. It is independent of the schedule of the threads and of the length of the rows.", "quantifier": "all arithmetics with u <= 1/1000 and no overflow or underflow (doubles: u = 2^-53), all meshes with at least two rows and columns, all step sequences, all states, all physical parameters with thickness enabled, split or fused tendencies", "why_tests_cant": "the double vortex test compares two sums on one mesh after one run against a tolerance; how the rounding error depends on mesh size, step and number of steps is not observable from it", "anchors": ["src/time_integration/lsrk.cpp:36-90", "src/model/shallow_water_model.cpp", "test/double_vortex.cpp"]}
{"id": "C77", "title": "The reported mass and circulation in rounded arithmetic", "statement": "mass_integral returns the exact sum of stored area times thickness up to a relative error (1+u)^n - 1 of the sum of absolute values, where n is the largest number of additions on a path of the reduction tree plus one, whatever the order in which the threads add. Mass reported before and after a run of the five-stage stepper therefore differs by at most the area times the largest thickness times 2((1+u)^n - 1) + u sum over steps (5 + 574 |dt| V/dc). circulation_integral returns the number of vertices and layers times Coriolis parameter times the stored area of a triangle up to (1+u)^n - 1 times the sum of absolute values, whatever the velocity.", "quantifier": "all arithmetics with a relative error of at most u <= 1/1000 per operation, all reduction trees, meshes, states, step sequences and parameters with thickness enabled", "why_tests_cant": "a test sees the reduction order of one backend and one thread count; the bound holds for every order", "anchors": ["src/model/shallow_water_diagnostics.cpp:40-89", "src/common.hpp:113-128", "test/double_vortex.cpp"]}
{"id": "C78", "title": "A fluid at rest is linearly stable under the Courant condition", "statement": "Start from a family of states that depends differentiably on a parameter and is at rest with constant thickness H at parameter zero. After a run of RK4 or of the five-stage low-storage stepper with steps dt, the result is again differentiable, is again at rest with thickness H at zero, and the energy of the derivative, g * sum area a^2 + H * sum area b^2, does not grow with RK4 and is at most (1+5e-18)^(2N) times the initial one after N steps of the low-storage stepper (whose coefficients are rounded), provided dt (sqrt(K g H)/dc + (2/sqrt 3)|f0|) <= 5/2 with K = 6 for an even and 8 for an odd number of rows. The steps chosen by the programs double_vortex (Courant number at most 1/2, default 1/10), benchmark and nonlinear_swe_convergence meet this condition on every mesh they can be asked for.", "quantifier": "all meshes with at least two rows and columns, all numbers of steps, all thicknesses H > 0, gravities g >= 0, Coriolis parameters, families of states, layers, thread schedules; no viscosity", "why_tests_cant": "a test follows one perturbation on one mesh; growth in some direction of the state space may be invisible for thousands of steps", "anchors": ["src/model/shallow_water_model.cpp", "src/time_integration/rk4.cpp", "src/time_integration/lsrk.cpp", "src/model/tendency_terms/ssh_grad_edge.hpp", "src/model/tendency_terms/pv_flux_edge.hpp", "test/double_vortex.cpp", "benchmark/benchmark.cpp", "test/nonlinear_swe_convergence.cpp"]}
{"id": "C79", "title": "The Courant limit is sharp", "statement": "Without rotation, on a mesh whose number of columns is a multiple of three and whose number of rows is even, let the state of rest be perturbed by the three-coloured wave (2 on cells of one colour, -1 on the others) in the thickness. Each step multiplies the energy of the response by |P(iz)|^2 with z = dt sqrt(6 g H)/dc and P the stability polynomial of the stepper. For RK4 this is 1 - z^6/72 + z^8/576, larger than one exactly for z > 2 sqrt 2; beyond the limit the response exceeds every bound after a number of steps that does not depend on the mesh.", "quantifier": "all such meshes, all steppers and steps, all g, H > 0, all families of states with that derivative, all layers and schedules", "why_tests_cant": "a test that happens to pass at one step size says nothing about the limit; a failing one does not tell instability from a bug", "anchors": ["src/model/shallow_water_model.cpp", "src/time_integration/rk4.cpp", "src/time_integration/lsrk.cpp"]}
{"id": "C80", "title": "Time stepping of the full nonlinear model is fourth-order accurate", "statement": "Let u be a solution, on a time interval [0,T], of the system of ordinary differential equations given by the documented TRiSK tendency on a mesh (thickness, velocity and tracers; rotation, viscosity, hyperviscosity, diffusion as configured), with positive thickness throughout. There are K and tau such that a run of RK4 or of the five-stage low-storage stepper from u(0) with any number of steps of one size dt <= tau, up to a time within [0,T] (for the low-storage stepper with N dt defect <= tau besides), ends with every entry of thickness, velocity and tracers within K (dt^4 + defect) of u at that time. The defect is 0 for RK4 and 1e-20 for the low-storage stepper, whose coefficients are rounded. With n steps of size T/n RK4 ends within K/n^4 of u(T). Such a solution exists for a while from every wet state.", "quantifier": "all meshes, parameters with both equations enabled, wet initial states, solutions, step sizes and numbers of steps, both steppers, both builds, all thread schedules", "why_tests_cant": "convergence tests run one flow at two step sizes, and the spatial error hides the error in time; the order of a nonlinear method depends on eight order conditions that linear or smooth test flows do not separate", "anchors": ["src/model/shallow_water_model.cpp", "src/time_integration/rk4.cpp", "src/time_integration/lsrk.cpp"]}
{"id": "C81", "title": "Energy drift of an inviscid run is of fourth order in the step", "statement": "Without viscosity, on a solution as in C80, the value of energy_integral after a run of a fourth-order stepper differs from the value before by at most K (dt^4 + defect), for every number of steps up to the time T.", "quantifier": "all meshes with at least two rows and columns, parameters without viscosity and with both equations enabled, wet solutions, step sizes, numbers of steps, both steppers, all reduction orders and schedules", "why_tests_cant": "a test sees the drift of one run; it cannot separate the error of the stepper from an energy leak of the space discretisation, which would not vanish with the step", "anchors": ["src/model/shallow_water_model.cpp", "src/time_integration/rk4.cpp", "src/time_integration/lsrk.cpp", "src/model/shallow_water_diagnostics.cpp"]}
{"id": "C82", "title": "Linear waves converge to the solution on the plane", "statement": "Let (a,u,v) be a smooth periodic solution of the linear rotating shallow-water equations about rest with thickness H, derivatives up to order eight bounded by B until time Te. Initial states H + eps a, eps (u,v) sampled on the mesh and run with RK4 or the five-stage low-storage stepper, within the stability limit of C78, give results whose derivative in eps at rest is within C B (dc^2 + dt^4 + defect) of (a,u,v) at the final time, in the energy-weighted root mean square over cells and edges, with C = 10240 (1+Te)^6 e^5 sqrt(g+2H) (g+|f|+H+2). In particular an inertia-gravity wave cos(k x - w t) with w^2 = f^2 + g H k^2 moves at its exact phase speed up to an error of that order, with one constant for all meshes.", "quantifier": "all meshes with an even number of rows and at least two columns, all g >= 0, f, H > 0, all smooth solutions, both steppers, all steps within the limit (at most 1e18 of them), all schedules and builds", "why_tests_cant": "a test measures a rate for one wave on two or three meshes; a wrong phase speed on other wavelengths, directions or rotation rates, or an instability after more steps, is invisible to it", "anchors": ["src/model/shallow_water_model.cpp", "src/time_integration/rk4.cpp", "src/time_integration/lsrk.cpp"]}
{"id": "C83", "title": "Tracer diffusion converges to the solution of the diffusion equation", "statement": "Let q be a smooth periodic solution of d/dt (h q) = kappa div(h grad q) for a smooth thickness h between lo and hi, derivatives bounded by B until time Te. A run of RK4 or the five-stage low-storage stepper from a layer at rest with thickness and velocity held fixed, eddy_diff2 = kappa and no hyperdiffusion, tracer content sampled from h q and steps with 6 kappa dt hi <= limit lo dc^2 (limit 11/4 and 9/2), ends within K (dc^2 + dt^4 + defect) of h q at the cell centers, in root mean square. The constant depends only on the bounds, not on the mesh, the solution, the stepper or the number of steps.", "quantifier": "all meshes with an even number of rows and at least two columns and spacing at most D, all diffusivities up to B, all smooth thicknesses and solutions within the bounds, both steppers, any number of steps, all schedules and builds", "why_tests_cant": "the diffusion test checks the rate for one product of sines on uniform thickness and three meshes; a wrong weighting by thickness, an error that appears for other data or an instability after more steps would pass", "anchors": ["src/model/tendency_terms/tracer_diff_cell.hpp", "src/time_integration/rk4.cpp", "src/time_integration/lsrk.cpp", "test/tracer_diffusion_convergence.cpp:30-101"]}
{"id": "C84", "title": "Tracer hyperdiffusion is consistent and converges", "statement": "For sampled smooth periodic thickness, velocity and concentration within given bounds, the tracer tendency stored by compute_tendency is within K dc^2 of -div(h q u) + kappa2 div(h grad q) - kappa4 lap div(h grad q) at every cell, for any signs of the coefficients (a coefficient that is not positive acts as zero), although the two passes of the hyperdiffusive term divide by dc^4. For a layer at rest of uniform thickness h with thickness and velocity held fixed, and a smooth solution q of dq/dt = kappa2 lap q - kappa4 lap lap q, a run of RK4 or the five-stage low-storage stepper with 6 kappa2 dt/dc^2 + 36 kappa4 dt/dc^4 <= limit (11/4 and 9/2) ends within K (dc^2 + dt^4 + defect) of h q at the cell centers in root mean square. The constants depend only on the bounds.", "quantifier": "all meshes with an even number of rows and at least two columns and spacing at most D, all coefficients and smooth fields or solutions within the bounds, both steppers, any number of steps, all schedules and builds", "why_tests_cant": "the hyperdiffusion test checks the rate for one product of sines on uniform thickness and a few meshes; with a varying thickness the second pass acts on the error of the first, and a loss of order there, or an instability after more steps, would pass", "anchors": ["src/model/tendency_terms/tracer_hyperdiff_cell.hpp", "src/model/tendency_terms/tracer_diff_cell.hpp", "src/time_integration/rk4.cpp", "src/time_integration/lsrk.cpp", "test/tracer_hyperdiffusion_convergence.cpp:30-101"]}
{"id": "C85", "title": "The first order of the curl is sharp", "statement": "At every vertex of every mesh there is a periodic velocity field without rotation, bounded by A with n-th derivatives bounded by A k^n (k = 2 pi / Lx), whose discrete curl is at least A k^2 dc / (2 sqrt3 pi^2) in absolute value. Hence on refinements of a domain no bound K dc^2 holds: K would have to exceed a multiple of 1/dc. The discrete curl of the wave A cos(k(x-x0)) is given in closed form, with opposite signs on up and down triangles.", "quantifier": "all meshes with even ny, all spacings, amplitudes, phases and vertices", "why_tests_cant": "the operator test measures a rate near one for one field; it cannot tell whether that is a property of the scheme or of the field", "anchors": ["test/operator_convergence.cpp:error_curl", "src/model/auxiliary_vars/vorticity_aux.hpp"]}
{"id": "C86", "title": "Runs with a time-dependent forcing converge with order four in the time step", "statement": "On any mesh, with any parameters and any additional_tendency that adds a function of position and time, smooth in time, to the thickness tendency and the normal component of another to the velocity tendency: for every solution of the forced equations that stays wet up to T there are K and tau such that a driver run of N steps of size dt <= tau, started from the initial value, ends within K (dt^4 + defect) of the solution at time N dt in every entry of thickness, velocity and tracers, for RK4 (defect 0) and the five-stage low-storage stepper (defect 1e-20, the error of its literals). In particular the times passed to additional_tendency at the stages are the right ones. Such a solution exists for a while from every wet state.", "quantifier": "all meshes, parameters with both equations enabled, forcings, solutions, numbers of steps, step sizes below tau, schedules and builds", "why_tests_cant": "the test with a manufactured solution refines dt and dc together and measures a rate near two, so a forcing evaluated at a wrong stage time, which costs orders in dt, can hide behind the error in space", "anchors": ["test/nonlinear_swe_convergence.cpp:78-112", "src/time_integration/rk4.cpp", "src/time_integration/lsrk.cpp", "src/model/shallow_water_model.cpp:344"]}
{"id": "C87", "title": "Runs in floating-point arithmetic neither overflow nor lose convergence", "statement": "For any mesh, parameters and solution of the semi-discrete equations that stays wet up to T there are K and tau, independent of the arithmetic, such that in every floating-point arithmetic of precision eps (operations on finite numbers with results up to 1/eps are finite with relative plus absolute error eps; overflow, gradual underflow and contraction to fused multiply-add are allowed), a run of RK4 or the five-stage low-storage stepper on the mesh built in that arithmetic, with steps of size dt <= tau, eps <= tau dt, from finite initial values within delta of those of the solution, ends with finite numbers within K (dt^4 + defect + eps/dt + delta) of the solution in every entry of thickness, velocity and tracers. In particular RK4 with N steps keeps its fourth order while eps <= 1/N^5. Binary64 with and without contraction is such an arithmetic with eps = 2^-51.", "quantifier": "all meshes, parameters with both equations enabled, solutions, arithmetics, step sizes, numbers of steps, initial values and builds", "why_tests_cant": "a convergence test sees one precision and stops refining before rounding dominates; it cannot show that rounding errors of mesh generation, tendency and stepping only add up to eps/dt, nor that no operation divides by or compares quantities in a way that amplifies them", "anchors": ["src/time_integration/rk4.cpp", "src/time_integration/lsrk.cpp", "src/model/shallow_water_model.cpp", "src/mesh/planar_hexagonal_mesh.cpp"]}
{"id": "C88", "title": "Results do not depend on the units", "statement": "Convert every input with a dimension to units of length, time, layer thickness and tracer content that are L, T, H and Q(l) times smaller (mesh spacing by L, f0 by 1/T, grav by L^2/(T^2 H), visc_del2 and eddy_diff2 by L^2/T, visc_del4 and eddy_diff4 by L^4/T, dt by T, initial thickness by H, velocity by L/T, tracer l by Q(l)). Then the run of any stepper for any number of steps gives exactly the converted thickness, velocity and tracers: no term has a wrong power of the mesh spacing, thickness or time step, and no dimensional constant is hidden in the code.", "quantifier": "all meshes with nx, ny >= 2, all unit factors, parameters, initial states, steppers, schedules and builds", "why_tests_cant": "the tests run one set of units, in which a misplaced factor of the spacing or thickness can be absorbed in a tolerance or equal one (the convergence tests use domains of unit size and H of order one)", "anchors": ["src/model/shallow_water_model.cpp", "src/model/shallow_water_params.hpp", "src/mesh/planar_hexagonal_mesh.cpp", "src/time_integration/rk4.cpp", "src/time_integration/lsrk.cpp"]}
{"id": "C89", "title": "The inviscid model is covariant under time reversal", "statement": "With viscosities and tracer diffusivities not positive (switched off): reversing the initial velocity, f0 and the sign of every time step gives, after any number of steps of any stepper, the same thickness and tracers and the reversed velocity. Equivalently a backward run is the forward run of the reversed state. No term of the inviscid model is dissipative or upwinded.", "quantifier": "all meshes with nx, ny >= 2, inviscid parameters, initial states, steppers, schedules and builds", "why_tests_cant": "a small hidden dissipation only shifts error norms of a test slightly; covariance is exact and concerns every state", "anchors": ["src/model/shallow_water_model.cpp", "src/time_integration/rk4.cpp", "src/time_integration/lsrk.cpp", "src/model/tendency_terms"]}
{"id": "C90", "title": "Runs commute with the half turn and the mirror image of the domain", "statement": "On a mesh with an even number of rows, renaming cells by the half turn about the center of cell 0 or by the mirror image in the vertical line through it maps cell centers to their images up to whole periods and cells_on_cell to itself. A run of any stepper from the half-turned (mirrored) state, with the flow out of each cell through each side carried to the image side and, for the mirror, f0 reversed, ends with the half-turned (mirrored) result. A state that is its own half turn stays so; without rotation also a state that is its own mirror image.", "quantifier": "all meshes with nx >= 2, ny even, all parameters, initial states, steppers, schedules and builds", "why_tests_cant": "the mesh tables treat sides, rows of different parity and the seam by different formulas, and a mistake in one of them biases the flow in one direction; tests with a norm tolerance cannot tell a bias from truncation error", "anchors": ["src/mesh/planar_hexagonal_mesh.cpp", "src/model/shallow_water_model.cpp", "src/time_integration/rk4.cpp", "src/time_integration/lsrk.cpp"]}
{"id": "C91", "title": "Finite domain of dependence: two rings of cells per tendency evaluation", "statement": "A step with s tendency evaluations (4 for RK4, n for an n-stage low-storage scheme) makes the result in a cell and on its sides depend only on the state within 2 s rings of cells, and not on the size of the mesh, the place of the cell in it, its neighbours across the periodic seam or any data further away. Consequently (a) two runs on one mesh whose states agree on a set of cells agree after n steps in all cells more than 2 s n rings inside; (b) a run on a smaller mesh started from the values of a box of a larger mesh reproduces the run on the larger mesh, bit for bit, in all cells at least 2 s n cells away from the border of the box: a halo of two cells per tendency evaluation is enough to split the domain.", "quantifier": "all pairs of meshes with an even number of rows, boxes, parameters, initial states, steppers, schedules, builds and every arithmetic (also rounded)", "why_tests_cant": "a global dependence (a wrong table entry, an uninitialised value, a reduction in a tendency) may change results far away by amounts below a test tolerance, and the halo width concerns all meshes and all states at once", "anchors": ["src/model/shallow_water_model.cpp", "src/mesh/planar_hexagonal_mesh.cpp", "src/time_integration/rk4.cpp", "src/time_integration/lsrk.cpp"]}
{"id": "C92", "title": "Tracer bounds hold exactly up to cell Peclet number two", "statement": "One step of the one-stage stepper with the full model: if |v| dc <= 2 eddy_diff2 on every edge, tracer hyperdiffusion is off and 4 dt hhi (eddy_diff2 + V dc/2) <= hlo dc^2 (thickness between hlo and hhi, speed at most V), then concentrations (tracer content over thickness) that lie between two bounds stay between them. Conversely, if |v| dc > 2 max(eddy_diff2, 0) on a single edge of a wet state then for every step size, however small, there is a tracer with concentrations between 0 and 1 whose content is negative somewhere after the step: the centred advection needs diffusion at the scale of a cell. The fourth-order steppers do not repair this: in a prescribed flow without diffusion, for every speed and step size, a nonnegative tracer becomes negative in one step.", "quantifier": "all meshes with nx, ny >= 2 (the converse on a single edge: nx, ny >= 3, ny even), all parameters, states, speeds and step sizes", "why_tests_cant": "tests use smooth tracers and measure norms; bounds concern all tracers, and the violation is proportional to the step size and unbounded below by any tolerance", "anchors": ["src/model/tendency_terms/tracer_hadv_cell.hpp", "src/model/tendency_terms/tracer_diff_cell.hpp", "src/time_integration/lsrk.cpp", "src/time_integration/rk4.cpp"]}
{"id": "C93", "title": "When the layer stays wet", "statement": "One step of the one-stage stepper with 4 |dt| V <= r dc changes the thickness by at most r times its maximum, so a layer between hlo and hhi stays wet if r hhi < hlo. There is no protection against drying otherwise: for all dt, V, H > 0 there is a state with thickness in (0, H] and speeds at most V whose thickness is negative in some cell after one step, so no Courant condition alone keeps the layer wet. The same for the fourth-order steppers: for all V, H > 0 there is a step size such that for it and every smaller one there is a state within these bounds that one step makes negative somewhere, so reducing the step does not help either.", "quantifier": "all meshes with nx, ny >= 2, all parameters, states and step sizes", "why_tests_cant": "the tests start from nearly uniform depths; the condition involves the ratio of the depths of neighbouring cells, over all states", "anchors": ["src/model/auxiliary_vars/thickness_aux.hpp", "src/model/tendency_terms/thickness_hadv_cell.hpp", "src/time_integration/lsrk.cpp", "src/time_integration/rk4.cpp"]}
{"id": "C94", "title": "The classical stepper conserves mass and tracer content up to rounding", "statement": "In arithmetic with unit roundoff u (every operation has relative error at most u, integers below 2^53 are exact), a run of a new RK4Stepper changes the sum of the thicknesses of a layer by at most u (5 + 64 |dt| V/dc) per step, relative to the number of cells times H, where H and V bound thickness and speed of the states for which compute_tendency is called. Without tracer diffusion the sum of a tracer changes by at most u (5 + 64 (H/b) |dt| V/dc) per step relative to the number of cells times the largest tracer value, where b is the smallest thickness. No bound is assumed for the states accumulated between the stages.", "quantifier": "all arithmetics with u <= 1/1000 and no overflow or underflow (doubles: u = 2^-53), all meshes with at least two rows and columns, all step sequences, all states, all physical parameters with thickness enabled, split or fused tendencies", "why_tests_cant": "no test measures conservation with this stepper; the growth of the rounding error with mesh size, step and number of steps cannot be read off single runs", "anchors": ["src/time_integration/rk4.cpp:39-103", "src/model/shallow_water_model.cpp"]}
{"id": "C95", "title": "Inertial oscillations are exact solutions with a known error", "statement": "Start from layers of uniform thickness and uniform tracers with a uniform velocity in each layer, given on the edges by its normal components. After any run of any stepper, with any rotation, viscosity and diffusion, thickness and tracers are unchanged and the velocity is still uniform; each step multiplies it, as a complex number, by the stability polynomial of the stepper at -i f dt. With RK4 the square of the speed changes by the factor 1 - (f dt)^6/72 + (f dt)^8/576 per step, so it does not grow exactly if (f dt)^2 <= 8, and after N such steps the velocity is within N |f dt|^5 / 60 of the inertial oscillation exp(-i f N dt), relative to its speed. Without rotation the flow does not change at all.", "quantifier": "all meshes with at least two rows and columns (odd rows included), all parameters with the velocity equation enabled, all nonzero thicknesses, velocities and tracers per layer, all step sequences, all steppers, both builds and all schedules", "why_tests_cant": "no test starts from a uniform flow with rotation, and a test would compare one run up to a tolerance; the cancellation of the nonlinear terms and the sense and rate of the rotation are statements for all flows, meshes and steps", "anchors": ["src/model/shallow_water_model.cpp", "src/model/shallow_water_auxstate.cpp", "src/mesh/planar_hexagonal_mesh.cpp"]}
{"id": "C96", "title": "Advection keeps tracer variance; diffusion removes it at a known rate", "statement": "Let the variance of a tracer in a layer be the sum over the cells of area times (tracer amount)^2 / thickness, that is area times thickness times concentration squared. For every velocity, thickness and tracer, the computed tendency changes it at the rate -2 eddy_diff2 * (sum over the edges of dc * dv * mean thickness * squared gradient of concentration), without a contribution of the advection terms. As a consequence a run of RK4 with constant steps from a state with a wet solution increases the variance by at most K dt^4 by any time up to the end of the solution, and without diffusion it also decreases it by at most that.", "quantifier": "all meshes with at least two rows and columns, all states with nonzero thickness, all parameters without tracer hyperdiffusion and with the thickness equation enabled, every tracer and layer, both builds and all schedules; for runs: all smooth wet solutions, all small steps and step counts", "why_tests_cant": "a test compares one run with one reference; that advection contributes exactly nothing to the second moment depends on the tracer flux using the same thickness flux and centred averages as the continuity equation, for every flow", "anchors": ["src/model/tendency_terms/tracer_hadv_cell.hpp", "src/model/shallow_water_model.cpp", "src/model/tendency_terms/tracer_diff_cell.hpp"]}
{"id": "C97", "title": "What the explicit-SIMD build conserves, and energy that its hyperviscosity adds", "statement": "The explicit-SIMD build, whose hyperviscosity takes the vorticity part from the first layer of each vector, computes the same thickness and tracer tendencies as documented. Any run of any stepper conserves mass (as reported by mass_integral and per layer) and tracer content, keeps uniform tracers uniform, and leaves a fluid at rest with uniform layers unchanged, with hyperviscosity too. But the hyperviscosity of this build is not a dissipation: the kinetic energy of a layer changes by -visc_del4 times the sum over the edges of dc dv ((gradient of divergence)^2 + vorticity gradient of the layer * vorticity gradient of the first layer of its vector), and for vectors of two or more layers there is a flow in layers of uniform thickness whose total kinetic energy over all layers increases.", "quantifier": "all meshes with at least two rows and columns, all states (nonzero thickness for uniform tracers), all parameters, all steppers and step sequences, all vector lengths, all schedules; the energy statements for an even number of rows and every positive coefficient", "why_tests_cant": "no test runs the explicit-SIMD build with several layers and hyperviscosity; that conservation survives the wrong layer, and that the sign of the dissipation does not, are statements about every flow", "anchors": ["src/model/auxiliary_vars/kinetic_aux.hpp", "src/model/auxiliary_vars/thickness_aux.hpp", "src/model/auxiliary_vars/tracer_aux.hpp", "src/model/auxiliary_vars/vorticity_aux.hpp", "src/model/tendency_terms/ke_grad_edge.hpp", "src/model/tendency_terms/pv_flux_edge.hpp", "src/model/tendency_terms/ssh_grad_edge.hpp", "src/model/tendency_terms/thickness_hadv_cell.hpp", "src/model/tendency_terms/tracer_diff_cell.hpp", "src/model/tendency_terms/tracer_hadv_cell.hpp", "src/model/tendency_terms/tracer_hyperdiff_cell.hpp", "src/model/tendency_terms/vel_diff_edge.hpp", "src/model/tendency_terms/vel_hyperdiff_edge.hpp", "src/model/tendency_terms/vel_hyperdiff_edge.hpp:compute_vel_del2_rvort"]}
{"id": "C98", "title": "The discrete dispersion relation: plane gravity waves keep their shape exactly", "statement": "On a mesh with an even number of rows, without rotation and viscosity, let rest with thickness H be perturbed by a plane wave cos(k.x - theta) in the thickness, k fitting the periods, together with the normal velocity (g/omega)(2/dc) sin(dc k.n/2) cos(k.x_edge - theta), where omega^2 = g H lambda and lambda = 4/(3 dc^2) (3 - cos(dc k1) - cos(dc (k1/2 + sqrt3 k2/2)) - cos(dc (k1/2 - sqrt3 k2/2))). After N steps of size dt of any stepper, stable or not, the derivative of the state is the same wave with phase advanced by tau and amplitude A, where A exp(i tau) is the N-th power of the stability polynomial at i omega dt. The discrete wave is never faster than the exact one and slower by at most the fraction dc^2 |k|^2/16, in every direction; omega <= sqrt(6 g H)/dc. For RK4 with omega dt <= 2 sqrt 2 the amplitude does not grow and the wave is within N (omega dt)^5/60 of the one travelling with frequency omega.", "quantifier": "all meshes with at least two columns and an even number of rows, all wave vectors that fit, all thicknesses, gravities, layers, steppers, step sizes, numbers of steps, families of states with that derivative, schedules", "why_tests_cant": "a test measures the speed of one wave on one mesh up to its tolerance; shape, phase and amplitude of every wave in every direction after every number of steps are statements about all of them", "anchors": ["src/model/shallow_water_model.cpp", "src/time_integration/rk4.cpp", "src/time_integration/lsrk.cpp"]}
{"id": "C99", "title": "The discrete vorticity equation; irrotational flow stays irrotational", "statement": "On a mesh with an even number of rows, the circulation around any triangle of the velocity tendency that compute_tendency stores is the circulation of the potential vorticity flux plus viscosity times the vertex Laplacian of the vorticity minus hyperviscosity times its square: pressure, kinetic energy and the divergence part of both viscosities do not enter, for every state and every combination of terms. Without rotation of the frame, a layer with zero circulation around every triangle has zero circulation around every triangle after any run of either stepper, whatever the thickness does and with any viscosity and hyperviscosity, if vertex thickness does not vanish when the run calls compute_tendency.", "quantifier": "all meshes with at least two columns and an even number of rows, all states, parameters, layers, vertices, steppers, schedules", "why_tests_cant": "a test sees the vorticity of sampled states up to a tolerance; that nothing but the flux and diffusion of vorticity ever creates circulation is about all states and all runs", "anchors": ["src/model/tendency_terms/pv_flux_edge.hpp", "src/model/auxiliary_vars/vorticity_aux.hpp", "src/model/shallow_water_model.cpp:compute_vn_tendency"]}
{"id": "C100", "title": "Flow along the rows: no spurious cross flow, and exact steady states", "statement": "On a mesh with an even number of rows and without viscosity, take a layer that is the same in all columns and has no flow across the rows (thickness a function of the row, normal velocity U(row) on the edges across the row, A(row) and -A(row) on the two kinds of slanted edges). Then the stored thickness tendency is zero, the velocity tendency along the rows is zero, and on the two kinds of slanted edges it is the same number for each row. If the computed tendency is zero on one kind of slanted edges, then any number of steps of either stepper with any step sizes leaves thickness and velocity exactly unchanged, and every tracer that is a function of the row. Such steady flows with shear, not near rest, exist.", "quantifier": "all meshes with at least two columns and an even number of rows, all profiles of thickness (positive) and velocity, all rotation rates, gravities, layers, steppers, schedules", "why_tests_cant": "a test would compare one jet with a tolerance; the exact cancellation and the exact stationarity are for all profiles and any number of steps", "anchors": ["src/model/shallow_water_model.cpp:compute_tendency", "src/model/tendency_terms/", "src/model/auxiliary_vars/"]}
{"id": "C101", "title": "A fluid at rest stays at rest exactly in floating-point arithmetic", "statement": "In binary floating-point arithmetic, with or without contraction to fused multiply-add, in the default and in the explicit-SIMD build: from a state without flow whose layers have uniform thickness, every thickness and velocity after any number of steps of any stepper is bit for bit the initial one, unless it overflowed. The same holds of every tracer if tracers do not diffuse, and of uniform tracers with diffusion if the stored concentration is rounded. For every mesh, parameters and time there is a step size and a precision for which nothing overflows, so that the state is exactly unchanged.", "quantifier": "all valid meshes, thicknesses, tracers, parameters, combinations of terms, steppers, schedules, and all arithmetics in which products with zero and differences of equal machine numbers are zero and non-finite numbers stay non-finite", "why_tests_cant": "a test in double precision shows one mesh and one state for a limited number of steps", "anchors": ["src/model/shallow_water_model.cpp:compute_tendency", "src/time_integration/lsrk.cpp", "src/time_integration/rk4.cpp"]}
{"id": "C102", "title": "Units that are powers of two change no digit of a floating-point run", "statement": "Two runs of the default or of the explicit-SIMD build in binary floating-point arithmetic, with or without contraction to fused multiply-add, from the same state expressed in units of length, time, layer thickness and tracer content that differ by powers of two, with every parameter and step converted: thickness, velocity and tracers after any number of steps of any stepper are the same numbers in the other units bit for bit, wherever the runs with traps for overflow and underflow have a result. A run with traps has the results of the run without wherever it did not trap. With traps the statement about units also holds for any arithmetic and group of factors that commute with its operations.", "quantifier": "all valid meshes, cell distances, parameters, states, steppers, schedules, precisions, and all integer exponents for length, time, thickness and each tracer", "why_tests_cant": "equality of all digits in one pair of units says nothing about other exponents, states or step counts, and a stray dimensional constant can hide below rounding", "anchors": ["src/model/shallow_water_model.cpp", "src/model/shallow_water_params.hpp", "src/mesh/planar_hexagonal_mesh.cpp", "src/time_integration/rk4.cpp", "src/time_integration/lsrk.cpp"]}
{"id": "C103", "title": "Time reversal and tracer signs are exact in floating-point arithmetic", "statement": "In binary floating-point arithmetic with or without contraction, in the default and the explicit-SIMD build: without viscosity and diffusion, a run with reversed velocity, opposite rotation and steps -dt has after any number of steps of any stepper bit for bit the thickness and tracers of the forward run and the opposite velocity, overflow and underflow included. With any parameters, opposite initial values of any of the tracers give bit for bit the same flow and the opposite values of these tracers.", "quantifier": "all valid meshes, cell distances, parameters (inviscid for the reversal), states, steppers, schedules, precisions, sets of tracers", "why_tests_cant": "a test reverses one flow; an operation that breaks the symmetry of rounding shows only in some digits of some states", "anchors": ["src/model/shallow_water_model.cpp", "src/time_integration/rk4.cpp", "src/time_integration/lsrk.cpp", "src/model/tendency_terms"]}
{"id": "C104", "title": "Small disturbances of rest keep their potential vorticity at every vertex", "statement": "On a mesh with an even number of rows: the tendencies that the linear model's compute_tendency stores have no linearised potential vorticity, i.e. H times the circulation of the velocity tendency per unit area equals f times the vertex value of the thickness tendency, at each vertex, for every state. For the nonlinear model without viscosity: the first-order response of a run to a small disturbance of a layer at rest with thickness H has at each vertex exactly the linearised potential vorticity of the disturbance, after any number of steps of any size of any stepper, stable or not.", "quantifier": "all meshes with nx >= 2 and even ny, cell distances, rotation rates, gravity, states and disturbances, vertices, layers, steppers, schedules", "why_tests_cant": "a run shows a drift only for the flow and the time it covers, and rounding hides a slow one; the statement is for every vertex separately and every disturbance", "anchors": ["benchmark/benchmark.cpp", "src/mesh/planar_hexagonal_mesh.cpp", "src/model/shallow_water_model.cpp", "src/model/tendency_terms/pv_flux_edge.hpp", "src/model/tendency_terms/ssh_grad_edge.hpp", "src/shallow_water_hierarchical.cpp", "src/time_integration/lsrk.cpp", "src/time_integration/rk4.cpp", "test/double_vortex.cpp", "test/nonlinear_swe_convergence.cpp"]}
{"id": "C105", "title": "Inertia-gravity waves travel with an exactly known frequency", "statement": "On a mesh with an even number of rows and with any Coriolis parameter f, a small plane wave on a layer at rest with thickness H, with the velocity along and across the gradient that belongs to it, keeps its shape in a run without viscosity: after N steps of size dt its amplitude and phase are those of the N-th power of the stepper's stability polynomial at i omega dt, with omega^2 = f^2 sigma(k) + g H lambda(k) and explicit sigma and lambda. The factor sigma lies between max(0, 1 - 5/24 dc^2 |k|^2) and 1, so discrete waves are never faster than the exact ones with omega^2 = f^2 + g H |k|^2, and omega^2 is smaller by at most the fraction 5/24 dc^2 |k|^2.", "quantifier": "all meshes with nx >= 2 and even ny, cell distances, rotation rates, gravity > 0, H > 0, wave vectors that fit the periods, signs of omega, phases, layers, steppers, numbers and sizes of steps", "why_tests_cant": "a convergence test with one wave checks one point of the dispersion relation to the accuracy of the run; the averaging in the Coriolis term and the reconstruction weights enter only through sigma", "anchors": ["benchmark/benchmark.cpp", "src/mesh/planar_hexagonal_mesh.cpp", "src/model/shallow_water_model.cpp", "src/model/tendency_terms/pv_flux_edge.hpp", "src/model/tendency_terms/ssh_grad_edge.hpp", "src/shallow_water_hierarchical.cpp", "src/time_integration/lsrk.cpp", "src/time_integration/rk4.cpp", "test/double_vortex.cpp", "test/nonlinear_swe_convergence.cpp"]}
{"id": "C106", "title": "Viscosity and hyperviscosity keep small disturbances of rest stable", "statement": "With any viscosity and hyperviscosity and any rotation, the response of a layer at rest to a small disturbance does not grow in a run with the classical stepper: from rest the run stays at rest, the results are differentiable in the disturbance, and the energy of the derivative after any even number of steps is at most the energy at the start (and at most 1.0001 times it after an odd number), as long as dt times the sum of sqrt(6 g H)/dc (8 instead of 6 for an odd number of rows), 2/sqrt(3) |f|, 32 nu/dc^2 and 1024 kappa/dc^4 is at most 3/10.", "quantifier": "all meshes with nx, ny >= 2, cell distances, rotation rates, gravity >= 0, H > 0, viscosities, disturbances, layers, numbers of steps, step sizes under the condition", "why_tests_cant": "a viscous run that stays bounded on one mesh does not give a step size that is safe for every mesh, every mode and any number of steps", "anchors": ["benchmark/benchmark.cpp", "src/model/shallow_water_model.cpp", "src/model/tendency_terms/pv_flux_edge.hpp", "src/model/tendency_terms/ssh_grad_edge.hpp", "src/model/tendency_terms/vel_diff_edge.hpp", "src/model/tendency_terms/vel_hyperdiff_edge.hpp", "src/time_integration/lsrk.cpp", "src/time_integration/rk4.cpp", "test/double_vortex.cpp", "test/nonlinear_swe_convergence.cpp"]}
{"id": "C107", "title": "Geostrophic adjustment: balanced disturbances stay, and their share never changes", "statement": "On a mesh with an even number of rows and without viscosity, a small disturbance of rest in geostrophic balance (velocity of a stream function on the vertices, thickness that balances it) is stationary to first order in any run: the derivative of the final state with respect to the disturbance is the disturbance. For any other disturbance the energy product of the derivative with every balanced disturbance is the same before and after the run. Both hold for every stepper and every list of step sizes, stable or not.", "quantifier": "all meshes with nx >= 2 and even ny, cell distances, rotation rates, gravity > 0, H > 0, stream functions, disturbances, layers, steppers, lists of steps", "why_tests_cant": "one geostrophic test state does not show that the null space of the linearised tendency contains a state for every stream function, nor that no disturbance whatever can feed it", "anchors": ["benchmark/benchmark.cpp", "src/mesh/planar_hexagonal_mesh.cpp", "src/model/shallow_water_model.cpp", "src/model/tendency_terms/pv_flux_edge.hpp", "src/model/tendency_terms/ssh_grad_edge.hpp", "src/shallow_water_hierarchical.cpp", "src/time_integration/lsrk.cpp", "src/time_integration/rk4.cpp", "test/double_vortex.cpp", "test/nonlinear_swe_convergence.cpp"]}
{"id": "C108", "title": "A periodic state runs on a larger domain as copies of the run on one period", "statement": "If the numbers of columns and rows of one mesh are multiples of those of another with the same cell distance, layers and tracers, and the initial state on the larger mesh is that of the smaller one repeated, then after any steps of any stepper the state on the larger mesh is that of the smaller one repeated, bit for bit in any arithmetic, in the default and in the explicit-SIMD build. The smaller mesh has at least two columns and two rows and an even number of rows (or all the rows of the larger one).", "quantifier": "all pairs of meshes with nx | nx' and ny | ny', cell distances, parameters, states, arithmetics, steppers, schedules of steps, executions", "why_tests_cant": "compares runs on meshes of different size with different edge and vertex numbering, seams and scheduling; a test compares two sizes up to a tolerance", "anchors": ["src/mesh/planar_hexagonal_mesh.cpp:cell_on_cell", "src/model/shallow_water_model.cpp:compute_tendency"]}
{"id": "C109", "title": "The final state depends smoothly on the initial state", "statement": "If the thickness is positive in every state a run evaluates the tendency for, then the run has a tangent-linear model: one linear map takes the derivative of any differentiable family of initial states through this one to the derivative of the results. In particular there are a radius and a factor such that any two runs from initial states within the radius end no further apart than the factor times the distance of their initial states, in every prognostic entry and whichever kernels (fused or split) each of them uses.", "quantifier": "all valid meshes, cell distances > 0, parameters with both tendencies enabled, initial states, steppers, lists of steps; all nearby pairs of initial states and families", "why_tests_cant": "finitely many perturbed runs show neither a bound for all perturbations nor that no branch, minimum or clamp in the kernels makes the result jump", "anchors": ["src/model/shallow_water_model.cpp", "src/time_integration/lsrk.cpp", "src/time_integration/rk4.cpp"]}
{"id": "C110", "title": "Diffusion changes only the amplitude of each tracer wave, by a known factor, and blows up beyond the step limits", "statement": "With frozen thickness (uniform) and velocity (at rest), a plane wave of tracer on a uniform background keeps its phase and background in any run; each step multiplies its amplitude by the stability polynomial of the stepper at -dt*(k2*L + k4*L^2), L being the symbol of the discrete Laplacian. The shortest wave, of symbol 6/dc^2, exists when nx is a multiple of three and ny even; if dt times its damping exceeds 2 (forward Euler), 2.79 (RK4) or 4.66 (LSRK5), any ripple of it exceeds any bound in every cell after enough steps. So the sufficient limits 2, 2.75 and 4.5 of C62/C63 cannot be raised beyond these.", "quantifier": "all meshes with even ny (and nx a multiple of three for the shortest wave), spacings, diffusivities >= 0, fitting wave numbers, phases, amplitudes, backgrounds, tracers, layers, lists of steps, bounds", "why_tests_cant": "the decay test checks one mode on a few meshes; neither the exact factor of every mode nor the certain growth beyond a step size follows from samples", "anchors": ["src/time_integration/lsrk.cpp", "src/time_integration/rk4.cpp", "test/tracer_diffusion_convergence.cpp:30-101", "test/tracer_diffusion_convergence.cpp:47-53", "test/tracer_hyperdiffusion_convergence.cpp:30-101", "test/tracer_hyperdiffusion_convergence.cpp:47-53"]}
{"id": "C111", "title": "Tracer waves in a uniform flow: exact speed and damping, and which steppers amplify them", "statement": "With frozen uniform thickness and frozen uniform flow in any direction, a plane wave of tracer on a uniform background keeps its wave vector and background; each step multiplies its complex amplitude by the stability polynomial of the stepper at dt times an explicit symbol. A wave travelling with the flow never overtakes it and lags by at most the fraction dc^2|k|^2/8. Without diffusion RK4 amplifies no wave while the flow crosses at most 3/sqrt 2 cells per step; forward Euler amplifies every wave that moves, for every step. The shortest wave (rows a multiple of three long) does not move in any flow: every run returns it unchanged.", "quantifier": "all meshes with even ny, spacings, flow vectors, thicknesses, diffusivities >= 0, fitting wave vectors, phases, amplitudes, backgrounds, layers, tracers, steppers, lists of steps", "why_tests_cant": "the advection test transports one wave on a few meshes for one step size; the speed error of every wave, the absence of growth up to a step size and the existence of a wave that never moves are statements about all of them", "anchors": ["src/model/shallow_water_model.cpp", "src/time_integration/lsrk.cpp", "src/time_integration/rk4.cpp", "test/tracer_advection_convergence.cpp:12-110", "test/tracer_diffusion_convergence.cpp:47-53", "test/tracer_hyperdiffusion_convergence.cpp:47-53"]}
{"id": "C112", "title": "Meshes with an odd number of rows have a seam error that does not shrink", "statement": "On a mesh with an odd number of rows (the double vortex test builds one with 29) the gradient of any function of the east coordinate is exactly zero on one edge per column of the seam between last and first row, although the normal of that edge is at sixty degrees to the rows. For one wave along the rows of amplitude a the gradient error there is at least pi |a| / (2 L) at every resolution, L being the length of the domain. For a layer at rest with such a thickness no pressure force acts on these edges, and the velocity tendency has a vorticity of at least 32 g |a| / (sqrt(3) L^2) at some vertex, where it should be zero.", "quantifier": "all meshes with nx >= 2 and odd ny, cell distances, functions of the east coordinate, layers, parameters with the pressure term on", "why_tests_cant": "the convergence tests use even numbers of rows only and the double vortex test checks integrals that the seam does not change; that the error stays away from zero as the mesh is refined is a statement about all meshes", "anchors": ["src/model/auxiliary_vars/vorticity_aux.hpp", "src/model/tendency_terms/ke_grad_edge.hpp", "src/model/tendency_terms/ssh_grad_edge.hpp", "test/double_vortex.cpp:83"]}
{"id": "C113", "title": "Step counts, steps, rows and padded layers as computed in double precision", "statement": "With all divisions and products of the drivers rounded to double precision, the number of steps is the exact one or one less, is at least one and fits into Int. The step is positive, the steps add up to the end time within half a unit in the last place (relative 2^-53), each step is called with its own time within a relative error of 2*2^-53 + 2^-106, and the step exceeds the requested one by a factor of at most (1+2^-53)/(1-2^-53), not at all if the number of steps is exact. It can exceed it: for the doubles T = 5*2^53-32 and dt = 2^53-7 the drivers take five steps, each longer than dt. The padded layer counts of the mesh constructor are exact for every vector length, and the double vortex test builds 29 rows.", "quantifier": "all positive end times and requested steps with at most 2^31-1 steps and no underflow; all layer counts and vector lengths with sum below 2^53; all precisions of at least 53 bits", "why_tests_cant": "whether a rounded quotient falls on the wrong side of an integer depends on the last bits of all inputs; the tests run four or five of them", "anchors": ["test/double_vortex.cpp:98", "test/nonlinear_swe_convergence.cpp:131", "test/tracer_advection_convergence.cpp:50", "test/tracer_diffusion_convergence.cpp:50", "test/tracer_hyperdiffusion_convergence.cpp:50", "src/mesh/planar_hexagonal_mesh.cpp:11", "test/double_vortex.cpp:83"]}
{"id": "C114", "title": "Viscous gravity waves: exact effect of a step, and steps with which viscosity is unstable", "statement": "Without rotation, disturb a layer at rest by a wave (any eigenfunction of the discrete Laplacian, eigenvalue -lam) in the thickness and by a multiple of its gradient in the velocity. To first order the state after any run is again such a disturbance, and its two amplitudes are those the same stepper computes for a' = H lam b, b' = -g a - (visc_del2 lam + visc_del4 lam^2) b. A real root s of the characteristic equation gives a disturbance that keeps its shape and is multiplied by the stability polynomial at dt s in every step. Where viscosity dominates the shortest wave (rows a multiple of three long) and dt times its larger decay rate, between d/2 and d for d = 6 visc_del2/dc^2 + 36 visc_del4/dc^4, exceeds 2 (forward Euler), 2.79 (RK4) or 4.66 (five-stage scheme), the response exceeds any bound in every cell after enough steps.", "quantifier": "all meshes with even ny, spacings, gravities, depths, viscosities of either order and sign, eigenfunctions, amplitudes, layers, steppers, lists of steps", "why_tests_cant": "no test uses viscosity with a free surface near the limit; a run at one step size does not show where the limit is or that every longer step fails", "anchors": ["benchmark/benchmark.cpp", "src/model/shallow_water_model.cpp", "src/model/tendency_terms/pv_flux_edge.hpp", "src/model/tendency_terms/ssh_grad_edge.hpp", "src/model/tendency_terms/vel_diff_edge.hpp", "src/model/tendency_terms/vel_hyperdiff_edge.hpp", "src/time_integration/lsrk.cpp", "src/time_integration/rk4.cpp", "test/double_vortex.cpp", "test/nonlinear_swe_convergence.cpp"]}
{"id": "C115", "title": "The reported energy in rounded arithmetic", "statement": "For a state without negative thickness and gravity not negative, the value energy_integral returns in rounded arithmetic is not negative and differs from the energy of the stored state on exact regular hexagons by at most (1+u)^n - 1 times that energy, n being the largest number of roundings on a path of the reduction (21 plus one per layer and cell of a thread plus one per join). Two evaluations of one state with different division of the work differ by at most 4 n u times the energy.", "quantifier": "all meshes, spacings, states with h >= 0, velocities, gravities >= 0, reduction trees, arithmetics with relative error u <= 1/1000", "why_tests_cant": "the test compares two reported energies with a tolerance; which part of the difference the diagnostic itself adds, over all thread schedules, cannot be seen from a run", "anchors": ["src/common.hpp:omega_parallel_reduce", "src/model/auxiliary_vars/kinetic_aux.hpp", "src/model/shallow_water_diagnostics.cpp", "src/model/shallow_water_diagnostics.cpp:energy_integral"]}
{"id": "C116", "title": "Viscosity can raise the reported energy", "statement": "The Laplacian viscosity is not weighted with the thickness. On every mesh with at least two columns and rows and for every positive visc_del2 (visc_del4 off) there is a wet state such that all RK4 runs to some time with enough steps end with energy_integral above its initial value by a fixed margin. Where every layer has uniform thickness both viscous terms lower the energy: its derivative along the computed tendency is minus the thickness times (visc_del2 (squared divergence + squared vorticity) + visc_del4 squared Laplacian).", "quantifier": "all meshes >= 2x2, spacings > 0, gravities, Coriolis parameters, viscosities > 0; all numbers of steps from some number on", "why_tests_cant": "the energy test runs without viscosity; that a dissipative term can add energy needs a special state and the limit of small steps to exclude the error of the stepper", "anchors": ["src/model/shallow_water_diagnostics.cpp:energy_integral", "src/model/shallow_water_model.cpp:compute_tendency", "src/model/tendency_terms/vel_diff_edge.hpp"]}
{"id": "C117", "title": "Gravity waves on a uniform flow", "statement": "Without rotation and viscosity, with an even number of rows, a layer of uniform thickness H moving with constant velocity (U, W) stays exactly as it is. A small plane gravity wave on it keeps its shape: after N steps its amplitude is scaled by A and its phase advanced by tau, where A exp(i tau) is the N-th power of the stability polynomial of the stepper at i dt (omega + a); omega is the frequency of the wave on a layer at rest (C98) and a the frequency at which the flow carries a tracer with that wave vector (C111). With RK4 no such wave grows if dt (4/3 |(U,W)| + sqrt(6 g H)) <= 2 sqrt(2) dc. So there is no grid-scale instability of gravity waves on a moving layer: the kinetic-energy term moves the velocity potential exactly as the flux term moves the thickness.", "quantifier": "all valid meshes with an even number of rows, spacings, gravities, thicknesses, velocities, wave vectors that fit the domain, steppers, numbers and sizes of steps", "why_tests_cant": "the tests have no moving base state with small waves; a grid-scale instability grows slowly and only for some wave vectors, flow directions and resolutions", "anchors": ["src/model/shallow_water_model.cpp", "src/time_integration/lsrk.cpp", "src/time_integration/rk4.cpp", "test/tracer_advection_convergence.cpp:12-110", "test/tracer_diffusion_convergence.cpp:47-53", "test/tracer_hyperdiffusion_convergence.cpp:47-53"]}
{"id": "C118", "title": "Potential enstrophy is not conserved", "statement": "Potential enstrophy is the thickness times the squared potential vorticity, integrated over the triangles and summed over layers. Without viscosity, with an even number of rows and a wet state, its derivative along the tendencies stored by compute_tendency is exactly the sum over the edges of 2 dc dv times the tangential gradient of the potential vorticity times (potential vorticity flux minus edge potential vorticity times the reconstructed flux). This is not zero in general: for every nonzero rotation there is a wet state from which every RK4 run up to some time, with enough steps, ends with a potential enstrophy above that of the start by a margin that does not depend on the step. The inviscid model keeps the energy to the order of the stepper (C81) but not the enstrophy.", "quantifier": "all valid meshes with an even number of rows (for the growth: at least three columns), spacings, gravities, nonzero Coriolis parameters, schedules", "why_tests_cant": "the tests check energy and mass only; that the enstrophy error does not vanish as the step shrinks is a statement about all step sizes", "anchors": ["src/model/auxiliary_vars/vorticity_aux.hpp", "src/model/shallow_water_diagnostics.cpp", "src/model/shallow_water_model.cpp", "src/model/shallow_water_model.cpp:compute_vn_tendency", "src/model/tendency_terms/pv_flux_edge.hpp", "src/time_integration/lsrk.cpp", "src/time_integration/rk4.cpp"]}
{"id": "C119", "title": "No spurious modes", "statement": "With an even number of rows: (1) two states whose velocities have the same divergence in every cell, the same vorticity at every vertex and the same mean have the same velocity at every edge. (2) Laplacian viscosity, and separately hyperviscosity, leaves the stored velocity tendency unchanged in a layer if and only if the flow in it is uniform, and does no work if and only if it is uniform. (3) The velocity tendency of a layer at rest is zero if and only if its thickness is the same in all cells. (4) Tracer diffusion leaves the stored tracer tendency of a wet layer unchanged if and only if the concentration is the same in all cells. So no grid-scale pattern escapes the pressure gradient, viscosity or diffusion.", "quantifier": "all valid meshes with an even number of rows, all spacings, parameters, layers and states", "why_tests_cant": "an invisible pattern would be one among a space of all grid patterns on a mesh of any size; a test samples smooth fields only", "anchors": ["src/model/shallow_water_model.cpp:compute_tendency", "src/model/tendency_terms/tracer_diff_cell.hpp", "src/model/tendency_terms/vel_diff_edge.hpp", "src/model/tendency_terms/vel_hyperdiff_edge.hpp", "src/time_integration/lsrk.cpp", "src/time_integration/rk4.cpp"]}
{"id": "C120", "title": "Diffusion mixes completely", "statement": "With the flow prescribed and at rest, thickness between hlo > 0 and hhi, diffusion on and hyperdiffusion off, and an even number of rows: steps of one size strictly within the limit of the stepper (6 κ dt hhi < limit hlo dc²) shrink the variance of the concentration about its mean by a fixed factor less than one at every step, the same factor for all tracers and all numbers of steps. So for every tolerance there is a number of steps after which the concentration in every cell is within the tolerance of the uniform concentration with the same content.", "quantifier": "all valid meshes with an even number of rows, all steppers, thicknesses, tracers, step sizes within the limit, numbers of steps and tolerances", "why_tests_cant": "the limit of infinitely many steps is not a test, and a pattern that never decays would have to be among the sampled fields to be noticed", "anchors": ["src/time_integration/lsrk.cpp", "src/time_integration/rk4.cpp", "test/tracer_diffusion_convergence.cpp:47-53", "test/tracer_hyperdiffusion_convergence.cpp:47-53"]}
{"id": "C121", "title": "What can change the mean velocity", "statement": "The velocity integrated over the domain (every edge with area dc dv and the direction of its normal; for a uniform flow this is the velocity times the area) is changed by the vorticity flux only: the gradients of pressure and kinetic energy, viscosity and hyperviscosity contribute exactly nothing to the stored tendency. In the linear model its tendency is the Coriolis acceleration of the mean velocity itself. Without rotation an irrotational layer keeps it through any run. The mean velocity of a small disturbance of rest performs an inertial oscillation, multiplied at every step by the stability polynomial of the stepper at -i f dt, whatever waves the disturbance contains and whatever the viscosities.", "quantifier": "all valid meshes, states, viscosities, steppers and schedules (even number of rows for the irrotational run)", "why_tests_cant": "a momentum source hidden in a gradient or in a viscous term cancels for the sampled states only by accident; the statement is about all states", "anchors": ["src/model/tendency_terms/pv_flux_edge.hpp", "src/model/auxiliary_vars/vorticity_aux.hpp", "src/model/shallow_water_model.cpp:compute_vn_tendency"]}
{"id": "C122", "title": "Vorticity in the explicit-SIMD build", "statement": "In the OMEGA_KOKKOS_SIMD build the hyperviscosity adds to the vorticity tendency of every layer of a vector the same field, minus visc_del4 times the second Laplacian of the vorticity of the first layer of the vector. So it has no effect on the differences of vorticity between layers of a vector, however rough they are, and a layer at rest with uniform thickness is set in motion by the first layer of its vector. What holds as in the default build: the mean velocity changes by the same amount, and without rotation a state that is irrotational in all layers stays so in any run.", "quantifier": "all valid meshes with an even number of rows (any number for the mean velocity), states, coefficients, layers, steppers and schedules; the state at rest exists for every such mesh and every non-zero coefficient", "why_tests_cant": "tests with one layer per vector, or with equal layers, cannot see the effect; with several layers the run just looks rough", "anchors": ["src/model/auxiliary_vars/kinetic_aux.hpp", "src/model/auxiliary_vars/thickness_aux.hpp", "src/model/auxiliary_vars/tracer_aux.hpp", "src/model/auxiliary_vars/vorticity_aux.hpp", "src/model/tendency_terms/ke_grad_edge.hpp", "src/model/tendency_terms/pv_flux_edge.hpp", "src/model/tendency_terms/ssh_grad_edge.hpp", "src/model/tendency_terms/thickness_hadv_cell.hpp", "src/model/tendency_terms/tracer_diff_cell.hpp", "src/model/tendency_terms/tracer_hadv_cell.hpp", "src/model/tendency_terms/tracer_hyperdiff_cell.hpp", "src/model/tendency_terms/vel_diff_edge.hpp", "src/model/tendency_terms/vel_hyperdiff_edge.hpp", "src/model/tendency_terms/vel_hyperdiff_edge.hpp:compute_vel_del2_rvort"]}
{"id": "C123", "title": "Tracer bounds with the fourth-order steppers, and hyperdiffusion", "statement": "In a prescribed flow without divergence of mass (thickness and velocity equations disabled, as in the tracer tests) with |v| dc <= 2 eddy_diff2 on every edge and tracer hyperdiffusion off, concentrations that lie between two bounds stay between them in any run of any stepper, if 4 dt hhi (eddy_diff2 + V dc/2) <= r hlo dc^2 for every step, where r is 1 for RK4 and the one-stage stepper and 3/2 for the five-stage stepper. Tracer hyperdiffusion never keeps such bounds, however strong the diffusion beside it: in a fluid at rest of uniform thickness a tracer with concentration one in one cell and zero elsewhere is negative two cells away after one step, for every sufficiently short step of every supported stepper and for every step of the one-stage stepper.", "quantifier": "all meshes with nx, ny >= 2 (hyperdiffusion: nx >= 4, ny even), parameters, thicknesses, flows, tracers, layers, steppers, numbers and sizes of steps", "why_tests_cant": "whether a negative concentration shows up depends on the tracer and on the size of the step; the tests of the repository use smooth tracers and measure an error norm only", "anchors": ["src/model/tendency_terms/tracer_hadv_cell.hpp", "src/model/tendency_terms/tracer_diff_cell.hpp", "src/time_integration/lsrk.cpp", "src/time_integration/rk4.cpp"]}
{"id": "C124", "title": "Nonlinear stability of rest, for all times", "statement": "Without viscosity, the energy of the disturbance of a state of rest (potential energy of h - H_k plus kinetic energy; for one H the combination energy_integral - g H mass_integral + constant) is constant along every wet solution of the discrete equations in continuous time, with rotation, and it bounds the departure of every thickness from H_k and every normal velocity. If at the start it is below g A H_k^2 / 8, the solution exists up to every time, with all tracers, and no cell ever dries out: every thickness stays between H_k/2 and 3 H_k/2. A run of a fourth-order stepper up to any time stays within the same bounds up to K (dt^4 + defect).", "quantifier": "all meshes with nx, ny >= 2, gravities > 0, rotations, tracer diffusions, wet initial states with small disturbance energy, final times, fourth-order steppers, step sizes up to a bound that depends on the final time, builds fused or split", "why_tests_cant": "a test runs for a finite time from one state; that the model cannot drain a cell at any later time from any state near rest is a statement about all of them", "anchors": ["src/model/shallow_water_model.cpp", "src/time_integration/rk4.cpp", "src/time_integration/lsrk.cpp", "src/model/shallow_water_diagnostics.cpp"]}
{"id": "C125", "title": "What the errors reported by the convergence tests measure", "statement": "The nonlinear convergence test and the tracer convergence tests report exactly one number v >= 0 with nx ny v^2 = the sum over all cells and layers of the squared difference between the reference at the final time and the final state. So v is zero only for an exact result, every single error is at most sqrt(nx ny) v, a bound e for all errors gives v <= sqrt(nlayers) e, and an error of size e everywhere is reported as sqrt(nlayers) e whatever the number of columns: the number does not change with refinement but grows with the number of layers.", "quantifier": "all meshes, reference fields, forcings, parameters, steppers, numbers and sizes of steps, initial memory contents, builds fused or split", "why_tests_cant": "the tests only compare two such numbers; that the number is a norm of the error, with these factors, holds for all results and not for those of one run", "anchors": ["test/nonlinear_swe_convergence.cpp:run", "test/tracer_advection_convergence.cpp:run"]}
{"id": "C126", "title": "Number of layers, padding, vector length and number of tracers do not change a layer", "statement": "Take two models on meshes with the same columns but any numbers of layers, vector lengths (hence padding) and numbers of tracers. If every layer and every tracer of the second initial state is a layer and a tracer of the first, in any order and with any repetitions, the same correspondence holds bit for bit after any run of any stepper. In the nonlinear convergence test every layer therefore ends with the same thickness and velocity, whatever the number of layers and the vector length, while the reported error divided by the root of the padded number of layers is the same for all: the reported error itself does depend on them.", "quantifier": "all arithmetics (including floating point), meshes, layer counts, vector lengths, tracer counts, maps between layers and tracers, parameters, states, steppers, schedules of steps, builds fused or split", "why_tests_cant": "a test runs one layer count with the vector length it was compiled with; comparing builds of different vector length for all states is a statement about pairs of programs", "anchors": ["src/mesh/planar_hexagonal_mesh.cpp:compute_mesh_arrays", "src/model/shallow_water_model.cpp:compute_tendency", "src/time_integration/rk4.cpp:do_step", "src/time_integration/lsrk.cpp:do_step", "test/nonlinear_swe_convergence.cpp:run"]}
{"id": "C127", "title": "Prescribed flow with diffusion only mixes: entropies, order and distance of tracers", "statement": "In a prescribed flow without divergence of mass, with cell Peclet number at most two and the step limits of C123: for every convex function phi, the sum over the cells of area times thickness times phi(concentration) does not increase in any run of any stepper - variance, entropy and every other measure of inhomogeneity - for each tracer and for every combination a T + b T' of two tracers. Tracers that are ordered in every cell stay ordered, and the sum over the cells of area times |T - T'| never increases, so errors of the initial tracer are never amplified. With thickness and velocity evolving too, one-stage steps within the limits of C92 that leave the layer wet have the first of these properties.", "quantifier": "all meshes with at least two rows and columns, prescribed flows, thicknesses, diffusivities within the Peclet limit, tracers, coefficients, convex functions continuous on the range of the data, steppers, schedules within the step limit", "why_tests_cant": "infinitely many convex functions, flows and tracer fields", "anchors": ["src/model/tendency_terms/tracer_hadv_cell.hpp", "src/model/tendency_terms/tracer_diff_cell.hpp", "src/time_integration/rk4.cpp:do_step", "src/time_integration/lsrk.cpp:do_step"]}
{"id": "C128", "title": "Prescribed flow with diffusion mixes every tracer completely", "statement": "In a prescribed flow without divergence of mass, with cell Peclet number below two and equal steps strictly within the limit of C123, on a mesh with an even number of rows, there are a number of steps N and a fraction theta > 0, independent of the tracer and of the length of the run, such that after n steps every concentration differs from the uniform concentration with the same content by at most (1 - theta)^(n / N) times the initial range of the concentration. Hence after enough steps the concentration is as close to uniform as desired, for RK4 and the one- and five-stage low-storage steppers.", "quantifier": "all meshes with at least two columns and an even number of rows, prescribed flows, thicknesses, diffusivities with Peclet number below two, tracers, numbers of steps, RK4 and the implemented low-storage steppers", "why_tests_cant": "a statement about runs of unlimited length, for all flows and tracer fields", "anchors": ["src/model/tendency_terms/tracer_hadv_cell.hpp", "src/model/tendency_terms/tracer_diff_cell.hpp", "src/time_integration/rk4.cpp:do_step", "src/time_integration/lsrk.cpp:do_step"]}
{"id": "C129", "title": "With prescribed velocity the explicit-SIMD build agrees with the default build and mixes tracers as it does", "statement": "When the velocity is prescribed (disable_vn), the explicit-SIMD build and the default build, started in the same memory, end in the same thickness, velocity and tracers in every layer after any run, whatever terms are switched on, hyperviscosity included, although in general they differ then (C28). In particular, under the hypotheses of C127 and C128 the explicit-SIMD build does not increase the content of any convex function of the concentrations, and mixes every tracer completely at the rate of C128.", "quantifier": "all meshes, memories, parameters with prescribed velocity, numbers of layers and vector lengths, steppers, schedules, tracers", "why_tests_cant": "agreement of two builds for all inputs and runs of any length; the builds are never compiled together", "anchors": ["src/model/tendency_terms/tracer_hadv_cell.hpp", "src/model/tendency_terms/tracer_diff_cell.hpp", "src/time_integration/rk4.cpp:do_step", "src/time_integration/lsrk.cpp:do_step"]}
