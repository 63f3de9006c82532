# Formal model of omega_playground: design

`/repo` is a C++/Kokkos shallow-water model on a periodic planar hexagonal
C-grid (MPAS) mesh. This directory models it in Lean 4 (with Mathlib) and proves
the properties listed in `properties.jsonl`.

## 1. How the code is modelled

**Numbers.** `Real` (C++ `double`) is an arbitrary type `R` with the operations of
the class `Scalar` (add, sub, mul, div, neg, integer literals, sqrt, sin, cos,
pi, `<`) and *no laws*. A theorem stated for every `Scalar R` therefore holds for
IEEE doubles bit for bit (determinism, race freedom, layer independence, tracer
passivity, fused/split equivalence, replace semantics). Theorems that need
algebra are stated for `R = ℝ` (exact arithmetic) and say so.
`Int` (C++ 32-bit `int`) is Lean's `Int`; each arithmetic operation on it in
device code is checked against the 32-bit range, and leaving it is the distinct
outcome *undefined behaviour*.

**Memory.** A `Mem R` maps every array of the code (one constructor of `IArr` or
`RArr` per `Kokkos::View`) and index tuple to a value. Every array has the
extents its constructor gives it (`Dims`). Access outside the extents is
undefined behaviour.

**Device code.** Each kernel body is a program in the free monad `Prog R α`, with
nodes for int/real reads, int/real writes and undefined behaviour. Kernel bodies
follow the C++ line by line, including loop structure, local arrays,
and the order of floating-point operations.

**parallel_for.** `Cmd.par n0 n1 n2 body` launches one thread per index. The
semantics is small-step interleaving of single array accesses, in any order
(`ParStep`). A *fault* is a reachable configuration where a thread's next action
is undefined behaviour or out of bounds. A *race* is a reachable configuration
where two threads' next actions touch the same location and one is a write.
`Cmd.Runs c m m'` says: no reachable fault, no reachable race, every
complete interleaving ends in `m'`, and one exists. Host code is a list of
commands; the Kokkos in-order execution-space guarantee is the sequencing.
`deep_copy` is a `parallel_for` over the whole extent.

**Proof method for kernels.** A checking interpreter `run` executes a thread alone
under a permission map (own writes / read-only elsewhere). `Cmd.runs_of_solo`
(`Kokkos/Par.lean`): if the threads' write sets are disjoint and every
thread succeeds alone under its permissions, then the launch `Runs` to the
memory assembled from the solo results. `Kokkos/Launch.lean` (`Cmd.runs_patch`,
`Cmd.runs_pinv`) and `Kokkos/Rows.lean` (`Cmd.runs_op`, `eff`, `Only`) turn this into rules for launches
over rows and layers. Each kernel is then shown equal to a
closed-form functional description, one value per (element, layer).

**Division by zero.** In theorems over ℝ, Lean's `x / 0 = 0` could make a statement true
for the wrong reason. C52 therefore runs the same programs over `Option ℝ` with an absorbing
undefined value (`x / 0 = none`) and shows that with wet layers nothing undefined is
produced, so the values over ℝ are the values of the real quotients.

**Hooks.** A user forcing is a list of commands appended to a tendency
(`SWModel.hook`). Theorems assume `NoHook`, or a hook of the form used by the convergence test
(`SWModel.forced`), or an abstract condition (`HookOK`).

**parallel_reduce.** Any binary tree of chunks, each chunk any list of
iterations, whose concatenation is a permutation of the index range; each leaf
accumulates sequentially from 0, each node adds.

**Layers of the development**

| directory | content |
|---|---|
| `Verif/Lib` | scalars, int32, loops, finite sums over index ranges, Taylor estimates, rounded arithmetic |
| `Verif/Kokkos` | arrays, memory, `Prog`, interleaving semantics, race-freedom theorem |
| `Verif/Model` | the code: `Mesh`, `Kernels`, `KernelsSimd`, `ShallowWater` (model, steppers), `Drivers`, `Diagnostics` (with the semantics of reductions), `TestCases`, `Hierarchical`, `TestPrograms` (the `run` functions of the tests and the benchmark) (each definition cites file:lines) |
| `Verif/Spec` | independent specifications: `Hex` (periodic hexagonal lattice), `Ops` (operators of the TRiSK scheme as sums) |
| `Verif/Refine` | each launched program `Runs` to its functional description (`Mesh*`, `KernelOps`, `SimdOps`, `Tendency`, `Steppers`, `Diagnostics`, `Hierarchical`); preserved relations between two systems (`Rel`, `Guarded`, `Invariant`); summation on the lattice (`Hex*`); `Ready`: the memories after construction of mesh and model |
| `Verif/Props` | the property theorems, one file per group, with `example`s meeting the hypotheses |

## 2. Properties: what is modelled, how proved

* C01 padding: constructor arithmetic over ℕ/ℚ; division lemma.
* C02, C03 mesh construction: programs of `compute_mesh_arrays`/`finalize_mesh`; DRF with ownership derived from the lattice bijections; closed-form tables.
* C04–C08, C11 topology: from the closed forms, by case analysis on rows/columns and parity.
* C05, C06, C12 negative parts: explicit witness cell/edge/field for every bad size.
* C09, C10 geometry: closed forms of the real tables over ℝ.
* C12–C16 discrete calculus: sums over cells reindexed by lattice bijections.
* C17, C18 conservation: telescoping of signs (C05) lifted through the kernels and steppers by induction on stages and steps.
* C19 uniform concentration: stage invariant.
* C20 energy: directional derivative of the energy functional; uses C13 and C15.
* C21 circulation: C11 and reindexing.
* C22 rest state: stage invariant.
* C23 uniform PV: C12 and C16.
* C24–C27 dissipation: C13 and the curl adjoint.
* C28 SIMD build: second set of kernels; functional descriptions equal over ℝ; negation by witness for the faulty kernel.
* C29 split build: second set of command lists; same functional description for every `Scalar`.
* C30–C33: functional descriptions.
* C34–C38 steppers: functional stage recursion; independent spec of Butcher tableaux.
* C39 translation: lattice shift automorphism of the mesh tables.
* C40, C44: `Runs` theorems and frame conditions.
* C41: reduction trees over ℝ (commutative addition).
* C42, C43 diagnostics: functional description of the reductions.
* C45, C46 single-file implementation: programs of its launches, with the same interleaving semantics; not compiled by the project.
* C47, C48 analytic fields of the tests: real analysis (derivatives).
* C49 drivers: real arithmetic with ceil.
* C50, C55–C57 accuracy of the operators: Taylor estimates composed with C10.
* C51 tendency formula: the functional description equals the operators of `Spec/Ops`.
* C52 undefined values: see above.
* C53, C54 explicit-SIMD build: second set of kernels with lane-wise loads and stores.
* C58, C59 configuration and reference solutions of the tests.
* C60 balanced states: C15 and its cell-mean adjoint.
* C61, C62 explicit diffusion: with thickness and velocity prescribed a run is a polynomial (of the stepper) in the linear tracer operator (`Props/Frozen`); C61 writes it as a convex combination, C62 uses the spectral theorem with the bound 6/dc² of the discrete Laplacian.
* C63, C64 tracer tests: the test programs are run symbolically (`Refine/TestPrograms`), the initial wave is an eigenvector of the discrete Laplacian, and the rates follow from numeric bounds on π, exp and cos (`Lib/Numeric`).
* C65, C66 whole programs: `Refine/TestPrograms`, C39's relation with the identity symmetry, C17, C18, C21.
* C67, C68 operator test: the launches are run symbolically (`Refine/OperatorTest`), the max-reduction returns the greatest element for every tree of partial reductions; the errors of the trigonometric fields have closed forms on square meshes and the rates follow from sine and cosine bounds (`Lib/Trig`).
* C69, C70 velocity diffusion: the closed forms of C68 at one edge; C13 and the accuracy of divergence and curl (C55, C56).
* C71 consistency of the tendency: C51 writes the tendency as a formula in the sampled values; `Lib/Jets` expands it about the cell centre or edge midpoint, and the symmetry of the hexagon removes the first-order error. `rhsH`, `rhsU`, `rhsW`, `rhsS` are the differential equations, written with `fderiv`. Since index ranges allow only finitely many meshes of one domain, a constant per domain would say nothing: the constant is uniform over all periods and over all fields with given bounds (`Bounded`), with families (`Jets.Fam`, `MeshOf`) in the proofs.
* C72 manufactured solution: C47 (forcing = residual) and C38 (forcing added once) on top of C71; derivative bounds of plane waves are uniform in time.
* C73 convergence of tracer advection: `Lib/Lax` (abstract stability plus consistency, for an almost skew operator and a fourth-order stepper), `AdvectionOp` (the tracer operator in the thickness-weighted norm), `SpaceTime` (solutions of the advection equation and their time derivatives). The constant is uniform over a class of flows; for one domain and one flow it would be vacuous, because the `int` range leaves only finitely many meshes.
* C74 the same for the whole test program, reduction included (`AdvectionTest`); the observed rate of the test, a lower bound on the error, is not proved for advection.
* C75 systems that differ in unused parameters have the same tendencies; the rest is C65 (`TracerInputs`).
* C76 standard model of rounding (`Lib/Rounding`): each term of a cell sum is a product up to `(1+u)^n`, the products cancel over the mesh by C05, the rest is estimated through five stages (`Rounding`). `Fl` (53 bits, unbounded exponent) is an instance.
* C94 the same for the classical stepper (`RoundedRk4`). Its bounds are asked of the states for which `compute_tendency`
  is called; `Refine/Calls` shows that these are exactly the evaluation states of the functional run.
* C77 sums in any order as trees of rounded additions; the circulation telescopes as in C21 (`RoundedMass`).
* C78 the derivative of a run at rest is a product of stability polynomials in the linear operator (`Tangent`), which is skew in the energy norm (mimetic identities C05, C12); its norm is estimated edge by edge, then `Lib/Lax` as in C73 (`RestStability`). `TestSteps`: the steps of the test programs meet the condition.
* C79 a field with three colours is an eigenvector on the nose; polynomials in a skew operator act on it as on the imaginary axis (`RestCourant`).
* C98 plane waves are eigenfunctions of the discrete Laplacian; a polynomial in the linear operator acts on the
  plane spanned by a wave and its quarter turn as multiplication by a complex number (`Dispersion`).
* C99 the curl of the stored tendency, term by term (`Irrotational`); the run theorem is an invariant.
* C100 fields that depend on the row and the direction of the edge only: every operator in closed form (`Zonal`).
* C101 at rest only three laws about zero are used of the arithmetic (`RestFloat`); finiteness comes from C87.
* C102, C103 one relation between two runs, indexed by a group of factors that commute with the arithmetic
  (`Refine/Graded`); factors of binary64 are signs, and powers of two as long as nothing underflows or overflows
  (`Refine/FloatScale`, `Trap`).
* C104 linearised potential vorticity is a linear form that vanishes on the linear tendency, and stability
  polynomials have constant term one.
* C105 on plane waves the reconstruction is a vector product with a vector orthogonal to the gradient, so
  applied twice it is a factor; the wave is then an eigenvector pair of the linear tendency.
* C106 the linear tendency is dissipative and bounded in the energy norm; two steps of the polynomial of the
  classical stepper are then a contraction, by an explicit sum-of-squares certificate.
* C107 balanced disturbances (`Spec.Balanced`) are in the kernel of the linear tendency, which is
  antisymmetric for the energy product, so polynomials in it keep the product with them.
* C108 the relation of C39 with a map of cells that is not injective, between meshes of different size (`Periodic`).
* C109 smoothness of the tendency on wet states (C80) is carried through the stages of any stepper.  The
  entries of a state are collected in a vector (`pack`), so derivatives and distances are those of `ℝⁿ`.
* C110 tracer waves are eigenvectors of the Laplacian (C98, and the three-coloured wave of C79), so the
  polynomial of the stepper acts on them by its value.
* C111 the tracer operator maps the two-dimensional space of waves of one wave vector to itself as
  multiplication by the complex number `trSymbol`.
* C112 the edge tables at the seam of a mesh with an odd number of rows (`seam_gr`) against the stored
  coordinates; lower bounds, independent of the resolution, for the error of one sine wave.
* C113 the host arithmetic of drivers and mesh constructor in floating point (`Model/DriverFloat.lean`);
  it also shows that the exact quotient in `ceilDiv` is no simplification.
* C114 the linearised tendency maps (α φ, β ∇φ) to such a pair: the gradient has no vorticity on a mesh with
  an even number of rows, so both viscous terms act on it as multiplications. Polynomials in it follow.
* C115 counts roundings as C77 does; as no term is negative the bound is relative to the energy itself.
* C116 complements C24 and C25: those are about the sum of squared velocities, C116 about the reported energy, which
  weighs them with the thickness.
* C117 extends C98 to a moving layer. It is about disturbances without vorticity; these stay without vorticity to first
  order.
* C118 is about a quantity the program does not print. It is defined from the potential vorticity of `Spec`, which C51
  relates to the stored tendencies.
* C119 needs an even number of rows, as do all statements that combine the two translations of the lattice. Its core is
  that the change of a curl-free edge field under a shift by one cell is the gradient of its own values on the edges
  crossed (`Props/Modes`).
* C120 is C62 with the gap below the largest eigenvalue: the only eigenvectors that a step within the limit does not
  shrink are the uniform concentrations (C119), and there are finitely many others (`Lib/Spectral`, `Props/Mixing`).
* C121 integrates the velocity against the two uniform flows, which have neither divergence nor vorticity (C119), so
  every gradient and rotated gradient in the tendency drops out (`Props/MeanVelocity`).
* C122 is C99 and C121 for the explicit-SIMD build, whose velocity tendency is `Spec.simdVelocityTend` (C97); it also
  states what its hyperviscosity does not do (`Props/SimdVorticity`).
* C123 extends C61 and C92 from the one-stage stepper to all steppers in a prescribed flow, by writing a step as a convex
  combination of one-stage steps, and shows that hyperdiffusion keeps no bounds (`Props/FourthOrderBounds`).
* C124 is the nonlinear counterpart of the linear stability results: the disturbance energy is conserved and positive, so
  small disturbances stay small and the solutions of C80 exist up to every time (`Lib/Trapped`, `Props/RestNonlinear`).
* C125 says what the numbers reported by the convergence tests measure; it was added when a wrong normalisation of the
  nonlinear test survived the mutation tests (`Props/ReportedError`).
* C126 compares two meshes with different numbers of layers, vector lengths and numbers of tracers, layer by layer
  (`Props/LayerCount`), for the explicit-SIMD build only where C28 holds.  C113 covers the padded layer counts.
* C127 sharpens C123: all convex functions of the concentration, not only its bounds (`Props/TracerConvex`).
* C128 extends C120 from fluid at rest to prescribed flow (`Props/FlowMixing`). The rate exists but is not computed.
* C129 carries C127 and C128 over to the explicit-SIMD build (`Props/SimdFrozen`).
* C97 over the reals the functions of the explicit-SIMD build differ from the default ones in one field only
  (`simdF_real`), from which the conservation theorems carry over (`SimdConservation`).
* C96 the rate is the derivative of the variance along the computed tendency, by the adjointness of divergence and
  gradient; the drift of a run follows from it with the convergence theorem C80 (`Variance`).
* C95 uniform states are closed under the tendency, so the run is followed in the three numbers that describe them
  (`Inertial`); the error bound compares the stability polynomial with the exponential.
* C80 `Lib/Butcher` and `Lib/ButcherOrder`: order conditions up to four imply the global error bound for every smooth vector field on a finite-dimensional space (Taylor expansion of stages and solution, discrete Gronwall, the run stays near the solution). `TimeOrder`: the entries in range form a vector, the tendency is smooth at wet states, the steppers are Runge-Kutta methods with explicit tableaux. The condition `N dt defect ≤ τ` excludes only runs whose accumulated coefficient rounding exceeds a constant.
* C81 the energy is constant along the solution (C20) and Lipschitz near it.
* C82 the first-order response to a perturbation of rest (C78) is the stepper applied to the linear
  operator; pointwise accuracy of gradient, divergence and reconstruction (C50, C55, C57) bounds its truncation
  error and skewness gives stability (Lax). Explicit constant; inertia-gravity waves as an instance.
* C83 the diffusive tendency is symmetric in the norm weighted by the inverse thickness (C62), so a step
  within the limit does not increase that norm and the errors of the steps add up (`Lib/Lax`, `contracting`);
  the truncation error is that of C71 (`DiffusionConvergence`).
* C84 the discrete `∇·(h∇q)` and its error are functions of the position; the error satisfies a product rule, so
  its second derivatives are of second order too, and the second pass (a sum of second differences over `dc²`)
  keeps the order. Convergence is as in C83, with the spectral bound of `TracerHyper` (`Hyperdiffusion`).
* C85 the curl of a plane wave in closed form: the linear parts cancel, a second difference remains (`CurlSharp`).
* C86 forced runs: state and time as one autonomous system, the stage times as a perturbation of the stages
  (`Lib/ButcherPerturbed`, `ForcedOrder`).
* C87 rounded runs: `Refine/ErrArith` is an arithmetic of functions on a set of states and step sizes, each with a
  bound and an error constant; by parametricity (`Refine/Rel`) the program run in it is exact in its values and
  tracks every rounded run with error `C ε`. One constant serves all arithmetics, since it is computed before the
  arithmetic is chosen. `RoundedOrder` accumulates the errors along the solution. Finite numbers are
  tracked as such, so runs do not overflow. `Lib/Ieee` has binary64 and its analogues of any higher precision, with
  and without fused multiply-add.
* C88–C90 a symmetry of the lattice (`Refine/HexSym`, `LatSym`) renames cells, edges and vertices with signs and
  maps the tables to themselves; with a change of units every operator, the tendency, a step and a run commute with it
  (`Props/Symmetry`). Units, time reversal, half turn and mirror image are four instances of one theorem.
* C91 two meshes are related on a region (`Refine/Region`, `RegionRel`): tables and geometry correspond on cells,
  edges and vertices that are `n` rings inside; each operator uses up part of a ring, a tendency two, for any scalars.
* C92, C93 the tendencies written side by side over the six neighbours (`Props/Positivity`): a one-stage step is a
  combination of neighbouring concentrations whose weights are nonnegative up to cell Peclet number two; witnesses with
  flow across one edge (whose operator squares to zero) for the converse.
  For the fourth-order steppers (`Props/Drying`) the stages tend to the tendency at the limit state as the step and the
  thickness of one cell tend to zero, so the outflow of that cell outweighs its contents.

## 3. Trusted base

* Lean 4.33.0 kernel; Mathlib definitions. Axioms used: `propext`,
  `Classical.choice`, `Quot.sound` only.
* The transcription of C++ to the model, cited line by line.
* Kokkos semantics as described in section 1: sequentially consistent
  interleaving of element accesses (adequate, since races are proved absent), in-order
  launches, `deep_copy`, and tree reductions with zero-initialised
  accumulators.

## 4. Not modelled

* Floating-point rounding, except that law-free theorems hold for any arithmetic and that C76, C77, C87 and C94
  bound it. C76, C77 and C94 use the standard model without overflow and underflow; C87 admits overflow, gradual
  underflow and contraction to fused multiply-add (`Refine.Machine`, instance `Lib/Ieee`).
* Kokkos internals, tiling, GPU fences, timers (`timer_start`/`timer_end`, Caliper), label strings.
* View reference counting and aliasing between user-supplied views: `state`,
  the stepper's work arrays and mesh tables are distinct arrays.
* Allocation failure; `Int` parameters that are negative.
* Console output and the exceptions the tests throw when a check fails; the value that is checked is modelled.

## 5. Findings about the code

1. `vel_hyperdiff_edge.hpp:74-76` (SIMD build): `compute_vel_del2_rvort` loads a
   vector and then uses the scalar at the chunk's first layer instead; layers mix.
2. Odd `ny`: `cell_on_cell` is not symmetric at the seam, and curl grad ≠ 0.
   `test/double_vortex.cpp` uses `ny = 29`.
3. `nx = 1` or `ny = 1`: an edge's two cells coincide; signs are +1 twice; mass is
   not conserved.
4. `LSRKStepper` with a stage count other than 1 or 5: `do_step` does nothing.
5. RK4 with a disabled equation plus additive forcing: forcing accumulates.
6. Integrals count the padding layers.
7. `tend *= 0` in the low-storage stepper does not clear NaN/Inf.
8. `circulation_integral` does not depend on the velocity.
9. `shallow_water_hierarchical.cpp` (not compiled): hyperviscosity takes the
   vorticity of the velocity rather than of its Laplacian.
10. `OMEGA_NO_SIMD` with `OMEGA_KOKKOS_SIMD`: lanes overrun the chunk.
11. `ShallowWaterAuxiliaryState::compute` loops over the state's tracer extent, not
    the model's tracer count.
12. `test/double_vortex.cpp` computes `ny` as a ceiling: the default run has 29 rows (odd, see 2) and the
    period of the mesh is not the `ly` of the initial state.
13. The errors of the tracer and nonlinear tests are divided by `nx * ny` but summed over all layers, so they grow
    with the root of the padded number of layers.
14. The coefficients in `lsrk.cpp` satisfy the order conditions only up to about 1e-20 (the decimal literals are rounded).
15. The Laplacian of the velocity diffusion is not pointwise consistent (error of order one, C69): the first-order error of the
    vorticity changes sign between the two ends of an edge and is differenced there. It is consistent in the weak sense (C70).
16. The tracer tests never set `m_f0`, which has no initialiser (`shallow_water_params.hpp:8`); an indeterminate value is copied into
    `f_vertex` and `f_edge`. The result does not depend on it (C75).
