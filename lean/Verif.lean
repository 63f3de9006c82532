import Verif.Lib.Scalar
import Verif.Lib.Loop
import Verif.Kokkos.Mem
import Verif.Kokkos.Prog
import Verif.Kokkos.Par
import Verif.Model.Mesh
import Verif.Kokkos.Launch
import Verif.Spec.Hex
import Verif.Refine.MeshTables
import Verif.Refine.MeshGeom
import Verif.Refine.MeshFinal
import Verif.Refine.MeshAll
import Verif.Props.MeshTopology
import Verif.Props.MeshGeometry
import Verif.Kokkos.Rows
import Verif.Model.Kernels
import Verif.Model.KernelsSimd
import Verif.Model.ShallowWater
import Verif.Refine.Lanes
import Verif.Refine.Fn
import Verif.Refine.KernelOps
import Verif.Refine.Tendency
import Verif.Refine.Steppers
import Verif.Model.Drivers
import Verif.Refine.Ready
import Verif.Refine.Invariant
import Verif.Props.Programs
import Verif.Props.Stepping
import Verif.Props.TracerLinear
import Verif.Model.Diagnostics
import Verif.Refine.Diagnostics
import Verif.Refine.HexSum
import Verif.Refine.HexReal
import Verif.Refine.HexIdent
import Verif.Spec.Ops
import Verif.Props.Trisk
import Verif.Refine.HexSpec
import Verif.Props.Operators
import Verif.Props.Conservation
import Verif.Refine.Guarded
import Verif.Refine.Rel
import Verif.Refine.SimdOps
import Verif.Props.Uniform
import Verif.Props.Energy
import Verif.Props.Vorticity
import Verif.Props.Dissipation
import Verif.Props.RungeKutta
import Verif.Props.Arithmetic
import Verif.Props.Translation
import Verif.Props.Simd
import Verif.Lib.Taylor
import Verif.Props.Convergence
import Verif.Model.TestCases
import Verif.Props.Cases
import Verif.Props.Configured
import Verif.Model.Hierarchical
import Verif.Refine.Hierarchical
import Verif.Props.Hierarchical
import Verif.Props.Geostrophic
import Verif.Props.Frozen
import Verif.Lib.Spectral
import Verif.Props.TracerStability
import Verif.Props.TracerHyper
import Verif.Model.TestPrograms
import Verif.Refine.TestPrograms
import Verif.Lib.Numeric
import Verif.Props.TracerTests
import Verif.Props.TracerRates
import Verif.Props.TestRuns
import Verif.Refine.OperatorTest
import Verif.Lib.Trig
import Verif.Props.OperatorTest
import Verif.Props.OperatorRates
import Verif.Props.Viscosity
import Verif.Lib.Jets
import Verif.Props.ConsistencyCell
import Verif.Props.ConsistencyEdge
import Verif.Props.ConsistencyPV
import Verif.Props.Consistency
import Verif.Props.ConsistencyManufactured
import Verif.Lib.Lax
import Verif.Props.AdvectionOp
import Verif.Props.SpaceTime
import Verif.Props.AdvectionConvergence
import Verif.Props.AdvectionTest
import Verif.Props.TracerInputs
import Verif.Lib.Rounding
import Verif.Props.Rounding
import Verif.Props.RoundedMass
import Verif.Props.RestStability
import Verif.Props.RestCourant
import Verif.Lib.Butcher
import Verif.Lib.ButcherOrder
import Verif.Props.TimeOrder
import Verif.Props.WaveConvergence
import Verif.Props.DiffusionConvergence
import Verif.Props.Hyperdiffusion
import Verif.Props.CurlSharp
import Verif.Lib.ButcherPerturbed
import Verif.Props.ForcedOrder
import Verif.Lib.Ieee
import Verif.Refine.ErrArith
import Verif.Props.RoundedStep
import Verif.Props.RoundedOrder
import Verif.Refine.HexSym
import Verif.Props.Symmetry
import Verif.Refine.Region
import Verif.Props.Locality
import Verif.Props.Positivity
import Verif.Refine.Calls
import Verif.Props.RoundedRk4
import Verif.Props.Inertial
import Verif.Props.Variance
import Verif.Props.SimdConservation
import Verif.Props.TestSteps
import Verif.Props.Dispersion
import Verif.Props.Irrotational
import Verif.Props.Zonal
import Verif.Props.RestFloat
import Verif.Refine.Graded
import Verif.Refine.FloatScale
import Verif.Props.UnitsFloat
import Verif.Props.LinearPv
import Verif.Props.InertiaGravity
import Verif.Props.ViscousStability
import Verif.Props.Adjustment
import Verif.Props.SimdRelations
import Verif.Props.Periodic
import Verif.Props.Sensitivity
import Verif.Props.DiffusionSharp
import Verif.Props.TracerWaves
import Verif.Props.OddRows
import Verif.Props.DriverFloat
import Verif.Props.ViscousWaves
import Verif.Props.RoundedEnergy
import Verif.Props.ViscousEnergy
import Verif.Props.FlowWaves
import Verif.Props.Enstrophy
import Verif.Props.Drying
import Verif.Props.Modes
import Verif.Props.Mixing
import Verif.Props.MeanVelocity
import Verif.Props.SimdVorticity
import Verif.Props.FourthOrderBounds
import Verif.Lib.Trapped
import Verif.Props.RestNonlinear
import Verif.Props.ReportedError
import Verif.Props.LayerCount
import Verif.Props.TracerConvex
import Verif.Props.FlowMixing
import Verif.Props.SimdFrozen
