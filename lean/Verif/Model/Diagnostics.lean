import Verif.Model.ShallowWater

/-!
# Integral diagnostics and `parallel_reduce`
-/

namespace Omega

open Prog

variable {R : Type} [Scalar R]

/-- One way for `Kokkos::parallel_reduce` with a sum to do its work: a leaf is a thread that starts from
the identity 0 and applies the functor to its iterations in its order; a node joins two partial results
(`dst += src`). -/
inductive RTree
  | leaf (is : List Int)
  | node (l r : RTree)

/-- The iterations of a tree. -/
def RTree.idx : RTree → List Int
  | .leaf is => is
  | .node l r => l.idx ++ r.idx

/-- The tree runs every iteration of `[0, n)` exactly once (`common.hpp:113-121`, `RangePolicy(0, n)`). -/
def RTree.Covers (T : RTree) (n : Int) : Prop :=
  T.idx.Perm ((List.range n.toNat).map Int.ofNat)

/-- The functor applied in turn; it may only read. `none` is a fault. -/
def leafEval (d : Dims) (body : Int → R → Prog R R) (m : Mem R) : List Int → R → Option R
  | [], acc => some acc
  | i :: is, acc =>
    match run d (fun _ => .ro) (body i acc) m with
    | some (a, _) => leafEval d body m is a
    | none => none

/-- Result of a reduction tree. -/
def RTree.eval (d : Dims) (body : Int → R → Prog R R) (m : Mem R) : RTree → Option R
  | .leaf is => leafEval d body m is (lit 0)
  | .node l r =>
    match l.eval d body m, r.eval d body m with
    | some x, some y => some (x + y)
    | _, _ => none

/-- `v` is a possible result of `omega_parallel_reduce({n}, body, result)`, `common.hpp:113-128`. -/
def Reduces (d : Dims) (n : Int) (body : Int → R → Prog R R) (m : Mem R) (v : R) : Prop :=
  ∃ T : RTree, T.Covers n ∧ T.eval d body m = some v

/-- No way of reducing faults. -/
def ReduceSafe (d : Dims) (n : Int) (body : Int → R → Prog R R) (m : Mem R) : Prop :=
  ∀ T : RTree, T.Covers n → T.eval d body m ≠ none

namespace Model

/-- functor of `energy_integral`, `shallow_water_diagnostics.cpp:20-36` -/
def energy_body (grav : R) (st : StateId) (icell : Int) (column_energy : R) : Prog R R := do
  let n ← rdI1 .max_level_cell icell
  forI n column_energy fun k column_energy => do
    let ne ← rdI1 .nedges_on_cell icell
    let K ← forI ne (lit 0) fun j K => do
      let jedge ← rdI2 .edges_on_cell icell j
      let dv ← rd1 .dv_edge jedge
      let dc ← rd1 .dc_edge jedge
      let v1 ← rd2 (.vn_edge st) jedge k
      let v2 ← rd2 (.vn_edge st) jedge k
      pure (K + dv * dc * v1 * v2 / lit 4)
    let area ← rd1 .area_cell icell
    let K := K / area
    let h ← rd2 (.h_cell st) icell k
    pure (column_energy + area * (grav * h * h / lit 2 + h * K))

/-- `energy_integral`, `shallow_water_diagnostics.cpp:5-38` -/
def IsEnergyIntegral (d : Dims) (grav : R) (st : StateId) (m : Mem R) (v : R) : Prop :=
  Reduces d d.ncells (energy_body grav st) m v

/-- functor of `mass_integral`, `shallow_water_diagnostics.cpp:49-56` -/
def mass_body (st : StateId) (icell : Int) (column_mass : R) : Prog R R := do
  let n ← rdI1 .max_level_cell icell
  forI n column_mass fun k column_mass => do
    let area ← rd1 .area_cell icell
    let h ← rd2 (.h_cell st) icell k
    pure (column_mass + area * h)

/-- `mass_integral`, `shallow_water_diagnostics.cpp:40-58` -/
def IsMassIntegral (d : Dims) (st : StateId) (m : Mem R) (v : R) : Prop :=
  Reduces d d.ncells (mass_body st) m v

/-- functor of `circulation_integral`, `shallow_water_diagnostics.cpp:73-87` -/
def circulation_body (st : StateId) (ivertex : Int) (column_circulation : R) : Prog R R := do
  let n ← rdI1 .max_level_vertex_bot ivertex
  forI n column_circulation fun k column_circulation => do
    let cir ← forI 3 (lit 0) fun j cir => do
      let jedge ← rdI2 .edges_on_vertex ivertex j
      let dc ← rd1 .dc_edge jedge
      let sg ← rd2 .edge_sign_on_vertex ivertex j
      let v ← rd2 (.vn_edge st) jedge k
      pure (cir + dc * sg * v)
    let f ← rd1 .f_vertex ivertex
    let area ← rd1 .area_triangle ivertex
    pure (column_circulation + (cir + f * area))

/-- `circulation_integral`, `shallow_water_diagnostics.cpp:60-89` -/
def IsCirculationIntegral (d : Dims) (st : StateId) (m : Mem R) (v : R) : Prop :=
  Reduces d d.nvertices (circulation_body st) m v

end Model
end Omega
