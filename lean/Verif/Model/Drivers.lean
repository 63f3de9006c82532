import Verif.Model.ShallowWater

/-!
# Runs of a stepper, and user forcing
-/

namespace Omega
namespace Model

open Prog

variable {R : Type} [Scalar R]

/-- The two `TimeStepper`s, `time_stepper.hpp:8-39`. -/
inductive Stepper
  | lsrk (nstages : Nat)
  | rk4

/-- the constructor of a stepper -/
def Stepper.ctor (d : Dims) : Stepper → List (Cmd R)
  | .lsrk _ => lsrk_ctor d
  | .rk4 => rk4_ctor d

/-- `TimeStepper::do_step(t, dt, state)` -/
def Stepper.step (d : Dims) (B : Build R) (sw : SWModel R) (t dt : R) : Stepper → List (Cmd R)
  | .lsrk n => lsrk_step d B sw n t dt
  | .rk4 => rk4_step d B sw t dt

/-- Successive calls of `do_step` with the listed times and step sizes. -/
def Stepper.run (d : Dims) (B : Build R) (sw : SWModel R) (stp : Stepper) (sched : List (R × R)) :
    List (Cmd R) :=
  sched.flatMap fun p => stp.step d B sw p.1 p.2

/-- The times of the drivers' loops: `for (step = 0; step < numberofsteps; ++step) { t = step * dt;
do_step(t, dt, state) }`, `nonlinear_swe_convergence.cpp:163-166`, `double_vortex.cpp:137-140`,
`tracer_*_convergence.cpp:86-89`; `benchmark.cpp:148, 158-161` makes the same sequence of calls. -/
def driverSched (nsteps : Nat) (dt : R) : List (R × R) :=
  (List.range nsteps).map fun step : Nat => (lit (step : Int) * dt, dt)

/-- The `additional_tendency` of `nonlinear_swe_convergence.cpp:78-112`, with arbitrary functions of
position and time for `h_tend`, `vx_tend` and `vy_tend`. -/
def forceHook (d : Dims) (fh fx fy : R → R → R → R) (t : R) (tn _st : StateId) : List (Cmd R) :=
  [ par2 d.ncells d.nlayers fun icell k => do
      let x ← rd1 .x_cell icell
      let y ← rd1 .y_cell icell
      let v ← rd2 (.h_cell tn) icell k
      wr2 (.h_cell tn) icell k (v + fh x y t),
    par2 d.nedges d.nlayers fun iedge k => do
      let x ← rd1 .x_edge iedge
      let y ← rd1 .y_edge iedge
      let a ← rd1 .angle_edge iedge
      let b ← rd1 .angle_edge iedge
      let v ← rd2 (.vn_edge tn) iedge k
      wr2 (.vn_edge tn) iedge k
        (v + (Scalar.cos a * fx x y t + Scalar.sin b * fy x y t)) ]

/-- A model with forcing. -/
def SWModel.forced (d : Dims) (sw : SWModel R) (fh fx fy : R → R → R → R) : SWModel R :=
  { sw with hook := forceHook d fh fx fy }

end Model
end Omega
