import Verif.Model.Drivers
import Mathlib.Analysis.SpecialFunctions.Trigonometric.Basic
import Mathlib.Analysis.SpecialFunctions.Exp
import Mathlib.Analysis.SpecialFunctions.Sqrt

/-!
# Fields and host arithmetic of the test and benchmark drivers

Functions of position and time in exact arithmetic: the drivers evaluate them at the stored coordinates.
All members of the C++ structs are fields here, so that theorems hold for every choice of constants.
-/

namespace Omega
noncomputable section
namespace Model

open Real

/-! ### `test/nonlinear_swe_convergence.cpp` -/

/-- `ManufacturedSolution`, `nonlinear_swe_convergence.cpp:12-24`. `kx`, `ky` and `omega` have the
default initialisers `:22-24`, see `Manufactured.default`. -/
structure Manufactured where
  grav : ℝ
  f0 : ℝ
  lx : ℝ
  ly : ℝ
  eta0 : ℝ
  h0 : ℝ
  mx : Int
  my : Int
  kx : ℝ
  ky : ℝ
  omega : ℝ

/-- the default member initialisers, `:13-24` -/
def Manufactured.default : Manufactured :=
  let grav : ℝ := 980616 / 100000
  let lx : ℝ := 10000 * 1000
  let ly : ℝ := √3 / 2 * lx
  let kx := ((2 : Int) : ℝ) * (2 * π / lx)
  let ky := ((2 : Int) : ℝ) * (2 * π / ly)
  { grav := grav, f0 := 1 / 10000, lx := lx, ly := ly, eta0 := 1, h0 := 1000, mx := 2, my := 2,
    kx := kx, ky := ky, omega := √(grav * 1000 * (kx * kx + ky * ky)) }

namespace Manufactured
variable (s : Manufactured)

/-- `h`, `:26-28` -/
def h (x y t : ℝ) : ℝ := s.h0 + s.eta0 * sin (s.kx * x + s.ky * y - s.omega * t)
/-- `vx`, `:30-32` -/
def vx (x y t : ℝ) : ℝ := s.eta0 * cos (s.kx * x + s.ky * y - s.omega * t)
/-- `vy`, `:34-36` -/
def vy (x y t : ℝ) : ℝ := s.eta0 * cos (s.kx * x + s.ky * y - s.omega * t)
/-- `h_tend`, `:38-45` -/
def h_tend (x y t : ℝ) : ℝ :=
  let phi := s.kx * x + s.ky * y - s.omega * t
  s.eta0 * (-s.h0 * (s.kx + s.ky) * sin phi - s.omega * cos phi +
    s.eta0 * (s.kx + s.ky) * cos (2 * phi))
/-- `vx_tend`, `:47-54` -/
def vx_tend (x y t : ℝ) : ℝ :=
  let phi := s.kx * x + s.ky * y - s.omega * t
  s.eta0 * ((-s.f0 + s.grav * s.kx) * cos phi + s.omega * sin phi -
    s.eta0 * (s.kx + s.ky) * sin (2 * phi) / 2)
/-- `vy_tend`, `:56-63` -/
def vy_tend (x y t : ℝ) : ℝ :=
  let phi := s.kx * x + s.ky * y - s.omega * t
  s.eta0 * ((s.f0 + s.grav * s.ky) * cos phi + s.omega * sin phi -
    s.eta0 * (s.kx + s.ky) * sin (2 * phi) / 2)

/-- `ManufacturedShallowWaterModel`, `:66-75`: gravity and rotation of the solution, other parameters at
their defaults (`shallow_water_params.hpp:7-18`). -/
def params : Params ℝ :=
  { f0 := s.f0, grav := s.grav, visc_del2 := 0, visc_del4 := 0, eddy_diff2 := 0, eddy_diff4 := 0,
    disable_h := false, disable_vn := false }

/-- the model with the overridden `additional_tendency`, `:77-112` -/
def model (d : Dims) : SWModel ℝ :=
  (SWModel.ofParams s.params).forced d s.h_tend s.vx_tend s.vy_tend

end Manufactured

/-! ### `test/double_vortex.cpp` -/

/-- `DoubleVortex`, `double_vortex.cpp:8-22`, `benchmark.cpp:12-26` -/
structure DoubleVortex where
  g : ℝ
  lx : ℝ
  ly : ℝ
  coriolis : ℝ
  h0 : ℝ
  ox : ℝ
  oy : ℝ
  sigmax : ℝ
  sigmay : ℝ
  dh : ℝ
  xc1 : ℝ
  yc1 : ℝ
  xc2 : ℝ
  yc2 : ℝ

/-- the default member initialisers, `double_vortex.cpp:9-22` -/
def DoubleVortex.default : DoubleVortex :=
  { g := 980616 / 100000, lx := 5000000, ly := 5000000, coriolis := 6147 / 100000000, h0 := 750,
    ox := 1 / 10, oy := 1 / 10, sigmax := 3 / 40 * 5000000, sigmay := 3 / 40 * 5000000, dh := 75,
    xc1 := (1 / 2 - 1 / 10) * 5000000, yc1 := (1 / 2 - 1 / 10) * 5000000,
    xc2 := (1 / 2 + 1 / 10) * 5000000, yc2 := (1 / 2 + 1 / 10) * 5000000 }

namespace DoubleVortex
variable (s : DoubleVortex)

/-- `h`, `double_vortex.cpp:24-36` -/
def h (x y : ℝ) : ℝ :=
  let xprime1 := s.lx / (π * s.sigmax) * sin (π / s.lx * (x - s.xc1))
  let yprime1 := s.ly / (π * s.sigmay) * sin (π / s.ly * (y - s.yc1))
  let xprime2 := s.lx / (π * s.sigmax) * sin (π / s.lx * (x - s.xc2))
  let yprime2 := s.ly / (π * s.sigmay) * sin (π / s.ly * (y - s.yc2))
  s.h0 - s.dh * (exp (-(1 / 2) * (xprime1 * xprime1 + yprime1 * yprime1)) +
    exp (-(1 / 2) * (xprime2 * xprime2 + yprime2 * yprime2)) -
    4 * π * s.sigmax * s.sigmay / s.lx / s.ly)

/-- `vx`, `double_vortex.cpp:38-56` -/
def vx (x y : ℝ) : ℝ :=
  let xprime1 := s.lx / (π * s.sigmax) * sin (π / s.lx * (x - s.xc1))
  let yprime1 := s.ly / (π * s.sigmay) * sin (π / s.ly * (y - s.yc1))
  let xprime2 := s.lx / (π * s.sigmax) * sin (π / s.lx * (x - s.xc2))
  let yprime2 := s.ly / (π * s.sigmay) * sin (π / s.ly * (y - s.yc2))
  let yprimeprime1 := s.ly / (2 * π * s.sigmay) * sin (2 * π / s.ly * (y - s.yc1))
  let yprimeprime2 := s.ly / (2 * π * s.sigmay) * sin (2 * π / s.ly * (y - s.yc2))
  let vx := -s.g * s.dh / s.coriolis / s.sigmay *
    (yprimeprime1 * exp (-(1 / 2) * (xprime1 * xprime1 + yprime1 * yprime1)) +
     yprimeprime2 * exp (-(1 / 2) * (xprime2 * xprime2 + yprime2 * yprime2)))
  vx

/-- `vy`, `double_vortex.cpp:58-77` -/
def vy (x y : ℝ) : ℝ :=
  let xprime1 := s.lx / (π * s.sigmax) * sin (π / s.lx * (x - s.xc1))
  let yprime1 := s.ly / (π * s.sigmay) * sin (π / s.ly * (y - s.yc1))
  let xprime2 := s.lx / (π * s.sigmax) * sin (π / s.lx * (x - s.xc2))
  let yprime2 := s.ly / (π * s.sigmay) * sin (π / s.ly * (y - s.yc2))
  let xprimeprime1 := s.lx / (2 * π * s.sigmax) * sin (2 * π / s.lx * (x - s.xc1))
  let xprimeprime2 := s.lx / (2 * π * s.sigmax) * sin (2 * π / s.lx * (x - s.xc2))
  let vy := s.g * s.dh / s.coriolis / s.sigmax *
    (xprimeprime1 * exp (-(1 / 2) * (xprime1 * xprime1 + yprime1 * yprime1)) +
     xprimeprime2 * exp (-(1 / 2) * (xprime2 * xprime2 + yprime2 * yprime2)))
  vy

/-- the spacing of the mesh of `run`, `double_vortex.cpp:82` -/
def dc (nx : Int) : ℝ := s.lx / nx
/-- the number of rows of the mesh of `run`, `double_vortex.cpp:83` -/
def rows (nx : Int) : Int := ⌈s.ly / (s.dc nx * √3 / 2)⌉

end DoubleVortex

/-! ### Tracer tests -/

/-- `TracerAdvectionTest`, `tracer_advection_convergence.cpp:12-28`: the layer thickness -/
def advH (lx x _y _t : ℝ) : ℝ := exp (cos (2 * π * x / lx))
/-- `TracerAdvectionTest::tr`, `:20-23` -/
def advTr (lx ly x y t : ℝ) : ℝ := sin (2 * π * (x - t) / lx) * sin (2 * π * (y - t) / ly)

/-- `TracerDiffusionTest::tr`, `tracer_diffusion_convergence.cpp:19-23` -/
def diffTr (diff2 lx ly x y t : ℝ) : ℝ :=
  let c := 4 * π * π * (1 / (lx * lx) + 1 / (ly * ly))
  sin (2 * π * x / lx) * sin (2 * π * y / ly) * exp (-diff2 * c * t)

/-- `TracerHyperDiffusionTest::tr`, `tracer_hyperdiffusion_convergence.cpp:19-23` -/
def hyperTr (diff4 lx ly x y t : ℝ) : ℝ :=
  let c := 4 * π * π * (1 / (lx * lx) + 1 / (ly * ly))
  sin (2 * π * x / lx) * sin (2 * π * y / ly) * exp (-diff4 * c * c * t)

/-! ### Step size -/

/-- `Int numberofsteps = std::ceil(timeend / dt)`, `double_vortex.cpp:98`,
`nonlinear_swe_convergence.cpp:131`, `tracer_*_convergence.cpp:50` -/
def numberofsteps (timeend dt : ℝ) : Int := ⌈timeend / dt⌉
/-- `dt = timeend / numberofsteps`, the following line -/
def adjustedDt (timeend dt : ℝ) : ℝ := timeend / (numberofsteps timeend dt : ℝ)
/-- the calls of `do_step` of the loop -/
def driverRun (timeend dt : ℝ) : List (ℝ × ℝ) :=
  driverSched (numberofsteps timeend dt).toNat (adjustedDt timeend dt)

end Model
end
end Omega
