import Verif.Model.TestCases
import Verif.Model.Mesh
import Verif.Lib.Ieee

/-!
# Sizes and steps that the code computes in floating point

`Real` is `double` (`common.hpp:11`); `rndIeee b` rounds to `53 + b` bits, so `b = 0` is the code.
Integers convert exactly (`Int` is `int`, `common.hpp:12`) and `std::ceil` is exact.
-/

namespace Omega
noncomputable section
namespace Model

/-- `Int numberofsteps = std::ceil(timeend / dt)`, `double_vortex.cpp:98`,
`nonlinear_swe_convergence.cpp:131`, `tracer_*_convergence.cpp:50` -/
def fSteps (b : ℕ) (timeend dt : ℝ) : Int := ⌈rndIeee b (timeend / dt)⌉
/-- `dt = timeend / numberofsteps`, the following line -/
def fStep (b : ℕ) (timeend dt : ℝ) : ℝ := rndIeee b (timeend / (fSteps b timeend dt : ℝ))
/-- `Real t = step * dt`, `double_vortex.cpp:138`, `nonlinear_swe_convergence.cpp:164`,
`tracer_*_convergence.cpp:87` -/
def fTime (b : ℕ) (timeend dt : ℝ) (step : ℕ) : ℝ := rndIeee b (step * fStep b timeend dt)

/-- `m_nlayers_vec = std::ceil(Real(nlayers) / vector_length)`, `planar_hexagonal_mesh.cpp:12` -/
def fLayersVec (b : ℕ) (nlayers vl : Int) : Int := ⌈rndIeee b ((nlayers : ℝ) / vl)⌉
/-- `m_nlayers = std::ceil(Real(nlayers) / vector_length) * vector_length`, a floating-point product
truncated to `Int`, `planar_hexagonal_mesh.cpp:11` -/
def fLayers (b : ℕ) (nlayers vl : Int) : Int := ⌊rndIeee b ((fLayersVec b nlayers vl : ℝ) * vl)⌋

/-- `Int ny = std::ceil(double_vortex.m_ly / (dc * std::sqrt(3) / 2))` with `dc = m_lx / nx`,
`double_vortex.cpp:82-83` -/
def fRows (b : ℕ) (lx ly : ℝ) (nx : Int) : Int :=
  ⌈rndIeee b (ly / rndIeee b (rndIeee b (rndIeee b (lx / nx) * rndIeee b √3) / 2))⌉

end Model
end
end Omega
