import Mathlib.Analysis.Real.Sqrt
import Mathlib.Analysis.SpecialFunctions.Trigonometric.Basic

/-!
# The arithmetic of the model

`Real` in the code is `double` (`src/common.hpp:11`).  The model is written over an
arbitrary type carrying the *operations* the code uses and no laws, so that law-free theorems
hold for IEEE arithmetic, and is instantiated with `ℝ` (exact arithmetic) and `Float`.
-/

namespace Omega

/-- Operations on `Real` used by the code (`src/common.hpp:11`, `<cmath>` functions `sqrt`, `sin`,
`cos`, the constant `pi` of `src/common.hpp:27`, and `<`).  `lit` is the conversion of an integer
(a literal such as `3`, or an `Int` variable as in `m_dc * icol`) to `Real`.  Decimal literals of the
code are exact quotients of integers (`0.25_fp` is `lit 1 / lit 4`, `0.5_fp` is `lit 1 / lit 2`),
which is the same double in IEEE arithmetic. No laws are assumed. -/
class Scalar (R : Type) extends Add R, Sub R, Mul R, Div R, Neg R where
  lit : Int → R
  sqrt : R → R
  sin : R → R
  cos : R → R
  pi : R
  lt : R → R → Bool

export Scalar (lit)

/-- `0.5_fp` -/
def half {R : Type} [Scalar R] : R := lit 1 / lit 2
/-- `0.25_fp` -/
def quarter {R : Type} [Scalar R] : R := lit 1 / lit 4

/-- `std::max(a, b)`: `(a < b) ? b : a`. -/
def maxS {R : Type} [Scalar R] (a b : R) : R := if Scalar.lt a b then b else a

/-- Exact arithmetic. -/
noncomputable instance instScalarReal : Scalar ℝ where
  lit n := (n : ℝ)
  sqrt := Real.sqrt
  sin := Real.sin
  cos := Real.cos
  pi := Real.pi
  lt a b := @decide (a < b) (Classical.dec _)

/-- Double precision, for executing the model. -/
instance instScalarFloat : Scalar Float where
  lit n := Float.ofInt n
  sqrt := Float.sqrt
  sin := Float.sin
  cos := Float.cos
  pi := 3.14159265358979323846
  lt a b := decide (a < b)

@[simp] theorem lit_real (n : Int) : (lit n : ℝ) = (n : ℝ) := rfl
@[simp] theorem half_real : (half : ℝ) = 1 / 2 := by simp [half]
@[simp] theorem quarter_real : (quarter : ℝ) = 1 / 4 := by simp [quarter]
@[simp] theorem sqrt_real (x : ℝ) : Scalar.sqrt x = Real.sqrt x := rfl
@[simp] theorem sin_real (x : ℝ) : Scalar.sin x = Real.sin x := rfl
@[simp] theorem cos_real (x : ℝ) : Scalar.cos x = Real.cos x := rfl
@[simp] theorem pi_real : (Scalar.pi : ℝ) = Real.pi := rfl
@[simp] theorem slt_real (a b : ℝ) : (Scalar.lt a b = true) ↔ a < b := by
  simp [Scalar.lt]
theorem maxS_real (a b : ℝ) : maxS a b = max a b := by
  unfold maxS
  by_cases h : a < b
  · rw [if_pos (by simpa using h), max_eq_right h.le]
  · rw [if_neg (by simpa using h), max_eq_left (not_lt.mp h)]

/-- The C++ `int` range (`src/common.hpp:12`, 32-bit two's complement). -/
def InInt (n : Int) : Prop := -2147483648 ≤ n ∧ n ≤ 2147483647

instance (n : Int) : Decidable (InInt n) := by unfold InInt; infer_instance

end Omega
