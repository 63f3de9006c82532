import Verif.Refine.Rel
import Verif.Lib.Rounding
import Mathlib.Tactic.FieldSimp

/-!
# Arithmetic that keeps track of rounding errors

An element of `Err X` is a bounded real function on `X` with a constant `C`: any computation of its values in
arithmetic with a small unit roundoff `u` has error at most `C u`.  Running a program in this arithmetic yields the
constants for all arithmetics and all inputs in `X` at once.
-/

set_option linter.unusedVariables false
set_option linter.unusedSectionVars false

namespace Omega
noncomputable section
namespace Refine

/-- A floating-point arithmetic with precision `u`: the elements with `fin` are finite numbers.  Operations on finite
numbers whose exact result is at most `1 / u` are finite and have an error of at most `u` times one plus the magnitude
of the operands (for sums) or the result.  Operations that overflow may return anything.  The absolute part of the
error admits underflow.  A sum may have an error proportional to its terms, which admits that products are kept
unrounded when they are added (contraction to fused multiply-add). -/
structure Machine {R : Type} [Scalar R] (fin : R → Prop) (val : R → ℝ) (u : ℝ) : Prop where
  pos : 0 < u
  zero : fin (Omega.lit 0) ∧ val (Omega.lit 0) = 0
  lit : ∀ n : Int, |(n : ℝ)| ≤ 1 / u → fin (Omega.lit n) ∧ |val (Omega.lit n) - n| ≤ u * (1 + |(n : ℝ)|)
  add : ∀ a b : R, fin a → fin b → |val a + val b| ≤ 1 / u →
    fin (a + b) ∧ |val (a + b) - (val a + val b)| ≤ u * (1 + |val a| + |val b|)
  sub : ∀ a b : R, fin a → fin b → |val a - val b| ≤ 1 / u →
    fin (a - b) ∧ |val (a - b) - (val a - val b)| ≤ u * (1 + |val a| + |val b|)
  mul : ∀ a b : R, fin a → fin b → |val a * val b| ≤ 1 / u →
    fin (a * b) ∧ |val (a * b) - val a * val b| ≤ u * (1 + |val a * val b|)
  div : ∀ a b : R, fin a → fin b → val b ≠ 0 → |val a / val b| ≤ 1 / u →
    fin (a / b) ∧ |val (a / b) - val a / val b| ≤ u * (1 + |val a / val b|)
  neg : ∀ a : R, fin a → fin (-a) ∧ val (-a) = -val a
  sqrt : ∀ a : R, fin a → 0 ≤ val a → √(val a) ≤ 1 / u →
    fin (Scalar.sqrt a) ∧ |val (Scalar.sqrt a) - √(val a)| ≤ u * (1 + √(val a))
  lt : ∀ a b : R, fin a → fin b → (Scalar.lt a b = true ↔ val a < val b)

/-- a bounded function, a bound of its rounding error and the largest unit roundoff for which it holds -/
structure Err (X : Type) where
  fn : X → ℝ
  B : ℝ
  C : ℝ
  u0 : ℝ
  hB : ∀ x, |fn x| ≤ B
  B0 : 0 ≤ B
  C0 : 0 ≤ C
  u0_pos : 0 < u0

namespace Err
variable {X : Type}

/-- bounded away from zero -/
def NZ (a : Err X) : Prop := ∃ μ > 0, ∀ x, μ ≤ |a.fn x|

/-- a function without error -/
def exact (f : X → ℝ) (B : ℝ) (hB : ∀ x, |f x| ≤ B) (B0 : 0 ≤ B) : Err X :=
  ⟨f, B, 0, 1, hB, B0, le_rfl, one_pos⟩

/-- a constant without error -/
def const (r : ℝ) : Err X := exact (fun _ => r) |r| (fun _ => le_rfl) (abs_nonneg r)

def ofInt (n : Int) : Err X :=
  ⟨fun _ => n, |(n : ℝ)|, 1 + |(n : ℝ)|, 1 / (|(n : ℝ)| + 1), fun _ => le_rfl, abs_nonneg _, by positivity, by positivity⟩

def add (a b : Err X) : Err X where
  fn x := a.fn x + b.fn x
  B := a.B + b.B
  C := a.C + b.C + (1 + (a.B + a.C) + (b.B + b.C))
  u0 := min (min a.u0 b.u0) (1 / ((a.B + a.C) + (b.B + b.C) + 1))
  hB x := (abs_add_le _ _).trans (add_le_add (a.hB x) (b.hB x))
  B0 := add_nonneg a.B0 b.B0
  C0 := by have := a.B0; have := b.B0; have := a.C0; have := b.C0; positivity
  u0_pos := by
    have := a.B0; have := b.B0; have := a.C0; have := b.C0
    exact lt_min (lt_min a.u0_pos b.u0_pos) (by positivity)

def sub (a b : Err X) : Err X where
  fn x := a.fn x - b.fn x
  B := a.B + b.B
  C := a.C + b.C + (1 + (a.B + a.C) + (b.B + b.C))
  u0 := min (min a.u0 b.u0) (1 / ((a.B + a.C) + (b.B + b.C) + 1))
  hB x := (abs_sub _ _).trans (add_le_add (a.hB x) (b.hB x))
  B0 := add_nonneg a.B0 b.B0
  C0 := by have := a.B0; have := b.B0; have := a.C0; have := b.C0; positivity
  u0_pos := by
    have := a.B0; have := b.B0; have := a.C0; have := b.C0
    exact lt_min (lt_min a.u0_pos b.u0_pos) (by positivity)

def mul (a b : Err X) : Err X where
  fn x := a.fn x * b.fn x
  B := a.B * b.B
  C := (1 + (a.B + a.C) * (b.B + b.C)) + (a.C * (b.B + b.C) + a.B * b.C)
  u0 := min (min a.u0 b.u0) (1 / ((a.B + a.C) * (b.B + b.C) + 1))
  hB x := by rw [abs_mul]; exact mul_le_mul (a.hB x) (b.hB x) (abs_nonneg _) a.B0
  B0 := mul_nonneg a.B0 b.B0
  C0 := by have := a.B0; have := b.B0; have := a.C0; have := b.C0; positivity
  u0_pos := by
    have := a.B0; have := b.B0; have := a.C0; have := b.C0
    exact lt_min (lt_min a.u0_pos b.u0_pos) (by positivity)

def neg (a : Err X) : Err X where
  fn x := -a.fn x
  B := a.B
  C := a.C
  u0 := a.u0
  hB x := by rw [abs_neg]; exact a.hB x
  B0 := a.B0
  C0 := a.C0
  u0_pos := a.u0_pos

/-- division by a function that is at least `μ` in absolute value -/
def divBy (a b : Err X) (μ : ℝ) (hμ : 0 < μ) (h : ∀ x, μ ≤ |b.fn x|) : Err X where
  fn x := a.fn x / b.fn x
  B := a.B / μ
  C := (1 + (a.B + a.C) / (μ / 2)) + (a.C * b.B + a.B * b.C) / (μ / 2 * μ)
  u0 := min (min a.u0 b.u0) (min (μ / (2 * (b.C + 1))) (1 / ((a.B + a.C) / (μ / 2) + 1)))
  hB x := by
    rw [abs_div]
    exact div_le_div₀ a.B0 (a.hB x) hμ (h x)
  B0 := div_nonneg a.B0 hμ.le
  C0 := by have := a.B0; have := b.B0; have := a.C0; have := b.C0; positivity
  u0_pos := by
    have := a.B0
    have := a.C0
    have := b.C0
    have := a.u0_pos
    have := b.u0_pos
    positivity

/-- square root of a function that is at least `μ` -/
def sqrtOf (a : Err X) (μ : ℝ) (hμ : 0 < μ) (h : ∀ x, μ ≤ a.fn x) : Err X where
  fn x := √(a.fn x)
  B := a.B + 1
  C := (1 + (a.B + a.C + 1)) + a.C / √μ
  u0 := min a.u0 (min (μ / (a.C + 1)) (1 / (a.B + a.C + 1)))
  hB x := by
    rw [abs_of_nonneg (Real.sqrt_nonneg _)]
    refine Real.sqrt_le_iff.mpr ⟨by linarith [a.B0], ?_⟩
    have := (le_abs_self _).trans (a.hB x)
    nlinarith [a.B0]
  B0 := by linarith [a.B0]
  C0 := by have := a.B0; have := a.C0; positivity
  u0_pos := by
    have := a.B0
    have := a.C0
    have := a.u0_pos
    positivity

open Classical in
instance instScalarErr : Scalar (Err X) where
  add := add
  sub := sub
  mul := mul
  div a b := if h : NZ b then divBy a b h.choose h.choose_spec.1 h.choose_spec.2 else ofInt 0
  neg := neg
  lit := ofInt
  sqrt a := if h : ∃ μ > 0, ∀ x, μ ≤ a.fn x then sqrtOf a h.choose h.choose_spec.1 h.choose_spec.2 else ofInt 0
  sin _ := ofInt 0
  cos _ := ofInt 0
  pi := ofInt 0
  lt _ _ := false

theorem fn_lit (n : Int) (x : X) : (lit n : Err X).fn x = n := rfl
theorem fn_add (a b : Err X) (x : X) : (a + b).fn x = a.fn x + b.fn x := rfl
theorem fn_sub (a b : Err X) (x : X) : (a - b).fn x = a.fn x - b.fn x := rfl
theorem fn_mul (a b : Err X) (x : X) : (a * b).fn x = a.fn x * b.fn x := rfl
theorem fn_neg (a : Err X) (x : X) : (-a).fn x = -a.fn x := rfl

open Classical in
theorem div_def (a b : Err X) (h : NZ b) : a / b = divBy a b h.choose h.choose_spec.1 h.choose_spec.2 := by
  show (if h : NZ b then _ else _) = _
  rw [dif_pos h]

theorem fn_div (a b : Err X) (h : NZ b) (x : X) : (a / b).fn x = a.fn x / b.fn x := by
  rw [div_def a b h]; rfl

open Classical in
theorem sqrt_def (a : Err X) (h : ∃ μ > 0, ∀ x, μ ≤ a.fn x) :
    Scalar.sqrt a = sqrtOf a h.choose h.choose_spec.1 h.choose_spec.2 := by
  show (if h : ∃ μ > 0, ∀ x, μ ≤ a.fn x then _ else _) = _
  rw [dif_pos h]

theorem fn_sqrt (a : Err X) (h : ∃ μ > 0, ∀ x, μ ≤ a.fn x) (x : X) : (Scalar.sqrt a).fn x = √(a.fn x) := by
  rw [sqrt_def a h]; rfl

theorem nz_lit {n : Int} (h : n ≠ 0) : NZ (lit n : Err X) :=
  ⟨|(n : ℝ)|, abs_pos.mpr (by exact_mod_cast h), fun _ => le_rfl⟩

theorem NZ.mul {a b : Err X} (ha : NZ a) (hb : NZ b) : NZ (a * b) := by
  obtain ⟨μ, h0, h⟩ := ha
  obtain ⟨ν, g0, g⟩ := hb
  refine ⟨μ * ν, mul_pos h0 g0, fun x => ?_⟩
  rw [fn_mul, abs_mul]
  exact mul_le_mul (h x) (g x) g0.le (abs_nonneg _)

theorem NZ.div {a b : Err X} (ha : NZ a) (hb : NZ b) : NZ (a / b) := by
  obtain ⟨μ, h0, h⟩ := ha
  obtain ⟨ν, g0, g⟩ := id hb
  refine ⟨μ / (b.B + 1), div_pos h0 (by linarith [b.B0]), fun x => ?_⟩
  rw [fn_div a b hb, abs_div]
  have := b.hB x
  have := g x
  exact div_le_div₀ (abs_nonneg _) (h x) (by linarith) (by linarith)

theorem sqrt3_pos : ∃ μ > 0, ∀ x, μ ≤ (lit 3 : Err X).fn x := ⟨3, by norm_num, fun x => by rw [fn_lit]; norm_num⟩

theorem nz_sqrt3 : NZ (Scalar.sqrt (lit 3) : Err X) := by
  refine ⟨1, one_pos, fun x => ?_⟩
  rw [fn_sqrt _ sqrt3_pos, fn_lit]
  refine le_abs.mpr (.inl (Real.le_sqrt_of_sq_le (by norm_num)))

/-- a value computed with precision `u` is finite and within the error bound at the input `x` -/
def Tracks {R : Type} (fin : R → Prop) (val : R → ℝ) (u : ℝ) (x : X) (r : R) (a : Err X) : Prop :=
  u ≤ a.u0 → fin r ∧ |val r - a.fn x| ≤ a.C * u

section
variable {R : Type} [Scalar R] {fin : R → Prop} {val : R → ℝ} {u : ℝ} (hR : Machine fin val u) (u1 : u ≤ 1) (x : X)
include hR u1

theorem tracks_le {r : R} {a : Err X} (h : Tracks fin val u x r a) (hu : u ≤ a.u0) : |val r| ≤ a.B + a.C := by
  have h1 := (h hu).2
  have h2 := a.hB x
  have h3 := abs_sub_abs_le_abs_sub (val r) (a.fn x)
  have := mul_le_mul_of_nonneg_left u1 a.C0
  linarith

/-- results that are small enough do not overflow -/
theorem le_range {z b : ℝ} (hz : z ≤ b) (b0 : 0 ≤ b) (hu : u ≤ 1 / (b + 1)) : z ≤ 1 / u := by
  rw [le_div_iff₀ (by positivity)] at hu
  rw [le_div_iff₀ hR.pos]
  nlinarith [hR.pos]

theorem tracks_div {r s : R} {a b : Err X} (h : Tracks fin val u x r a) (g : Tracks fin val u x s b) (hb : NZ b) :
    Tracks fin val u x (r / s) (a / b) := by
  have u0 := hR.pos.le
  rw [div_def a b hb]
  set μ := hb.choose
  have hμ : 0 < μ := hb.choose_spec.1
  have hm := hb.choose_spec.2
  intro hu
  have ua : u ≤ a.u0 := hu.trans ((min_le_left _ _).trans (min_le_left _ _))
  have ub : u ≤ b.u0 := hu.trans ((min_le_left _ _).trans (min_le_right _ _))
  have uc : u ≤ μ / (2 * (b.C + 1)) := hu.trans ((min_le_right _ _).trans (min_le_left _ _))
  have ud : u ≤ 1 / ((a.B + a.C) / (μ / 2) + 1) := hu.trans ((min_le_right _ _).trans (min_le_right _ _))
  have c0 := b.C0
  have d0 := a.C0
  have B0 := a.B0
  rw [le_div_iff₀ (by positivity)] at uc
  have e1 := (h ua).2
  have e2 := (g ub).2
  have b1 := tracks_le hR u1 x h ua
  have hbx := hm x
  have low : μ / 2 ≤ |val s| := by
    have := abs_sub_abs_le_abs_sub (b.fn x) (val s)
    rw [abs_sub_comm] at this
    nlinarith
  have s0 : 0 < |val s| := by linarith
  have sne : val s ≠ 0 := abs_pos.mp s0
  have f0 : 0 < |b.fn x| := by linarith
  have fne : b.fn x ≠ 0 := abs_pos.mp f0
  have q1 : |val r / val s| ≤ (a.B + a.C) / (μ / 2) := by
    rw [abs_div]
    exact div_le_div₀ (by linarith) b1 (by positivity) low
  obtain ⟨fr, r1⟩ := hR.div r s (h ua).1 (g ub).1 sne (le_range hR u1 q1 (by positivity) ud)
  have q2 : |val r / val s - a.fn x / b.fn x| ≤ (a.C * b.B + a.B * b.C) / (μ / 2 * μ) * u := by
    have e : val r / val s - a.fn x / b.fn x =
        ((val r - a.fn x) * b.fn x - a.fn x * (val s - b.fn x)) / (val s * b.fn x) := by
      field_simp
      ring
    rw [e, abs_div, abs_mul, div_mul_eq_mul_div]
    refine div_le_div₀ (by have := b.B0; positivity) ?_ (by positivity)
      (mul_le_mul low hbx hμ.le s0.le)
    refine (abs_sub _ _).trans ?_
    rw [abs_mul, abs_mul]
    have t1 := mul_le_mul e1 (b.hB x) (abs_nonneg _) (mul_nonneg d0 u0)
    have t2 := mul_le_mul (a.hB x) e2 (abs_nonneg _) a.B0
    nlinarith
  refine ⟨fr, ?_⟩
  calc |val (r / s) - a.fn x / b.fn x| ≤ |val (r / s) - val r / val s| + |val r / val s - a.fn x / b.fn x| :=
        abs_sub_le _ _ _
    _ ≤ u * (1 + (a.B + a.C) / (μ / 2)) + (a.C * b.B + a.B * b.C) / (μ / 2 * μ) * u :=
        add_le_add (r1.trans (mul_le_mul_of_nonneg_left (by linarith) u0)) q2
    _ = ((1 + (a.B + a.C) / (μ / 2)) + (a.C * b.B + a.B * b.C) / (μ / 2 * μ)) * u := by ring

theorem tracks_sqrt {r : R} {a : Err X} (h : Tracks fin val u x r a) (ha : ∃ μ > 0, ∀ x, μ ≤ a.fn x) :
    Tracks fin val u x (Scalar.sqrt r) (Scalar.sqrt a) := by
  have u0 := hR.pos.le
  rw [sqrt_def a ha]
  set μ := ha.choose
  have hμ : 0 < μ := ha.choose_spec.1
  have hm := ha.choose_spec.2
  intro hu
  have ua : u ≤ a.u0 := hu.trans (min_le_left _ _)
  have uc : u ≤ μ / (a.C + 1) := hu.trans ((min_le_right _ _).trans (min_le_left _ _))
  have ud : u ≤ 1 / (a.B + a.C + 1) := hu.trans ((min_le_right _ _).trans (min_le_right _ _))
  have d0 := a.C0
  have B0 := a.B0
  rw [le_div_iff₀ (by positivity)] at uc
  have e1 := (h ua).2
  have b1 := tracks_le hR u1 x h ua
  have hx := hm x
  have low : 0 ≤ val r := by
    have := (abs_le.mp e1).1
    nlinarith
  have sμ : 0 < √μ := Real.sqrt_pos.mpr hμ
  have s1 : √μ ≤ √(a.fn x) := Real.sqrt_le_sqrt hx
  have s2 : 0 ≤ √(val r) := Real.sqrt_nonneg _
  have q1 : √(val r) ≤ a.B + a.C + 1 := by
    refine Real.sqrt_le_iff.mpr ⟨by linarith [a.B0], ?_⟩
    have := (le_abs_self _).trans b1
    nlinarith [a.B0]
  have rng : √(val r) ≤ 1 / u := by
    rw [le_div_iff₀ (by positivity)] at ud
    rw [le_div_iff₀ hR.pos]
    nlinarith [hR.pos]
  obtain ⟨fr, r1⟩ := hR.sqrt r (h ua).1 low rng
  have q2 : |√(val r) - √(a.fn x)| ≤ a.C / √μ * u := by
    have e : (√(val r) - √(a.fn x)) * (√(val r) + √(a.fn x)) = val r - a.fn x := by
      have h1 := Real.mul_self_sqrt low
      have h2 := Real.mul_self_sqrt (hμ.le.trans hx)
      nlinarith
    have p0 : 0 < √(val r) + √(a.fn x) := by linarith
    rw [← e, abs_mul, abs_of_pos p0] at e1
    rw [div_mul_eq_mul_div, le_div_iff₀ sμ]
    refine le_trans ?_ e1
    exact mul_le_mul_of_nonneg_left (by linarith) (abs_nonneg _)
  refine ⟨fr, ?_⟩
  calc |val (Scalar.sqrt r) - √(a.fn x)| ≤ |val (Scalar.sqrt r) - √(val r)| + |√(val r) - √(a.fn x)| :=
        abs_sub_le _ _ _
    _ ≤ u * (1 + (a.B + a.C + 1)) + a.C / √μ * u :=
        add_le_add (r1.trans (mul_le_mul_of_nonneg_left (by linarith) u0)) q2
    _ = ((1 + (a.B + a.C + 1)) + a.C / √μ) * u := by ring

theorem scRel_tracks : ScRel (Tracks fin val u x) (NZ (X := X)) where
  nz n h := nz_lit h
  lit n := fun hu => by
    have hu : u ≤ 1 / (|(n : ℝ)| + 1) := hu
    obtain ⟨f, e⟩ := hR.lit n (le_range hR u1 le_rfl (abs_nonneg _) hu)
    refine ⟨f, ?_⟩
    show |val (lit n) - n| ≤ (1 + |(n : ℝ)|) * u
    linarith
  add := by
    intro r a s b h g hu
    have ua : u ≤ a.u0 := hu.trans ((min_le_left _ _).trans (min_le_left _ _))
    have ub : u ≤ b.u0 := hu.trans ((min_le_left _ _).trans (min_le_right _ _))
    have ud : u ≤ 1 / ((a.B + a.C) + (b.B + b.C) + 1) := hu.trans (min_le_right _ _)
    have e1 := (h ua).2
    have e2 := (g ub).2
    have b1 := tracks_le hR u1 x h ua
    have b2 := tracks_le hR u1 x g ub
    have q := (abs_add_le (val r) (val s)).trans (add_le_add b1 b2)
    obtain ⟨fr, r1⟩ := hR.add r s (h ua).1 (g ub).1 (le_range hR u1 q ((abs_nonneg _).trans q) ud)
    have t := mul_le_mul_of_nonneg_left (show 1 + |val r| + |val s| ≤ 1 + (a.B + a.C) + (b.B + b.C) by linarith)
      hR.pos.le
    have e : val (r + s) - (a.fn x + b.fn x) =
        (val (r + s) - (val r + val s)) + ((val r - a.fn x) + (val s - b.fn x)) := by ring
    refine ⟨fr, ?_⟩
    show |val (r + s) - (a.fn x + b.fn x)| ≤ (a.C + b.C + (1 + (a.B + a.C) + (b.B + b.C))) * u
    rw [e]
    have := abs_add_le (val (r + s) - (val r + val s)) ((val r - a.fn x) + (val s - b.fn x))
    have := abs_add_le (val r - a.fn x) (val s - b.fn x)
    nlinarith
  sub := by
    intro r a s b h g hu
    have ua : u ≤ a.u0 := hu.trans ((min_le_left _ _).trans (min_le_left _ _))
    have ub : u ≤ b.u0 := hu.trans ((min_le_left _ _).trans (min_le_right _ _))
    have ud : u ≤ 1 / ((a.B + a.C) + (b.B + b.C) + 1) := hu.trans (min_le_right _ _)
    have e1 := (h ua).2
    have e2 := (g ub).2
    have b1 := tracks_le hR u1 x h ua
    have b2 := tracks_le hR u1 x g ub
    have q := (abs_sub (val r) (val s)).trans (add_le_add b1 b2)
    obtain ⟨fr, r1⟩ := hR.sub r s (h ua).1 (g ub).1 (le_range hR u1 q ((abs_nonneg _).trans q) ud)
    have t := mul_le_mul_of_nonneg_left (show 1 + |val r| + |val s| ≤ 1 + (a.B + a.C) + (b.B + b.C) by linarith)
      hR.pos.le
    have e : val (r - s) - (a.fn x - b.fn x) =
        (val (r - s) - (val r - val s)) + ((val r - a.fn x) - (val s - b.fn x)) := by ring
    refine ⟨fr, ?_⟩
    show |val (r - s) - (a.fn x - b.fn x)| ≤ (a.C + b.C + (1 + (a.B + a.C) + (b.B + b.C))) * u
    rw [e]
    have := abs_add_le (val (r - s) - (val r - val s)) ((val r - a.fn x) - (val s - b.fn x))
    have := abs_sub (val r - a.fn x) (val s - b.fn x)
    nlinarith
  mul := by
    intro r a s b h g hu
    have ua : u ≤ a.u0 := hu.trans ((min_le_left _ _).trans (min_le_left _ _))
    have ub : u ≤ b.u0 := hu.trans ((min_le_left _ _).trans (min_le_right _ _))
    have ud : u ≤ 1 / ((a.B + a.C) * (b.B + b.C) + 1) := hu.trans (min_le_right _ _)
    have u0 := hR.pos.le
    have e1 := (h ua).2
    have e2 := (g ub).2
    have b1 := tracks_le hR u1 x h ua
    have b2 := tracks_le hR u1 x g ub
    have q : |val r * val s| ≤ (a.B + a.C) * (b.B + b.C) := by
      rw [abs_mul]
      exact mul_le_mul b1 b2 (abs_nonneg _) (add_nonneg a.B0 a.C0)
    obtain ⟨fr, r1⟩ := hR.mul r s (h ua).1 (g ub).1 (le_range hR u1 q ((abs_nonneg _).trans q) ud)
    have t := mul_le_mul_of_nonneg_left (show 1 + |val r * val s| ≤ 1 + (a.B + a.C) * (b.B + b.C) by linarith) u0
    have t1 : |(val r - a.fn x) * val s| ≤ a.C * u * (b.B + b.C) := by
      rw [abs_mul]
      exact mul_le_mul e1 b2 (abs_nonneg _) (mul_nonneg a.C0 u0)
    have t2 : |a.fn x * (val s - b.fn x)| ≤ a.B * (b.C * u) := by
      rw [abs_mul]
      exact mul_le_mul (a.hB x) e2 (abs_nonneg _) a.B0
    have e : val (r * s) - a.fn x * b.fn x =
        (val (r * s) - val r * val s) + ((val r - a.fn x) * val s + a.fn x * (val s - b.fn x)) := by ring
    refine ⟨fr, ?_⟩
    show |val (r * s) - a.fn x * b.fn x| ≤
      ((1 + (a.B + a.C) * (b.B + b.C)) + (a.C * (b.B + b.C) + a.B * b.C)) * u
    rw [e]
    have := abs_add_le (val (r * s) - val r * val s) ((val r - a.fn x) * val s + a.fn x * (val s - b.fn x))
    have := abs_add_le ((val r - a.fn x) * val s) (a.fn x * (val s - b.fn x))
    nlinarith
  div := fun h g hb => tracks_div hR u1 x h g hb

theorem tracks_neg {r : R} {a : Err X} (h : Tracks fin val u x r a) : Tracks fin val u x (-r) (-a) := fun hu => by
  have e1 := (h hu).2
  obtain ⟨fr, e⟩ := hR.neg r (h hu).1
  refine ⟨fr, ?_⟩
  show |val (-r) - -a.fn x| ≤ a.C * u
  rw [e, ← abs_neg, show -(-val r - -a.fn x) = val r - a.fn x by ring]
  exact e1

end

/-- the value at `x` -/
def At (x : X) (r : ℝ) (a : Err X) : Prop := r = a.fn x

theorem scRel_at (x : X) : ScRel (At x) (NZ (X := X)) where
  nz n h := nz_lit h
  lit n := rfl
  add := by rintro _ a _ b rfl rfl; rfl
  sub := by rintro _ a _ b rfl rfl; rfl
  mul := by rintro _ a _ b rfl rfl; rfl
  div := by rintro _ a _ b rfl rfl h; exact (fn_div a b h x).symm

end Err
end Refine
end
end Omega
