import Verif.Lib.Scalar
import Verif.Lib.Loop
import Mathlib.Data.Int.Log
import Mathlib.Algebra.Order.Round
import Mathlib.Tactic.Linarith
import Mathlib.Tactic.Positivity
import Mathlib.Tactic.NormNum
import Mathlib.Algebra.Order.BigOperators.Group.Finset

/-!
# Rounded arithmetic

The standard model of floating-point arithmetic, and an instance of it: binary arithmetic with 53
significant bits, rounded to nearest, with unbounded exponents.
-/

namespace Omega
noncomputable section

/-- The operations of `R` are those of the real numbers with relative error at most `u`: the standard
model, for runs without overflow, underflow or NaN. Integers a double can represent are exact. -/
structure Rounded {R : Type} [Scalar R] (val : R → ℝ) (u : ℝ) : Prop where
  nonneg : 0 ≤ u
  add : ∀ a b : R, |val (a + b) - (val a + val b)| ≤ u * |val a + val b|
  sub : ∀ a b : R, |val (a - b) - (val a - val b)| ≤ u * |val a - val b|
  mul : ∀ a b : R, |val (a * b) - val a * val b| ≤ u * |val a * val b|
  div : ∀ a b : R, val b ≠ 0 → |val (a / b) - val a / val b| ≤ u * |val a / val b|
  neg : ∀ a : R, val (-a) = -val a
  sqrt : ∀ a : R, 0 ≤ val a → |val (Scalar.sqrt a) - √(val a)| ≤ u * √(val a)
  lit : ∀ n : Int, |n| < 2 ^ 53 → val (Omega.lit n) = n

namespace Rounded

variable {R : Type} [Scalar R] {val : R → ℝ} {u : ℝ} (hR : Rounded val u)
include hR

theorem add_le (a b : R) : |val (a + b)| ≤ (1 + u) * |val a + val b| := by
  have := hR.add a b
  have := abs_sub_abs_le_abs_sub (val (a + b)) (val a + val b)
  linarith
theorem mul_le (a b : R) : |val (a * b)| ≤ (1 + u) * (|val a| * |val b|) := by
  have h := hR.mul a b
  have := abs_sub_abs_le_abs_sub (val (a * b)) (val a * val b)
  rw [abs_mul] at h this
  linarith
theorem mul_ge (a b : R) : (1 - u) * (|val a| * |val b|) ≤ |val (a * b)| := by
  have h := hR.mul a b
  have := abs_sub_abs_le_abs_sub (val a * val b) (val (a * b))
  rw [abs_sub_comm, abs_mul] at this
  rw [abs_mul] at h
  linarith
theorem div_le (a b : R) (hb : val b ≠ 0) : |val (a / b)| ≤ (1 + u) * (|val a| / |val b|) := by
  have h := hR.div a b hb
  have := abs_sub_abs_le_abs_sub (val (a / b)) (val a / val b)
  rw [abs_div] at h this
  linarith
theorem div_ge (a b : R) (hb : val b ≠ 0) : (1 - u) * (|val a| / |val b|) ≤ |val (a / b)| := by
  have h := hR.div a b hb
  have := abs_sub_abs_le_abs_sub (val a / val b) (val (a / b))
  rw [abs_sub_comm, abs_div] at this
  rw [abs_div] at h
  linarith

end Rounded

/-! ### Accumulated relative errors -/

/-- `x` is `y` after `n` roundings -/
def Near (u : ℝ) (n : ℕ) (x y : ℝ) : Prop := |x - y| ≤ ((1 + u) ^ n - 1) * |y|

theorem near_refl (u x : ℝ) : Near u 0 x x := by simp [Near]

theorem Near.le {u : ℝ} {n : ℕ} {x y : ℝ} (h : Near u n x y) : |x| ≤ (1 + u) ^ n * |y| := by
  have h' : |x - y| ≤ ((1 + u) ^ n - 1) * |y| := h
  have := abs_sub_abs_le_abs_sub x y
  linarith

theorem Near.mul {u : ℝ} (hu : 0 ≤ u) {n m : ℕ} {x y x' y' z : ℝ} (h : Near u n x y) (h' : Near u m x' y')
    (hz : |z - x * x'| ≤ u * |x * x'|) : Near u (n + m + 1) z (y * y') := by
  have a := h.le
  have b := h'.le
  unfold Near at h h' ⊢
  have hU : (1 : ℝ) ≤ 1 + u := by linarith
  have hn := one_le_pow₀ hU (n := n)
  have hm := one_le_pow₀ hU (n := m)
  have e : z - y * y' = (z - x * x') + ((x - y) * x' + y * (x' - y')) := by ring
  have t1 : |(x - y) * x'| ≤ ((1 + u) ^ n - 1) * |y| * ((1 + u) ^ m * |y'|) := by
    rw [abs_mul]
    exact mul_le_mul h b (abs_nonneg _) (mul_nonneg (by linarith) (abs_nonneg _))
  have t2 : |y * (x' - y')| ≤ |y| * (((1 + u) ^ m - 1) * |y'|) := by
    rw [abs_mul]
    exact mul_le_mul_of_nonneg_left h' (abs_nonneg _)
  have t3 : |x * x'| ≤ (1 + u) ^ n * |y| * ((1 + u) ^ m * |y'|) := by
    rw [abs_mul]
    exact mul_le_mul a b (abs_nonneg _) (mul_nonneg (by linarith) (abs_nonneg _))
  have t4 := hz.trans (mul_le_mul_of_nonneg_left t3 hu)
  calc |z - y * y'| ≤ |z - x * x'| + (|(x - y) * x'| + |y * (x' - y')|) := by
        rw [e]; exact (abs_add_le _ _).trans (add_le_add le_rfl (abs_add_le _ _))
    _ ≤ u * ((1 + u) ^ n * |y| * ((1 + u) ^ m * |y'|)) + (((1 + u) ^ n - 1) * |y| * ((1 + u) ^ m * |y'|) +
        |y| * (((1 + u) ^ m - 1) * |y'|)) := add_le_add t4 (add_le_add t1 t2)
    _ = ((1 + u) ^ (n + m + 1) - 1) * |y * y'| := by rw [abs_mul, pow_succ, pow_add]; ring

/-- the loop `accum = accum - p(j)` -/
theorem fold_sub {R : Type} [Scalar R] {val : R → ℝ} {u : ℝ} (hR : Rounded val u) {m : ℕ} {p : Int → R}
    {q : Int → ℝ} (n : ℕ) (hp : ∀ j : ℕ, j < n → Near u m (val (p j)) (q j)) :
    |val (foldI (n : Int) (lit 0) fun j s => s - p j) + ∑ j ∈ Finset.range n, q j| ≤
      ((1 + u) ^ (n + m) - 1) * ∑ j ∈ Finset.range n, |q j| := by
  have hu := hR.nonneg
  have hU : (1 : ℝ) ≤ 1 + u := by linarith
  induction n with
  | zero =>
    have : foldI ((0 : ℕ) : Int) (lit 0 : R) (fun j s => s - p j) = lit 0 := by
      simp [foldI, foldFrom]
    rw [this, hR.lit 0 (by norm_num)]
    simp
  | succ n ih =>
    have ih := ih fun j hj => hp j (by omega)
    have hs : foldI ((n + 1 : ℕ) : Int) (lit 0 : R) (fun j s => s - p j) =
        foldI (n : Int) (lit 0) (fun j s => s - p j) - p n := by
      unfold foldI
      rw [Int.toNat_natCast, Int.toNat_natCast, foldFrom_succ_last, zero_add]
    rw [hs, Finset.sum_range_succ, Finset.sum_range_succ]
    set s := foldI (n : Int) (lit 0 : R) fun j s => s - p j
    set A := ∑ j ∈ Finset.range n, q j
    set Q := ∑ j ∈ Finset.range n, |q j|
    have hA : |A| ≤ Q := Finset.abs_sum_le_sum_abs _ _
    have hQ : 0 ≤ Q := Finset.sum_nonneg fun _ _ => abs_nonneg _
    have hpn := hp n (by omega)
    have hpl := hpn.le
    have hpn' : |val (p n) - q n| ≤ ((1 + u) ^ m - 1) * |q n| := hpn
    have b1 := hR.sub s (p n)
    have hm := one_le_pow₀ hU (n := m)
    have hnm := one_le_pow₀ hU (n := n + m)
    have hs' : |val s| ≤ (1 + u) ^ (n + m) * Q := by
      have := abs_sub_abs_le_abs_sub (val s) (-A)
      rw [sub_neg_eq_add, abs_neg] at this
      nlinarith
    have b2 : |val s - val (p n)| ≤ (1 + u) ^ (n + m) * Q + (1 + u) ^ m * |q n| :=
      (abs_sub _ _).trans (add_le_add hs' hpl)
    have e : val (s - p n) + (A + q n) =
        (val (s - p n) - (val s - val (p n))) + ((val s + A) - (val (p n) - q n)) := by ring
    have hle : (1 + u) ^ m ≤ (1 + u) ^ (n + m) := pow_le_pow_right₀ hU (by omega)
    calc |val (s - p n) + (A + q n)| ≤ u * ((1 + u) ^ (n + m) * Q + (1 + u) ^ m * |q n|) +
          (((1 + u) ^ (n + m) - 1) * Q + ((1 + u) ^ m - 1) * |q n|) := by
          rw [e]
          refine (abs_add_le _ _).trans (add_le_add (b1.trans (mul_le_mul_of_nonneg_left b2 hu)) ?_)
          exact (abs_sub _ _).trans (add_le_add ih hpn')
      _ ≤ ((1 + u) ^ (n + 1 + m) - 1) * (Q + |q n|) := by
          rw [show n + 1 + m = (n + m) + 1 by omega, pow_succ]
          have := mul_le_mul_of_nonneg_right hle (abs_nonneg (q n))
          nlinarith [mul_nonneg hu (abs_nonneg (q n)), mul_le_mul_of_nonneg_left this hu]

/-- a few roundings of a small unit -/
theorem pow_unit {u : ℝ} (h0 : 0 ≤ u) (h1 : u ≤ 1 / 1000) {n : ℕ} (hn : n ≤ 20) :
    (1 + u) ^ n ≤ 1 + 51 / 50 * n * u := by
  induction n with
  | zero => simp
  | succ n ih =>
    have ih := ih (by omega)
    have hn' : (n : ℝ) ≤ 19 := by exact_mod_cast (by omega : n ≤ 19)
    have : (1 + u) ^ n * (1 + u) ≤ (1 + 51 / 50 * n * u) * (1 + u) :=
      mul_le_mul_of_nonneg_right ih (by linarith)
    rw [pow_succ]
    push_cast
    have hnu : (n : ℝ) * u ≤ 19 / 1000 := by nlinarith
    nlinarith [mul_nonneg (Nat.cast_nonneg (α := ℝ) n) h0]

/-! ### Binary floating point with 53 bits -/

/-- round to the nearest number with 53 significant bits -/
def rnd (x : ℝ) : ℝ :=
  if x = 0 then 0 else (round (x / 2 ^ (Int.log 2 |x| - 52)) : ℝ) * 2 ^ (Int.log 2 |x| - 52)

theorem rnd_err (x : ℝ) : |rnd x - x| ≤ 2⁻¹ ^ 53 * |x| := by
  unfold rnd
  split_ifs with h
  · simp [h]
  · set e := Int.log 2 |x| - 52 with he
    have hp : (0 : ℝ) < 2 ^ e := by positivity
    have h1 := abs_sub_round (x / 2 ^ e)
    have h2 : (round (x / 2 ^ e) : ℝ) * 2 ^ e - x = -(x / 2 ^ e - round (x / 2 ^ e)) * 2 ^ e := by
      field_simp
      ring
    rw [h2, abs_mul, abs_neg, abs_of_pos hp]
    have h3 : ((2 : ℕ) : ℝ) ^ Int.log 2 |x| ≤ |x| := Int.zpow_log_le_self (by norm_num) (abs_pos.2 h)
    have h4 : (2 : ℝ) ^ e = 2 ^ Int.log 2 |x| * 2⁻¹ ^ 52 := by
      rw [he, zpow_sub₀ (by norm_num), div_eq_mul_inv]
      norm_num
    push_cast at h3
    have h5 := mul_le_mul_of_nonneg_right h1 hp.le
    refine h5.trans ?_
    rw [h4]
    have h6 := mul_le_mul_of_nonneg_right h3 (by positivity : (0 : ℝ) ≤ 2⁻¹ ^ 52 / 2)
    calc (1 : ℝ) / 2 * (2 ^ Int.log 2 |x| * 2⁻¹ ^ 52) = 2 ^ Int.log 2 |x| * (2⁻¹ ^ 52 / 2) := by ring
      _ ≤ _ := h6
      _ = 2⁻¹ ^ 53 * |x| := by ring

theorem rnd_int {n : ℤ} (hn : |n| < 2 ^ 53) : rnd n = n := by
  unfold rnd
  split_ifs with h
  · exact h.symm
  · have hn0 : n ≠ 0 := by exact_mod_cast h
    have hl : Int.log 2 |(n : ℝ)| < 53 := by
      have h3 : ((2 : ℕ) : ℝ) ^ Int.log 2 |(n : ℝ)| ≤ |(n : ℝ)| :=
        Int.zpow_log_le_self (by norm_num) (abs_pos.2 h)
      have h4 : |(n : ℝ)| < (2 : ℝ) ^ (53 : ℤ) := by exact_mod_cast hn
      push_cast at h3
      exact (zpow_lt_zpow_iff_right₀ (by norm_num : (1 : ℝ) < 2)).1 (h3.trans_lt h4)
    obtain ⟨j, hj⟩ : ∃ j : ℕ, Int.log 2 |(n : ℝ)| - 52 = -(j : ℤ) :=
      ⟨(52 - Int.log 2 |(n : ℝ)|).toNat, by omega⟩
    rw [hj]
    have : (n : ℝ) / 2 ^ (-(j : ℤ)) = ((n * 2 ^ j : ℤ) : ℝ) := by
      push_cast
      rw [zpow_neg, zpow_natCast, div_inv_eq_mul]
    rw [this, round_intCast]
    push_cast
    rw [zpow_neg, zpow_natCast, mul_assoc, mul_inv_cancel₀ (by positivity), mul_one]

/-- double precision with unbounded exponent -/
structure Fl where
  val : ℝ

instance instScalarFl : Scalar Fl where
  add x y := ⟨rnd (x.val + y.val)⟩
  sub x y := ⟨rnd (x.val - y.val)⟩
  mul x y := ⟨rnd (x.val * y.val)⟩
  div x y := ⟨rnd (x.val / y.val)⟩
  neg x := ⟨-x.val⟩
  lit n := ⟨rnd n⟩
  sqrt x := ⟨rnd √x.val⟩
  sin x := ⟨rnd (Real.sin x.val)⟩
  cos x := ⟨rnd (Real.cos x.val)⟩
  pi := ⟨rnd Real.pi⟩
  lt x y := @decide (x.val < y.val) (Classical.dec _)

theorem fl_rounded : Rounded Fl.val (2⁻¹ ^ 53) where
  nonneg := by norm_num
  add a b := rnd_err _
  sub a b := rnd_err _
  mul a b := rnd_err _
  div a b _ := rnd_err _
  neg a := rfl
  sqrt a h := by
    have := rnd_err √a.val
    rwa [abs_of_nonneg (Real.sqrt_nonneg _)] at this
  lit n h := rnd_int h

end
end Omega
