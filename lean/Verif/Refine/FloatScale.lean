import Verif.Refine.Graded
import Verif.Lib.Ieee
import Mathlib.Algebra.Group.TypeTags.Basic
import Mathlib.Algebra.Group.Int.Units

/-!
# Factors that commute with floating-point operations

Signs, for binary floating-point arithmetic (`Ieee`).  Powers of two, for the same arithmetic with a trap for underflow
(`Trap`): operations whose exact result is not zero and below the smallest normal number have no result.
-/

set_option linter.unusedVariables false
set_option linter.unusedSectionVars false

namespace Omega
noncomputable section
namespace Refine

open Prog Model

/-! ### Signs in binary floating-point arithmetic -/

theorem roundEven_neg (x : ℝ) : roundEven (-x) = -roundEven x := by
  unfold roundEven
  by_cases h : Int.fract x = 1 / 2
  · have hn : Int.fract (-x) = 1 / 2 := by
      rw [Int.fract_neg (by rw [h]; norm_num), h]; norm_num
    rw [if_pos h, if_pos hn]
    have hx : x = ⌊x⌋ + 1 / 2 := by rw [← h]; exact (Int.floor_add_fract x).symm
    rcases Int.even_or_odd ⌊x⌋ with ⟨n, hn⟩ | ⟨n, hn⟩
    · have e : round (x / 2) = n := by
        rw [round_eq, Int.floor_eq_iff, hx, hn]
        push_cast
        constructor <;> linarith
      have e' : round (-x / 2) = -n := by
        rw [round_eq, Int.floor_eq_iff, hx, hn]
        push_cast
        constructor <;> linarith
      rw [e, e']; ring
    · have e : round (x / 2) = n + 1 := by
        rw [round_eq, Int.floor_eq_iff, hx, hn]
        push_cast
        constructor <;> linarith
      have e' : round (-x / 2) = -(n + 1) := by
        rw [round_eq, Int.floor_eq_iff, hx, hn]
        push_cast
        constructor <;> linarith
      rw [e, e']; ring
  · have hn : ¬ Int.fract (-x) = 1 / 2 := fun h' => h (by
      have h0 : Int.fract (-x) ≠ 0 := by rw [h']; norm_num
      have := Int.fract_neg (x := -x) h0
      rw [neg_neg] at this
      rw [this, h']; norm_num)
    rw [if_neg h, if_neg hn]
    have hne : ∀ z : ℤ, x ≠ z + 1 / 2 := fun z hz => h (by
      rw [hz, Int.fract_intCast_add]
      exact Int.fract_eq_self.2 ⟨by norm_num, by norm_num⟩)
    rw [round_eq, round_eq, Int.floor_eq_iff]
    have a := Int.floor_le (x + 1 / 2)
    have b := Int.lt_floor_add_one (x + 1 / 2)
    push_cast
    refine ⟨by linarith, ?_⟩
    have c := hne (⌊x + 1 / 2⌋ - 1)
    push_cast at c
    have : (⌊x + 1 / 2⌋ : ℝ) - 1 + 1 / 2 < x := lt_of_le_of_ne (by linarith) (fun e => c e.symm)
    linarith

theorem rndIeee_neg (b : ℕ) (x : ℝ) : rndIeee b (-x) = -rndIeee b x := by
  unfold rndIeee ulpExp
  rw [abs_neg, neg_div, roundEven_neg]
  push_cast; ring

/-- multiply by a number without rounding -/
def _root_.Omega.Ieee.times {b : ℕ} {fma : Bool} (e : ℝ) (x : Ieee b fma) : Ieee b fma := ⟨x.out.map fun q => (e * q.1, e * q.2)⟩

/-- the sign `+1` or `-1` -/
def sgn (g : Additive ℤˣ) : ℝ := ((g.toMul : ℤ) : ℝ)

section

variable {b : ℕ} {fma : Bool}

theorem ieee_lit0 : (lit 0 : Ieee b fma) = Ieee.num b fma 0 := by
  show (Ieee.ofReal' ((0 : ℤ) : ℝ) : Ieee b fma) = _
  have h : (0 : ℝ) < huge b := by have := huge_ge b; linarith
  simp [Ieee.ofReal', Ieee.ofReal, rndIeee_zero, h, Ieee.num]

theorem sgn_cases (g : Additive ℤˣ) : sgn g = 1 ∨ sgn g = -1 := by
  rcases Int.units_eq_one_or g.toMul with h | h <;> simp [sgn, h]

theorem sgn_add (g h : Additive ℤˣ) : sgn (g + h) = sgn g * sgn h := by simp [sgn]

theorem sgn_sub (g h : Additive ℤˣ) : sgn (g - h) = sgn g * sgn h := by
  simp [sgn, div_eq_mul_inv]

theorem sgn_zero : sgn 0 = 1 := by simp [sgn]

theorem rndIeee_sgn (g : Additive ℤˣ) (x : ℝ) : rndIeee b (sgn g * x) = sgn g * rndIeee b x := by
  rcases sgn_cases g with h | h <;> simp [h, rndIeee_neg]

theorem abs_sgn (g : Additive ℤˣ) (x : ℝ) : |sgn g * x| = |x| := by
  rcases sgn_cases g with h | h <;> simp [h]

theorem ofReal_sgn (g : Additive ℤˣ) (x : ℝ) :
    (Ieee.ofReal (sgn g * x) : Ieee b fma) = (Ieee.ofReal x : Ieee b fma).times (sgn g) := by
  unfold Ieee.ofReal Ieee.times
  rw [rndIeee_sgn, abs_sgn]
  split_ifs <;> rfl

theorem ofReal'_sgn (g : Additive ℤˣ) (x : ℝ) :
    (Ieee.ofReal' (sgn g * x) : Ieee b fma) = (Ieee.ofReal' x : Ieee b fma).times (sgn g) := by
  unfold Ieee.ofReal'
  rw [ofReal_sgn]
  unfold Ieee.times
  cases (Ieee.ofReal x : Ieee b fma).out <;> rfl

/-- Changing signs commutes with the operations of binary floating-point arithmetic: overflow, underflow and fused
operations included. -/
theorem scaleLaws_sgn : ScaleLaws fun (g : Additive ℤˣ) (x y : Ieee b fma) => y = x.times (sgn g) := by
  have m2 : ∀ (f f' : ℝ × ℝ → ℝ × ℝ → Ieee b fma) (x y : Ieee b fma) (e e' e'' : ℝ),
      (∀ p q : ℝ × ℝ, f' (e * p.1, e * p.2) (e' * q.1, e' * q.2) = (f p q).times e'') →
      Ieee.map₂ f' (x.times e) (y.times e') = (Ieee.map₂ f x y).times e'' := by
    rintro f f' ⟨x⟩ ⟨y⟩ e e' e'' h
    cases x <;> cases y <;> first | rfl | exact h _ _
  constructor
  · rintro ⟨x⟩
    simp [Ieee.times, sgn_zero]
  · intro g
    rw [ieee_lit0]
    simp [Ieee.num, Ieee.times]
  · rintro g x x' y y' rfl rfl
    refine m2 _ _ x y _ _ _ fun p q => ?_
    show (Ieee.ofReal' (sgn g * p.2 + sgn g * q.1) : Ieee b fma) = _
    rw [← mul_add]; exact ofReal'_sgn g _
  · rintro g x x' y y' rfl rfl
    refine m2 _ _ x y _ _ _ fun p q => ?_
    show (Ieee.ofReal' (sgn g * p.1 - sgn g * q.2) : Ieee b fma) = _
    rw [← mul_sub]; exact ofReal'_sgn g _
  · rintro g h x x' y y' rfl rfl
    refine m2 _ _ x y _ _ _ fun p q => ?_
    show (Ieee.ofReal (sgn g * p.1 * (sgn h * q.1)) : Ieee b fma) = _
    rw [mul_mul_mul_comm, ← sgn_add]; exact ofReal_sgn (g + h) _
  · rintro g h x x' y y' rfl rfl
    refine m2 _ _ x y _ _ _ fun p q => ?_
    have s0 : sgn h ≠ 0 := by rcases sgn_cases h with e | e <;> rw [e] <;> norm_num
    show (if sgn h * q.1 = 0 then ⟨none⟩ else Ieee.ofReal' (sgn g * p.1 / (sgn h * q.1)) : Ieee b fma) =
      (if q.1 = 0 then ⟨none⟩ else Ieee.ofReal' (p.1 / q.1) : Ieee b fma).times _
    by_cases hq : q.1 = 0
    · rw [if_pos hq, if_pos (by rw [hq, mul_zero])]; rfl
    · rw [if_neg hq, if_neg (mul_ne_zero s0 hq)]
      have : sgn g * p.1 / (sgn h * q.1) = sgn (g - h) * (p.1 / q.1) := by
        rw [sgn_sub]
        rcases sgn_cases h with e | e <;> rw [e] <;> ring
      rw [this]; exact ofReal'_sgn (g - h) _

end


/-! ### Powers of two -/

/-- a multiplication by a power of two, as by `ldexp` with no limit for the exponent -/
def _root_.Omega.Ieee.ldexp {b : ℕ} {fma : Bool} (k : ℤ) (x : Ieee b fma) : Ieee b fma := x.times (2 ^ k)

/-- neither subnormal nor too small to be represented -/
def NormalRange (x : ℝ) : Prop := x = 0 ∨ (2 : ℝ) ^ (-1022 : ℤ) ≤ |x|

theorem log_scale (k : ℤ) {x : ℝ} (hx : x ≠ 0) : Int.log 2 |2 ^ k * x| = k + Int.log 2 |x| := by
  have p := abs_pos.2 hx
  have h2 : (0 : ℝ) < 2 ^ k := by positivity
  have a : ((2 : ℕ) : ℝ) ^ Int.log 2 |x| ≤ |x| := Int.zpow_log_le_self (by norm_num) p
  have c : |x| < ((2 : ℕ) : ℝ) ^ (Int.log 2 |x| + 1) := Int.lt_zpow_succ_log_self (by norm_num) _
  have e : |2 ^ k * x| = 2 ^ k * |x| := by rw [abs_mul, abs_of_pos h2]
  have q : 0 < |2 ^ k * x| := by rw [e]; positivity
  have z : ∀ n : ℤ, ((2 : ℕ) : ℝ) ^ (k + n) = 2 ^ k * ((2 : ℕ) : ℝ) ^ n := fun n => by
    push_cast
    rw [zpow_add₀ (by norm_num)]
  apply le_antisymm
  · have := (Int.lt_zpow_iff_log_lt (b := 2) (by norm_num) (x := k + Int.log 2 |x| + 1) q).1 (by
      rw [e, add_assoc, z]; exact mul_lt_mul_of_pos_left c h2)
    omega
  · exact (Int.zpow_le_iff_le_log (b := 2) (by norm_num) q).1 (by
      rw [e, z]; exact mul_le_mul_of_nonneg_left a h2.le)

theorem rndIeee_scale {b : ℕ} {k : ℤ} {x : ℝ} (h : NormalRange x) (h' : NormalRange (2 ^ k * x)) :
    rndIeee b (2 ^ k * x) = 2 ^ k * rndIeee b x := by
  have h2 : (0 : ℝ) < 2 ^ k := by positivity
  by_cases hx : x = 0
  · rw [hx, mul_zero, rndIeee_zero, mul_zero]
  · have hy : 2 ^ k * x ≠ 0 := mul_ne_zero h2.ne' hx
    have u : ∀ y : ℝ, y ≠ 0 → NormalRange y → ulpExp b y = Int.log 2 |y| - (52 + b : ℕ) := fun y y0 hn => by
      have := (Int.zpow_le_iff_le_log (b := 2) (by norm_num) (abs_pos.2 y0) (x := -1022)).1
        (by push_cast; exact hn.resolve_left y0)
      unfold ulpExp
      apply max_eq_left
      push_cast
      omega
    have e : (2 : ℝ) ^ (k + Int.log 2 |x| - (52 + b : ℕ)) = 2 ^ k * 2 ^ (Int.log 2 |x| - (52 + b : ℕ)) := by
      rw [add_sub_assoc, zpow_add₀ (by norm_num)]
    unfold rndIeee
    rw [u x hx h, u _ hy h', log_scale k hx, e, mul_div_mul_left _ _ h2.ne']
    ring

/-- Binary floating-point arithmetic with traps for overflow, underflow, division by zero and invalid operations: after
a trap there is no result. -/
structure _root_.Omega.Trap (b : ℕ) (fma : Bool) where
  num : Ieee b fma

section

variable {b : ℕ} {fma : Bool}

open Classical in
/-- the result `r` of an operation, if the exact result `x` does not underflow -/
def _root_.Omega.Trap.check (x : ℝ) (r : Ieee b fma) : Trap b fma := ⟨if NormalRange x then r else ⟨none⟩⟩

instance : Scalar (Trap b fma) where
  add x y := .check (x.num.ext + y.num.val) (x.num + y.num)
  sub x y := .check (x.num.val - y.num.ext) (x.num - y.num)
  mul x y := .check (x.num.val * y.num.val) (x.num * y.num)
  div x y := .check (x.num.val / y.num.val) (x.num / y.num)
  neg x := ⟨-x.num⟩
  lit n := ⟨lit n⟩
  sqrt x := .check √x.num.val (Scalar.sqrt x.num)
  sin x := .check (Real.sin x.num.val) (Scalar.sin x.num)
  cos x := .check (Real.cos x.num.val) (Scalar.cos x.num)
  pi := ⟨Scalar.pi⟩
  lt x y := Scalar.lt x.num y.num

theorem check_of {x : ℝ} (h : NormalRange x) (r : Ieee b fma) : Trap.check x r = ⟨r⟩ := congrArg _ (if_pos h)

/-- there was no trap -/
def _root_.Omega.Trap.Ok (x : Trap b fma) : Prop := x.num.out ≠ none

/-- equal up to `2 ^ k`, or after a trap -/
def Pow2 (k : ℤ) (x y : Trap b fma) : Prop := x.Ok → y.Ok → y.num = x.num.ldexp k

theorem check_ok {x : ℝ} {r : Ieee b fma} (h : (Trap.check x r).Ok) :
    NormalRange x ∧ Trap.check x r = ⟨r⟩ ∧ r.out ≠ none := by
  unfold Trap.check at h ⊢
  by_cases hx : NormalRange x
  · rw [if_pos hx] at h ⊢
    exact ⟨hx, rfl, h⟩
  · rw [if_neg hx] at h
    exact absurd rfl h

theorem map₂_some {f : ℝ × ℝ → ℝ × ℝ → Ieee b fma} {x y : Ieee b fma} (h : (Ieee.map₂ f x y).out ≠ none) :
    x.out = some (x.val, x.ext) ∧ y.out = some (y.val, y.ext) ∧ Ieee.map₂ f x y = f (x.val, x.ext) (y.val, y.ext) := by
  obtain ⟨x⟩ := x
  obtain ⟨y⟩ := y
  cases x <;> cases y <;> first | exact ⟨rfl, rfl, rfl⟩ | exact absurd rfl h

theorem out_ext {x y : Ieee b fma} (h : x.out = y.out) : x = y := by cases x; cases y; exact congrArg _ h

theorem ldexp_val {k : ℤ} {x : Ieee b fma} (h : x.out ≠ none) :
    (x.ldexp k).val = 2 ^ k * x.val ∧ (x.ldexp k).ext = 2 ^ k * x.ext ∧ (x.ldexp k).out ≠ none := by
  obtain ⟨x⟩ := x
  cases x with
  | none => exact absurd rfl h
  | some q => exact ⟨rfl, rfl, by simp [Ieee.ldexp, Ieee.times]⟩

theorem ofReal_out {x : ℝ} (h : (Ieee.ofReal x : Ieee b fma).out ≠ none) :
    (Ieee.ofReal x : Ieee b fma).out = some (rndIeee b x, if fma then x else rndIeee b x) := by
  unfold Ieee.ofReal at h ⊢
  by_cases c : |rndIeee b x| < huge b
  · exact if_pos c
  · exact absurd (if_neg c) h

theorem ofReal_scale {k : ℤ} {x : ℝ} (h : NormalRange x) (h' : NormalRange (2 ^ k * x)) (ho : (Ieee.ofReal x : Ieee b fma).out ≠ none)
    (ho' : (Ieee.ofReal (2 ^ k * x) : Ieee b fma).out ≠ none) :
    (Ieee.ofReal (2 ^ k * x) : Ieee b fma) = (Ieee.ofReal x : Ieee b fma).ldexp k := by
  apply out_ext
  unfold Ieee.ldexp Ieee.times
  rw [ofReal_out ho', ofReal_out ho, rndIeee_scale h h']
  cases fma <;> rfl

theorem ofReal'_scale {k : ℤ} {x : ℝ} (h : NormalRange x) (h' : NormalRange (2 ^ k * x)) (ho : (Ieee.ofReal' x : Ieee b fma).out ≠ none)
    (ho' : (Ieee.ofReal' (2 ^ k * x) : Ieee b fma).out ≠ none) :
    (Ieee.ofReal' (2 ^ k * x) : Ieee b fma) = (Ieee.ofReal' x : Ieee b fma).ldexp k := by
  have e : ∀ y, (Ieee.ofReal' y : Ieee b fma).out ≠ none → (Ieee.ofReal y : Ieee b fma).out ≠ none := fun y hy c =>
    hy (by unfold Ieee.ofReal'; rw [c]; rfl)
  have a := e _ ho
  have a' := e _ ho'
  have s := ofReal_scale h h' a a'
  apply out_ext
  unfold Ieee.ofReal' Ieee.ldexp Ieee.times
  rw [s]
  unfold Ieee.ldexp Ieee.times
  rw [ofReal_out a]; rfl

open Classical in
/-- Multiplication by powers of two commutes with the operations as long as there is no trap. -/
theorem scaleLaws_pow2 : ScaleLaws (Pow2 (b := b) (fma := fma)) := by
  have z : ∀ k : ℤ, (2 : ℝ) ^ k ≠ 0 := fun k => by positivity
  have op : ∀ {f : ℝ × ℝ → ℝ × ℝ → Ieee b fma} {F : ℝ × ℝ → ℝ × ℝ → ℝ} {i j l : ℤ} {x x' y y' : Trap b fma},
      Pow2 i x x' → Pow2 j y y' →
      (∀ p q : ℝ × ℝ, NormalRange (F p q) → NormalRange (F (2 ^ i * p.1, 2 ^ i * p.2) (2 ^ j * q.1, 2 ^ j * q.2)) →
        (f p q).out ≠ none → (f (2 ^ i * p.1, 2 ^ i * p.2) (2 ^ j * q.1, 2 ^ j * q.2)).out ≠ none →
        f (2 ^ i * p.1, 2 ^ i * p.2) (2 ^ j * q.1, 2 ^ j * q.2) = (f p q).ldexp l) →
      Pow2 l (Trap.check (F (x.num.val, x.num.ext) (y.num.val, y.num.ext)) (Ieee.map₂ f x.num y.num))
        (Trap.check (F (x'.num.val, x'.num.ext) (y'.num.val, y'.num.ext)) (Ieee.map₂ f x'.num y'.num)) := by
    intro f F i j l x x' y y' hx hy h o o'
    obtain ⟨n, e, r⟩ := check_ok o
    obtain ⟨n', e', r'⟩ := check_ok o'
    obtain ⟨a, c, q⟩ := map₂_some r
    obtain ⟨a', c', q'⟩ := map₂_some r'
    have ex := hx (by unfold Trap.Ok; rw [a]; simp) (by unfold Trap.Ok; rw [a']; simp)
    have ey := hy (by unfold Trap.Ok; rw [c]; simp) (by unfold Trap.Ok; rw [c']; simp)
    obtain ⟨x1, x2, -⟩ := ldexp_val (k := i) (x := x.num) (by rw [a]; simp)
    obtain ⟨y1, y2, -⟩ := ldexp_val (k := j) (x := y.num) (by rw [c]; simp)
    rw [← ex] at x1 x2
    rw [← ey] at y1 y2
    rw [e, e']
    show Ieee.map₂ f x'.num y'.num = (Ieee.map₂ f x.num y.num).ldexp l
    rw [q] at r ⊢
    rw [q', x1, x2, y1, y2] at r'
    rw [q', x1, x2, y1, y2]
    rw [x1, x2, y1, y2] at n'
    exact h (x.num.val, x.num.ext) (y.num.val, y.num.ext) n n' r r'
  constructor
  · intro x o _
    obtain ⟨⟨x⟩⟩ := x
    simp [Ieee.ldexp, Ieee.times]
  · intro k _ _
    show (lit 0 : Ieee b fma) = (lit 0 : Ieee b fma).ldexp k
    rw [ieee_lit0]
    simp [Ieee.num, Ieee.ldexp, Ieee.times]
  · intro k x x' y y' hx hy
    refine op (f := fun p q => Ieee.ofReal' (p.2 + q.1)) (F := fun p q => p.2 + q.1) hx hy fun p q n n' o o' => ?_
    simp only [← mul_add] at n' o' ⊢
    exact ofReal'_scale n n' o o'
  · intro k x x' y y' hx hy
    refine op (f := fun p q => Ieee.ofReal' (p.1 - q.2)) (F := fun p q => p.1 - q.2) hx hy fun p q n n' o o' => ?_
    simp only [← mul_sub] at n' o' ⊢
    exact ofReal'_scale n n' o o'
  · intro k l x x' y y' hx hy
    refine op (f := fun p q => Ieee.ofReal (p.1 * q.1)) (F := fun p q => p.1 * q.1) hx hy fun p q n n' o o' => ?_
    have e : (2 : ℝ) ^ k * p.1 * (2 ^ l * q.1) = 2 ^ (k + l) * (p.1 * q.1) := by
      rw [zpow_add₀ (two_ne_zero (α := ℝ))]; ring
    simp only [e] at n' o' ⊢
    exact ofReal_scale n n' o o'
  · intro k l x x' y y' hx hy
    refine op (f := fun p q => if q.1 = 0 then ⟨none⟩ else Ieee.ofReal' (p.1 / q.1)) (F := fun p q => p.1 / q.1)
      hx hy fun p q n n' o o' => ?_
    by_cases hq : q.1 = 0
    · exact absurd (congrArg Ieee.out (if_pos hq)) o
    · have hq' : (2 : ℝ) ^ l * q.1 ≠ 0 := mul_ne_zero (z l) hq
      have e : (2 : ℝ) ^ k * p.1 / (2 ^ l * q.1) = 2 ^ (k - l) * (p.1 / q.1) := by
        rw [mul_div_mul_comm, zpow_sub₀ (two_ne_zero (α := ℝ))]
      simp only [if_neg hq, if_neg hq', e] at n' o o' ⊢
      exact ofReal'_scale n n' o o'

end

end Refine
end
end Omega
