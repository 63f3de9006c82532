import Verif.Refine.ErrArith

/-!
# Binary floating-point arithmetic

Binary64 and its analogues of higher precision, with gradual underflow, overflow and rounding to nearest with ties to
even, with and without contraction of products and sums to fused multiply-add.  Infinities and NaN are one value
`none`, and zeros have no sign: nothing below depends on what operations on them return.
-/

set_option linter.unusedVariables false

namespace Omega
noncomputable section
open Classical in
/-- the nearest integer, the even one if there are two -/
def roundEven (x : ℝ) : ℤ := if Int.fract x = 1 / 2 then 2 * round (x / 2) else round x

theorem roundEven_err (x : ℝ) : |roundEven x - x| ≤ 1 / 2 := by
  unfold roundEven
  split_ifs with h
  · have hx : x = ⌊x⌋ + 1 / 2 := by rw [← h]; exact (Int.floor_add_fract x).symm
    rcases Int.even_or_odd ⌊x⌋ with ⟨n, hn⟩ | ⟨n, hn⟩
    · have e : round (x / 2) = n := by
        rw [round_eq, Int.floor_eq_iff, hx, hn]
        push_cast
        constructor <;> linarith
      rw [e, hx, hn]
      push_cast
      rw [abs_le]
      constructor <;> linarith
    · have e : round (x / 2) = n + 1 := by
        rw [round_eq, Int.floor_eq_iff, hx, hn]
        push_cast
        constructor <;> linarith
      rw [e, hx, hn]
      push_cast
      rw [abs_le]
      constructor <;> linarith
  · rw [abs_sub_comm]
    exact abs_sub_round x

/-- the tie in the middle of two integers goes to the even one -/
example : roundEven (5 / 2) = 2 ∧ roundEven (7 / 2) = 4 ∧ roundEven (9 / 4) = 2 := by
  have f1 : Int.fract (5 / 2 : ℝ) = 1 / 2 := Int.fract_eq_iff.mpr ⟨by norm_num, by norm_num, 2, by norm_num⟩
  have f2 : Int.fract (7 / 2 : ℝ) = 1 / 2 := Int.fract_eq_iff.mpr ⟨by norm_num, by norm_num, 3, by norm_num⟩
  have f3 : Int.fract (9 / 4 : ℝ) = 1 / 4 := Int.fract_eq_iff.mpr ⟨by norm_num, by norm_num, 2, by norm_num⟩
  have r1 : round (5 / 2 / 2 : ℝ) = 1 := by rw [round_eq, Int.floor_eq_iff]; norm_num
  have r2 : round (7 / 2 / 2 : ℝ) = 2 := by rw [round_eq, Int.floor_eq_iff]; norm_num
  have r3 : round (9 / 4 : ℝ) = 2 := by rw [round_eq, Int.floor_eq_iff]; norm_num
  refine ⟨?_, ?_, ?_⟩ <;> norm_num [roundEven, f1, f2, f3, r1, r2, r3]

/-- exponent of the last place of `x`: `53 + b` significant bits, and not below that of the smallest subnormal -/
def ulpExp (b : ℕ) (x : ℝ) : ℤ := max (Int.log 2 |x| - (52 + b : ℕ)) (-(1074 + b : ℕ))

/-- round to `53 + b` significant bits -/
def rndIeee (b : ℕ) (x : ℝ) : ℝ := (roundEven (x / 2 ^ ulpExp b x) : ℝ) * 2 ^ ulpExp b x

/-- the largest relative error -/
def prec (b : ℕ) : ℝ := 2⁻¹ ^ (53 + b)

/-- numbers of this magnitude overflow -/
def huge (b : ℕ) : ℝ := 2 ^ (1024 + b)

theorem prec_pos (b : ℕ) : 0 < prec b := by unfold prec; positivity

theorem prec_le (b : ℕ) : prec b ≤ 1 / 16 :=
  (pow_le_pow_of_le_one (by norm_num) (by norm_num) (show 4 ≤ 53 + b by omega)).trans (by norm_num)

theorem range_le_huge (b : ℕ) : 1 / (4 * prec b) ≤ huge b / 8 := by
  have : 1 / (4 * prec b) = 2 ^ (51 + b) := by
    rw [prec, show 53 + b = (51 + b) + 2 by omega, pow_add]
    have h : (2⁻¹ : ℝ) ^ (51 + b) = 1 / 2 ^ (51 + b) := by rw [inv_pow, one_div]
    rw [h]
    field_simp
    norm_num
  have h1 : (2 : ℝ) ^ (51 + b + 3) ≤ huge b := pow_le_pow_right₀ (by norm_num) (by omega)
  rw [pow_succ, pow_succ, pow_succ] at h1
  rw [this]
  linarith

theorem huge_ge (b : ℕ) : 16 ≤ huge b :=
  (show (16 : ℝ) = 2 ^ 4 by norm_num).le.trans (pow_le_pow_right₀ (by norm_num) (by omega))

theorem rndIeee_zero (b : ℕ) : rndIeee b 0 = 0 := by
  have : roundEven 0 = 0 := by simp [roundEven]
  simp [rndIeee, this]

theorem rndIeee_err (b : ℕ) (x : ℝ) : |rndIeee b x - x| ≤ prec b * (1 + |x|) := by
  have hp : (0 : ℝ) < 2 ^ ulpExp b x := by positivity
  have h2 : rndIeee b x - x = (roundEven (x / 2 ^ ulpExp b x) - x / 2 ^ ulpExp b x) * 2 ^ ulpExp b x := by
    unfold rndIeee
    field_simp
  rw [h2, abs_mul, abs_of_pos hp]
  refine (mul_le_mul_of_nonneg_right (roundEven_err _) hp.le).trans ?_
  have pow1 : ∀ j : ℕ, (2 : ℝ) ^ (-(j : ℤ)) = 2⁻¹ ^ j := fun j => by rw [zpow_neg, zpow_natCast, inv_pow]
  have le : (2 : ℝ) ^ ulpExp b x ≤ 2⁻¹ ^ (52 + b) * (1 + |x|) := by
    rcases max_choice (Int.log 2 |x| - (52 + b : ℕ)) (-((1074 + b : ℕ) : ℤ)) with e | e
    · rw [ulpExp, e]
      by_cases hx : x = 0
      · subst hx
        rw [abs_zero, Int.log_zero_right, zero_sub, pow1]
        simp
      · have h3 : ((2 : ℕ) : ℝ) ^ Int.log 2 |x| ≤ |x| := Int.zpow_log_le_self (by norm_num) (abs_pos.2 hx)
        push_cast at h3
        rw [sub_eq_add_neg, zpow_add₀ (by norm_num), pow1, mul_comm]
        exact mul_le_mul_of_nonneg_left (by linarith) (by positivity)
    · rw [ulpExp, e, pow1]
      have h3 : (2⁻¹ : ℝ) ^ (1074 + b) ≤ 2⁻¹ ^ (52 + b) :=
        pow_le_pow_of_le_one (by norm_num) (by norm_num) (by omega)
      exact h3.trans (le_mul_of_one_le_right (by positivity) (by linarith [abs_nonneg x]))
  have e53 : prec b = 2⁻¹ ^ (52 + b) * (1 / 2) := by
    rw [prec, show 53 + b = (52 + b) + 1 by omega, pow_succ]; norm_num
  rw [e53]
  nlinarith

/-- A floating-point number: `none`, or its value and the unrounded value that a following addition may use.
With `fma` a product is not rounded before it is added or subtracted. -/
structure Ieee (b : ℕ) (fma : Bool) where
  out : Option (ℝ × ℝ)

namespace Ieee
variable {b : ℕ} {fma : Bool}

open Classical in
/-- round the exact result `x` -/
def ofReal (x : ℝ) : Ieee b fma :=
  ⟨if |rndIeee b x| < huge b then some (rndIeee b x, if fma then x else rndIeee b x) else none⟩

/-- round the exact result `x` without keeping it -/
def ofReal' (x : ℝ) : Ieee b fma := ⟨(ofReal (b := b) (fma := fma) x).out.map fun q => (q.1, q.1)⟩

/-- apply an operation to two numbers -/
def map₂ (f : ℝ × ℝ → ℝ × ℝ → Ieee b fma) (x y : Ieee b fma) : Ieee b fma :=
  match x.out, y.out with
  | some x, some y => f x y
  | _, _ => ⟨none⟩

def map₁ (f : ℝ → Ieee b fma) (x : Ieee b fma) : Ieee b fma :=
  match x.out with
  | some x => f x.1
  | none => ⟨none⟩

open Classical in
instance : Scalar (Ieee b fma) where
  add := map₂ fun x y => ofReal' (x.2 + y.1)
  sub := map₂ fun x y => ofReal' (x.1 - y.2)
  mul := map₂ fun x y => ofReal (x.1 * y.1)
  div := map₂ fun x y => if y.1 = 0 then ⟨none⟩ else ofReal' (x.1 / y.1)
  neg x := ⟨x.out.map fun q => (-q.1, -q.2)⟩
  lit n := ofReal' n
  sqrt := map₁ fun x => if x < 0 then ⟨none⟩ else ofReal' √x
  sin := map₁ fun x => ofReal' (Real.sin x)
  cos := map₁ fun x => ofReal' (Real.cos x)
  pi := ofReal' Real.pi
  lt x y := match x.out, y.out with
    | some x, some y => decide (x.1 < y.1)
    | _, _ => false

/-- the value, which is only meaningful for finite numbers -/
def val (x : Ieee b fma) : ℝ := (x.out.map Prod.fst).getD 0

/-- the unrounded value -/
def ext (x : Ieee b fma) : ℝ := (x.out.map Prod.snd).getD 0

/-- finite numbers -/
structure Fin (x : Ieee b fma) : Prop where
  out : x.out = some (x.val, x.ext)
  ext : |x.ext - x.val| ≤ 2 * prec b * (1 + |x.val|)
  lt : |x.val| < huge b

/-- a number whose unrounded value is the value -/
def num (b : ℕ) (fma : Bool) (x : ℝ) : Ieee b fma := ⟨some (x, x)⟩

@[simp] theorem val_num (x : ℝ) : (num b fma x).val = x := rfl

theorem fin_num {x : ℝ} (h : |x| < huge b) : (num b fma x).Fin :=
  ⟨rfl, by
    show |x - x| ≤ 2 * prec b * (1 + |x|)
    rw [sub_self, abs_zero]
    have := (prec_pos b).le
    positivity, h⟩

theorem rnd_lt {x : ℝ} (h : |x| ≤ huge b / 2) : |rndIeee b x| < huge b := by
  have h1 := rndIeee_err b x
  have h2 := prec_le b
  have h3 := huge_ge b
  have h4 : |rndIeee b x| ≤ |rndIeee b x - x| + |x| := by
    have := abs_add_le (rndIeee b x - x) x
    rwa [sub_add_cancel] at this
  have h5 : prec b * (1 + |x|) ≤ 1 / 16 * (1 + |x|) := mul_le_mul_of_nonneg_right h2 (by positivity)
  linarith

theorem ofReal_fin {x : ℝ} (h : |x| ≤ huge b / 2) :
    (ofReal x : Ieee b fma).Fin ∧ (ofReal x : Ieee b fma).val = rndIeee b x := by
  have lt := rnd_lt h
  have e : (ofReal x : Ieee b fma) = ⟨some (rndIeee b x, if fma then x else rndIeee b x)⟩ := by
    unfold ofReal; rw [if_pos lt]
  rw [e]
  refine ⟨⟨rfl, ?_, lt⟩, rfl⟩
  show |(if fma = true then x else rndIeee b x) - rndIeee b x| ≤ 2 * prec b * (1 + |rndIeee b x|)
  have h0 := prec_pos b
  split_ifs
  · rw [abs_sub_comm]
    have h1 := rndIeee_err b x
    have h2 := prec_le b
    have h4 : |x| ≤ |rndIeee b x - x| + |rndIeee b x| := by
      have := abs_sub_abs_le_abs_sub x (rndIeee b x)
      rw [abs_sub_comm] at this
      linarith
    have h5 : prec b * (1 + |x|) ≤ 1 / 16 * (1 + |x|) := mul_le_mul_of_nonneg_right h2 (by positivity)
    have h6 : |x| ≤ 1 + 2 * |rndIeee b x| := by linarith [abs_nonneg (rndIeee b x)]
    have h7 : prec b * (1 + |x|) ≤ prec b * (2 + 2 * |rndIeee b x|) :=
      mul_le_mul_of_nonneg_left (by linarith) h0.le
    linarith
  · rw [sub_self, abs_zero]
    positivity

theorem ofReal'_fin {x : ℝ} (h : |x| ≤ huge b / 2) :
    (ofReal' x : Ieee b fma).Fin ∧ (ofReal' x : Ieee b fma).val = rndIeee b x := by
  have lt := rnd_lt h
  have e : (ofReal' x : Ieee b fma) = num b fma (rndIeee b x) := by
    unfold ofReal' ofReal num; rw [if_pos lt]; rfl
  rw [e]
  exact ⟨fin_num lt, rfl⟩

theorem map₂_fin {f : ℝ × ℝ → ℝ × ℝ → Ieee b fma} {x y : Ieee b fma} (hx : x.Fin) (hy : y.Fin) :
    map₂ f x y = f (x.val, x.ext) (y.val, y.ext) := by
  unfold map₂; rw [hx.out, hy.out]

theorem le_of_range {x : ℝ} (h : |x| ≤ 1 / (4 * prec b)) : |x| ≤ huge b / 2 := by
  have := range_le_huge b
  have := huge_ge b
  linarith

theorem rnd_le4 (x : ℝ) : |rndIeee b x - x| ≤ 4 * prec b * (1 + |x|) := by
  have h1 := rndIeee_err b x
  have h0 := prec_pos b
  have h2 : 0 ≤ prec b * (1 + |x|) := by positivity
  linarith

/-- a sum of which one term `e` is used instead of `v` -/
theorem sum_err {v e w : ℝ} (he : |e - v| ≤ 2 * prec b * (1 + |v|)) (hv : |v| < huge b)
    (h : |v + w| ≤ 1 / (4 * prec b)) :
    |e + w| ≤ huge b / 2 ∧ |rndIeee b (e + w) - (v + w)| ≤ 4 * prec b * (1 + |v| + |w|) := by
  have h0 := prec_pos b
  have h1 := prec_le b
  have h2 := range_le_huge b
  have h3 := huge_ge b
  have a1 : |e + w| ≤ |e - v| + |v + w| := by
    have := abs_add_le (e - v) (v + w)
    rwa [show e - v + (v + w) = e + w by ring] at this
  have a2 : 2 * prec b * (1 + |v|) ≤ 2 * (1 / 16) * (1 + |v|) :=
    mul_le_mul_of_nonneg_right (by linarith) (by positivity)
  refine ⟨by linarith, ?_⟩
  have a3 := rndIeee_err b (e + w)
  have a4 : |v + w| ≤ |v| + |w| := abs_add_le _ _
  have a5 : |rndIeee b (e + w) - (v + w)| ≤ |rndIeee b (e + w) - (e + w)| + |e - v| := by
    have := abs_add_le (rndIeee b (e + w) - (e + w)) (e - v)
    rwa [show rndIeee b (e + w) - (e + w) + (e - v) = rndIeee b (e + w) - (v + w) by ring] at this
  have a6 : prec b * (1 + |e + w|) ≤ prec b * (2 * (1 + |v| + |w|)) :=
    mul_le_mul_of_nonneg_left (by linarith [abs_nonneg v, abs_nonneg w]) h0.le
  have a7 : prec b * (1 + |v|) ≤ prec b * (1 + |v| + |w|) :=
    mul_le_mul_of_nonneg_left (by linarith [abs_nonneg w]) h0.le
  linarith

/-- These arithmetics satisfy the assumptions on floating-point arithmetic. -/
theorem machine (b : ℕ) (fma : Bool) : Refine.Machine (Fin (b := b) (fma := fma)) val (4 * prec b) where
  pos := by have := prec_pos b; positivity
  zero := by
    have h := ofReal'_fin (b := b) (fma := fma) (x := ((0 : ℤ) : ℝ)) (by
      rw [Int.cast_zero, abs_zero]; have := huge_ge b; linarith)
    refine ⟨h.1, h.2.trans ?_⟩
    rw [Int.cast_zero, rndIeee_zero]
  lit n hn := by
    have h := ofReal'_fin (b := b) (fma := fma) (le_of_range hn)
    refine ⟨h.1, ?_⟩
    show |(ofReal' (n : ℝ) : Ieee b fma).val - n| ≤ _
    rw [h.2]
    exact rnd_le4 _
  add x y hx hy hr := by
    obtain ⟨s1, s2⟩ := sum_err hx.ext hx.lt hr
    have e : x + y = ofReal' (x.ext + y.val) := map₂_fin hx hy
    rw [e]
    have h := ofReal'_fin (b := b) (fma := fma) s1
    refine ⟨h.1, ?_⟩
    rw [h.2]
    exact s2
  sub x y hx hy hr := by
    obtain ⟨s1, s2⟩ := sum_err (b := b) (v := -y.val) (e := -y.ext) (w := x.val)
      (by rw [abs_neg, ← abs_neg (-y.ext - -y.val), show -(-y.ext - -y.val) = y.ext - y.val by ring]; exact hy.ext)
      (by rw [abs_neg]; exact hy.lt) (by rwa [neg_add_eq_sub])
    have e : x - y = ofReal' (x.val - y.ext) := map₂_fin hx hy
    rw [e]
    rw [neg_add_eq_sub] at s1 s2
    have h := ofReal'_fin (b := b) (fma := fma) s1
    refine ⟨h.1, ?_⟩
    rw [h.2]
    rw [neg_add_eq_sub, abs_neg] at s2
    rwa [show 1 + |x.val| + |y.val| = 1 + |y.val| + |x.val| by ring]
  mul x y hx hy hr := by
    have e : x * y = ofReal (x.val * y.val) := map₂_fin hx hy
    rw [e]
    have h := ofReal_fin (b := b) (fma := fma) (le_of_range hr)
    refine ⟨h.1, ?_⟩
    rw [h.2]
    exact rnd_le4 _
  div x y hx hy hy0 hr := by
    have e : x / y = ofReal' (x.val / y.val) := (map₂_fin hx hy).trans (if_neg hy0)
    rw [e]
    have h := ofReal'_fin (b := b) (fma := fma) (le_of_range hr)
    refine ⟨h.1, ?_⟩
    rw [h.2]
    exact rnd_le4 _
  neg x hx := by
    have e : -x = ⟨some (-x.val, -x.ext)⟩ := by
      show (⟨x.out.map fun q => (-q.1, -q.2)⟩ : Ieee b fma) = _
      rw [hx.out]; rfl
    rw [e]
    refine ⟨⟨rfl, ?_, ?_⟩, rfl⟩
    · show |-x.ext - -x.val| ≤ 2 * prec b * (1 + |-x.val|)
      rw [abs_neg, ← abs_neg (-x.ext - -x.val), show -(-x.ext - -x.val) = x.ext - x.val by ring]
      exact hx.ext
    · show |-x.val| < huge b
      rw [abs_neg]; exact hx.lt
  sqrt x hx h0 hr := by
    have e : Scalar.sqrt x = ofReal' √x.val := by
      show map₁ _ x = _
      unfold map₁
      rw [hx.out]
      exact if_neg (not_lt.mpr h0)
    rw [e]
    have h := ofReal'_fin (b := b) (fma := fma) (x := √x.val)
      (le_of_range (by rwa [abs_of_nonneg (Real.sqrt_nonneg _)]))
    refine ⟨h.1, ?_⟩
    rw [h.2]
    have := rnd_le4 (b := b) √x.val
    rwa [abs_of_nonneg (Real.sqrt_nonneg _)] at this
  lt x y hx hy := by
    have e : Scalar.lt x y = (match x.out, y.out with
      | some x, some y => @decide (x.1 < y.1) (Classical.propDecidable _)
      | _, _ => false) := rfl
    rw [e, hx.out, hy.out]
    exact @decide_eq_true_iff _ (Classical.propDecidable _)

end Ieee
end
end Omega
