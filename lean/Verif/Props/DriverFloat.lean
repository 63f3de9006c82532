import Verif.Model.DriverFloat
import Verif.Props.RestFloat
import Verif.Props.Cases

/-!
# C113: step counts, steps, rows and padded layers as computed in floating point
-/

set_option linter.unusedVariables false

namespace Omega
noncomputable section
namespace Props

open Model

variable {b : ℕ}

theorem roundEven_le {x : ℝ} {M : ℤ} (h : x ≤ M) : roundEven x ≤ M := by
  by_contra hc
  have h1 : M + 1 ≤ roundEven x := by omega
  have h2 : (M : ℝ) + 1 ≤ roundEven x := by exact_mod_cast h1
  have := (abs_le.1 (roundEven_err x)).2
  linarith

theorem le_roundEven {x : ℝ} {M : ℤ} (h : (M : ℝ) ≤ x) : M ≤ roundEven x := by
  by_contra hc
  have h1 : roundEven x ≤ M - 1 := by omega
  have h2 : (roundEven x : ℝ) ≤ M - 1 := by exact_mod_cast h1
  have := (abs_le.1 (roundEven_err x)).1
  linarith

/-- a multiple of the last place of `x` is on the same side of `x` and of its rounded value -/
theorem rnd_side {x : ℝ} {z e : ℤ} (he : ulpExp b x ≤ e) :
    (x ≤ z * 2 ^ e → rndIeee b x ≤ z * 2 ^ e) ∧ ((z : ℝ) * 2 ^ e ≤ x → z * 2 ^ e ≤ rndIeee b x) := by
  obtain ⟨n, hn⟩ := Int.eq_ofNat_of_zero_le (sub_nonneg.2 he)
  have h2 : (0 : ℝ) < 2 ^ ulpExp b x := by positivity
  have key : (z : ℝ) * 2 ^ e = ((z * 2 ^ n : ℤ) : ℝ) * 2 ^ ulpExp b x := by
    rw [show e = n + ulpExp b x by omega, zpow_add₀ (by norm_num), zpow_natCast]
    push_cast
    ring
  rw [key]
  constructor
  · intro h
    have h' := roundEven_le (M := z * 2 ^ n) ((div_le_iff₀ h2).2 h)
    exact mul_le_mul_of_nonneg_right (by exact_mod_cast h') h2.le
  · intro h
    have h' := le_roundEven (M := z * 2 ^ n) ((le_div_iff₀ h2).2 h)
    exact mul_le_mul_of_nonneg_right (by exact_mod_cast h') h2.le

/-- last places of numbers below `2 ^ 53` are at most one -/
theorem ulp_small {x : ℝ} (hx : 0 < x) (h : x < 2 ^ 53) : ulpExp b x ≤ 0 := by
  have hl : Int.log 2 |x| < 53 := by
    rw [abs_of_pos hx, ← Int.lt_zpow_iff_log_lt (by norm_num) hx]
    push_cast
    exact_mod_cast h
  unfold ulpExp
  have : ((52 + b : ℕ) : ℤ) = 52 + b := by push_cast; ring
  refine max_le (by omega) (by omega)

theorem rnd_le_int {x : ℝ} {N : ℤ} (hx : 0 < x) (h : x ≤ N) (hN : N < 2 ^ 53) : rndIeee b x ≤ N := by
  have hN' : (N : ℝ) < 2 ^ 53 := by exact_mod_cast hN
  simpa using (rnd_side (b := b) (z := N) (e := 0) (ulp_small hx (by linarith))).1 (by simpa using h)

theorem int_le_rnd {x : ℝ} {N : ℤ} (hx : 0 < x) (h : (N : ℝ) ≤ x) (hN : x < 2 ^ 53) :
    N ≤ rndIeee b x := by
  simpa using (rnd_side (b := b) (z := N) (e := 0) (ulp_small hx hN)).2 (by simpa using h)

theorem rnd_int {N : ℤ} (hx : 0 < N) (h : N < 2 ^ 53) : rndIeee b N = N := by
  have hx' : (0 : ℝ) < N := by exact_mod_cast hx
  have h' : (N : ℝ) < 2 ^ 53 := by exact_mod_cast h
  exact le_antisymm (rnd_le_int hx' le_rfl h) (int_le_rnd hx' le_rfl h')

/-- relative error of numbers that are not subnormal -/
theorem rnd_rel {x : ℝ} (h : (2 : ℝ) ^ (-1022 : ℤ) ≤ x) : |rndIeee b x - x| ≤ prec b * x := by
  have hx : 0 < x := lt_of_lt_of_le (by positivity) h
  have hl : -1022 ≤ Int.log 2 |x| := by
    rw [abs_of_pos hx, ← Int.zpow_le_iff_le_log (by norm_num) hx]
    exact_mod_cast h
  have he : ulpExp b x = Int.log 2 |x| - (52 + b : ℕ) := by
    unfold ulpExp
    refine max_eq_left ?_
    have : ((52 + b : ℕ) : ℤ) = 52 + b := by push_cast; ring
    have : ((1074 + b : ℕ) : ℤ) = 1074 + b := by push_cast; ring
    omega
  have hp : (0 : ℝ) < 2 ^ ulpExp b x := by positivity
  have h2 : rndIeee b x - x = (roundEven (x / 2 ^ ulpExp b x) - x / 2 ^ ulpExp b x) * 2 ^ ulpExp b x := by
    unfold rndIeee
    field_simp
  rw [h2, abs_mul, abs_of_pos hp]
  refine (mul_le_mul_of_nonneg_right (roundEven_err _) hp.le).trans ?_
  have h3 : ((2 : ℕ) : ℝ) ^ Int.log 2 |x| ≤ x := by
    rw [abs_of_pos hx]; exact Int.zpow_log_le_self (by norm_num) hx
  push_cast at h3
  have e53 : prec b = 1 / 2 * 2⁻¹ ^ (52 + b) := by
    rw [prec, show 53 + b = (52 + b) + 1 by omega, pow_succ]; ring
  have hz : (2 : ℝ) ^ ulpExp b x = 2⁻¹ ^ (52 + b) * 2 ^ Int.log 2 |x| := by
    rw [he, sub_eq_add_neg, zpow_add₀ (by norm_num), zpow_neg, zpow_natCast, inv_pow, mul_comm]
  rw [e53, hz]
  have : (0 : ℝ) < 2⁻¹ ^ (52 + b) := by positivity
  nlinarith

/-- rounding to a stored upper bound -/
theorem rnd_le_stored {x y : ℝ} (hx : 0 < x) (h : x ≤ y) (hy : rndIeee b y = y) : rndIeee b x ≤ y := by
  have hu : ulpExp b x ≤ ulpExp b y := by
    unfold ulpExp
    refine max_le_max (sub_le_sub_right ?_ _) le_rfl
    rw [abs_of_pos hx, abs_of_pos (hx.trans_le h)]
    exact Int.log_mono_right hx h
  have := (rnd_side (b := b) (x := x) (z := roundEven (y / 2 ^ ulpExp b y)) hu).1
  rw [show (roundEven (y / 2 ^ ulpExp b y) : ℝ) * 2 ^ ulpExp b y = y from hy] at this
  exact this h

/-! ### The property -/

/-- The number of steps computed by the drivers is the exact one or one less, is at least one and fits
into `Int`.  The step is positive and exceeds the requested one by at most one or two units in the last
place, and not at all if the number of steps is the exact one.  The steps add up to the end time, and
each step is called with its own time, up to rounding. -/
theorem C113_driver_steps {timeend dt : ℝ} (hT : 0 < timeend) (hdt : 0 < dt)
    (hlo : (2 : ℝ) ^ (-1022 : ℤ) ≤ timeend / dt) (hhi : timeend / dt ≤ 2147483647)
    (hstep : (2 : ℝ) ^ (-1021 : ℤ) ≤ timeend / fSteps b timeend dt) :
    (fSteps b timeend dt = numberofsteps timeend dt ∨
      fSteps b timeend dt = numberofsteps timeend dt - 1) ∧
    1 ≤ fSteps b timeend dt ∧ fSteps b timeend dt ≤ 2147483647 ∧
    0 < fStep b timeend dt ∧ (1 - prec b) * fStep b timeend dt ≤ (1 + prec b) * dt ∧
    (rndIeee b dt = dt → fSteps b timeend dt = numberofsteps timeend dt → fStep b timeend dt ≤ dt) ∧
    |fSteps b timeend dt * fStep b timeend dt - timeend| ≤ prec b * timeend ∧
    ∀ k : ℕ, |fTime b timeend dt k - k * (timeend / fSteps b timeend dt)| ≤
      (2 * prec b + prec b ^ 2) * (k * (timeend / fSteps b timeend dt)) := by
  have hu := prec_pos b
  have hu1 := prec_le b
  set x := timeend / dt with hx
  have hx0 : 0 < x := div_pos hT hdt
  set N := numberofsteps timeend dt with hN
  have hNx : x ≤ N := Int.le_ceil x
  have hNlt : (N : ℝ) < x + 1 := Int.ceil_lt_add_one x
  have hNb : N ≤ 2147483647 := Int.ceil_le.2 (by exact_mod_cast hhi)
  have hup : rndIeee b x ≤ N := rnd_le_int hx0 hNx (by norm_num; omega)
  have hdn : ((N - 1 : ℤ) : ℝ) ≤ rndIeee b x :=
    int_le_rnd hx0 (by push_cast; linarith) (by norm_num; linarith)
  have hrel := abs_le.1 (rnd_rel (b := b) hlo)
  have hrp : 0 < rndIeee b x := by nlinarith
  set n := fSteps b timeend dt with hn
  have hnN : n ≤ N := Int.ceil_le.2 hup
  have hnN' : N - 1 ≤ n := by
    have : ((N - 1 : ℤ) : ℝ) ≤ n := hdn.trans (Int.le_ceil _)
    exact_mod_cast this
  have hn1 : 1 ≤ n := Int.ceil_pos.2 hrp
  have hnr : (1 : ℝ) ≤ n := by exact_mod_cast hn1
  have hn0 : (0 : ℝ) < n := by linarith
  have hxn : (1 - prec b) * x ≤ n := by
    have : rndIeee b x ≤ n := Int.le_ceil _
    linarith
  have h22 : (2 : ℝ) ^ (-1021 : ℤ) = 2 * 2 ^ (-1022 : ℤ) := by
    rw [show (-1021 : ℤ) = 1 + -1022 by norm_num, zpow_add₀ (by norm_num), zpow_one]
  have h22p : (0 : ℝ) < 2 ^ (-1022 : ℤ) := by positivity
  set y := timeend / (n : ℝ) with hy
  have hy0 : 0 < y := div_pos hT hn0
  have hrely := abs_le.1 (rnd_rel (b := b) (x := y) (by linarith))
  have hs : fStep b timeend dt = rndIeee b y := rfl
  have hyT : n * y = timeend := by rw [hy]; field_simp
  have hxT : x * dt = timeend := by rw [hx]; field_simp
  have hs0 : 0 < rndIeee b y := by nlinarith
  refine ⟨by omega, hn1, by omega, by rw [hs]; exact hs0, ?_, ?_, ?_, ?_⟩
  · rw [hs]
    have h1 : (1 - prec b) * y ≤ dt := by
      have : (1 - prec b) * (x * dt) ≤ n * dt := by nlinarith
      rw [hxT, ← hyT] at this
      have : n * ((1 - prec b) * y) ≤ n * dt := by linarith
      exact le_of_mul_le_mul_left this hn0
    have h2 : rndIeee b y ≤ (1 + prec b) * y := by linarith
    calc (1 - prec b) * rndIeee b y ≤ (1 - prec b) * ((1 + prec b) * y) :=
          mul_le_mul_of_nonneg_left h2 (by linarith)
      _ = (1 + prec b) * ((1 - prec b) * y) := by ring
      _ ≤ _ := mul_le_mul_of_nonneg_left h1 (by linarith)
  · intro hd e
    rw [hs]
    refine rnd_le_stored hy0 ?_ hd
    rw [hy, div_le_iff₀ hn0, e, ← hxT, mul_comm]
    exact mul_le_mul_of_nonneg_left hNx hdt.le
  · rw [hs]
    have : n * rndIeee b y - timeend = n * (rndIeee b y - y) := by rw [mul_sub, hyT]
    rw [this, abs_mul, abs_of_pos hn0]
    calc n * |rndIeee b y - y| ≤ n * (prec b * y) :=
          mul_le_mul_of_nonneg_left (abs_le.2 hrely) hn0.le
      _ = prec b * timeend := by rw [← hyT]; ring
  · intro k
    unfold fTime
    rw [hs]
    rcases Nat.eq_zero_or_pos k with rfl | hk
    · simp [rndIeee_zero]
    have hk1 : (1 : ℝ) ≤ k := by exact_mod_cast hk
    have hsl : (2 : ℝ) ^ (-1022 : ℤ) ≤ rndIeee b y := by nlinarith
    have hr := abs_le.1 (rnd_rel (b := b) (x := k * rndIeee b y) (by nlinarith))
    rw [abs_le]
    have a1 : k * rndIeee b y ≤ k * ((1 + prec b) * y) :=
      mul_le_mul_of_nonneg_left (by linarith) (by linarith)
    have a2 : k * ((1 - prec b) * y) ≤ k * rndIeee b y :=
      mul_le_mul_of_nonneg_left (by linarith) (by linarith)
    have hky : 0 < (k : ℝ) * y := by positivity
    constructor
    · have h1 : (1 - prec b) * (k * ((1 - prec b) * y)) ≤ (1 - prec b) * (k * rndIeee b y) :=
        mul_le_mul_of_nonneg_left a2 (by linarith)
      nlinarith [mul_pos (mul_pos hu hu) hky]
    · have h1 : (1 + prec b) * (k * rndIeee b y) ≤ (1 + prec b) * (k * ((1 + prec b) * y)) :=
        mul_le_mul_of_nonneg_left a1 (by linarith)
      nlinarith

/-- a run of ten hours in steps of at most 700 s -/
example : (0 : ℝ) < 36000 ∧ (0 : ℝ) < 700 ∧ (2 : ℝ) ^ (-1022 : ℤ) ≤ 36000 / 700 ∧
    (36000 : ℝ) / 700 ≤ 2147483647 ∧ fSteps 0 36000 700 = 52 ∧
    (2 : ℝ) ^ (-1021 : ℤ) ≤ 36000 / (fSteps 0 36000 700 : ℝ) := by
  have p1 : (2 : ℝ) ^ (-1022 : ℤ) ≤ 1 := zpow_le_one_of_nonpos₀ (by norm_num) (by norm_num)
  have p2 : (2 : ℝ) ^ (-1021 : ℤ) ≤ 1 := zpow_le_one_of_nonpos₀ (by norm_num) (by norm_num)
  have h0 : (2 : ℝ) ^ (-1022 : ℤ) ≤ 36000 / 700 := p1.trans (by norm_num)
  have hr := abs_le.1 (rnd_rel (b := 0) h0)
  have hu := prec_pos 0
  have hp : prec 0 ≤ 1 / 1024 := by
    unfold prec
    calc (2⁻¹ : ℝ) ^ (53 + 0) ≤ 2⁻¹ ^ 10 := pow_le_pow_of_le_one (by norm_num) (by norm_num) (by norm_num)
      _ = _ := by norm_num
  have h5 : fSteps 0 36000 700 = 52 := by
    unfold fSteps
    rw [Int.ceil_eq_iff]
    push_cast
    constructor <;> linarith
  refine ⟨by norm_num, by norm_num, h0, by norm_num, h5, ?_⟩
  rw [h5]
  exact p2.trans (by norm_num)

/-- In double precision the step can exceed the requested one (by one unit in the last place), because
the quotient was rounded down to a whole number: exactly there would be six steps, the code takes
five. -/
theorem C113_step_can_exceed : ∃ timeend dt : ℝ, 0 < timeend ∧ 0 < dt ∧ rndIeee 0 timeend = timeend ∧
    rndIeee 0 dt = dt ∧ numberofsteps timeend dt = 6 ∧ fSteps 0 timeend dt = 5 ∧
    dt < fStep 0 timeend dt := by
  have hT : Int.log 2 |(5 * 2 ^ 53 - 32 : ℝ)| = 55 := by
    rw [abs_of_pos (by norm_num)]
    have h1 := (Int.zpow_le_iff_le_log (b := 2) (by norm_num) (x := 55)
      (r := (5 * 2 ^ 53 - 32 : ℝ)) (by norm_num)).1 (by norm_num)
    have h2 := (Int.lt_zpow_iff_log_lt (b := 2) (by norm_num) (x := 56)
      (r := (5 * 2 ^ 53 - 32 : ℝ)) (by norm_num)).1 (by norm_num)
    omega
  have hTr : rndIeee 0 (5 * 2 ^ 53 - 32 : ℝ) = 5 * 2 ^ 53 - 32 := by
    refine rnd_of_ulp (z := 5 * 2 ^ 50 - 4) (e := 3) (by norm_num) ?_
    unfold ulpExp
    rw [hT]; norm_num
  have hdr : rndIeee 0 (2 ^ 53 - 7 : ℝ) = 2 ^ 53 - 7 := by
    have := rnd_int (b := 0) (N := 2 ^ 53 - 7) (by norm_num) (by norm_num)
    norm_num at this ⊢
    exact this
  have hq : Int.log 2 |((5 * 2 ^ 53 - 32) / (2 ^ 53 - 7) : ℝ)| = 2 := by
    rw [abs_of_pos (by norm_num)]
    have h1 := (Int.zpow_le_iff_le_log (b := 2) (by norm_num) (x := 2)
      (r := ((5 * 2 ^ 53 - 32) / (2 ^ 53 - 7) : ℝ)) (by norm_num)).1 (by norm_num)
    have h2 := (Int.lt_zpow_iff_log_lt (b := 2) (by norm_num) (x := 3)
      (r := ((5 * 2 ^ 53 - 32) / (2 ^ 53 - 7) : ℝ)) (by norm_num)).1 (by norm_num)
    omega
  have hue : ulpExp 0 ((5 * 2 ^ 53 - 32) / (2 ^ 53 - 7) : ℝ) = -50 := by
    unfold ulpExp; rw [hq]; norm_num
  have hrq : rndIeee 0 ((5 * 2 ^ 53 - 32) / (2 ^ 53 - 7) : ℝ) = 5 := by
    have : roundEven ((5 * 2 ^ 53 - 32) / (2 ^ 53 - 7) / 2 ^ (-50 : ℤ) : ℝ) = 5 * 2 ^ 50 := by
      set w := ((5 * 2 ^ 53 - 32) / (2 ^ 53 - 7) / 2 ^ (-50 : ℤ) : ℝ) with hw
      have w1 : (5629499534213120 : ℝ) ≤ w := by rw [hw]; norm_num
      have w2 : w < 5629499534213120 + 1 / 2 := by rw [hw]; norm_num
      obtain ⟨he1, he2⟩ := abs_le.1 (roundEven_err w)
      clear_value w
      clear hw
      have l1 : (roundEven w : ℝ) < ((5 * 2 ^ 50 + 1 : ℤ) : ℝ) := by push_cast; linarith
      have l2 : ((5 * 2 ^ 50 - 1 : ℤ) : ℝ) < roundEven w := by push_cast; linarith
      have l1' : roundEven w < 5 * 2 ^ 50 + 1 := by exact_mod_cast l1
      have l2' : 5 * 2 ^ 50 - 1 < roundEven w := by exact_mod_cast l2
      omega
    unfold rndIeee
    rw [hue, this]
    norm_num
  have hs : fSteps 0 (5 * 2 ^ 53 - 32) (2 ^ 53 - 7) = 5 := by
    unfold fSteps; rw [hrq]; norm_num
  refine ⟨5 * 2 ^ 53 - 32, 2 ^ 53 - 7, by norm_num, by norm_num, hTr, hdr, ?_, hs, ?_⟩
  · unfold numberofsteps
    rw [Int.ceil_eq_iff]; norm_num
  · unfold fStep
    rw [hs]
    have hl : Int.log 2 |((5 * 2 ^ 53 - 32) / ((5 : ℤ) : ℝ) : ℝ)| = 52 := by
      rw [abs_of_pos (by norm_num)]
      have h1 := (Int.zpow_le_iff_le_log (b := 2) (by norm_num) (x := 52)
        (r := ((5 * 2 ^ 53 - 32) / ((5 : ℤ) : ℝ) : ℝ)) (by norm_num)).1 (by norm_num)
      have h2 := (Int.lt_zpow_iff_log_lt (b := 2) (by norm_num) (x := 53)
        (r := ((5 * 2 ^ 53 - 32) / ((5 : ℤ) : ℝ) : ℝ)) (by norm_num)).1 (by norm_num)
      omega
    have hu0 : ulpExp 0 ((5 * 2 ^ 53 - 32) / ((5 : ℤ) : ℝ) : ℝ) = 0 := by
      unfold ulpExp; rw [hl]; norm_num
    unfold rndIeee
    rw [hu0]
    set w := ((5 * 2 ^ 53 - 32) / ((5 : ℤ) : ℝ) / 2 ^ (0 : ℤ) : ℝ) with hw
    have w1 : (9007199254740985 + 3 / 5 : ℝ) ≤ w := by rw [hw]; norm_num
    obtain ⟨he1, he2⟩ := abs_le.1 (roundEven_err w)
    clear_value w
    clear hw
    have l2 : ((2 ^ 53 - 7 : ℤ) : ℝ) < roundEven w := by push_cast; linarith
    norm_num at l2 ⊢
    exact l2

/-- The padded numbers of layers, computed with a floating-point quotient and product, are the exact
ones for every vector length (not only powers of two). -/
theorem C113_padding {nlayers vl : Int} (hn : 1 ≤ nlayers) (hv : 1 ≤ vl)
    (h : nlayers + vl < 2 ^ 53) :
    fLayersVec b nlayers vl = ceilDiv nlayers vl ∧
      fLayers b nlayers vl = ceilDiv nlayers vl * vl := by
  have hnr : (1 : ℝ) ≤ nlayers := by exact_mod_cast hn
  have hvr : (1 : ℝ) ≤ vl := by exact_mod_cast hv
  have hr : (nlayers : ℝ) + vl < 2 ^ 53 := by exact_mod_cast h
  have hvp : (0 : ℝ) < vl := by linarith
  set x := (nlayers : ℝ) / vl with hx
  have hx0 : 0 < x := by positivity
  have hxv : x * vl = nlayers := by rw [hx]; field_simp
  set N := ceilDiv nlayers vl with hN
  have hNc : N = ⌈x⌉ := by
    rw [hN, hx, ceilDiv]
    have := Rat.ceil_cast (α := ℝ) ((nlayers : ℚ) / vl)
    rw [← this]; push_cast; rfl
  have hN1 : 1 ≤ N := by rw [hNc]; exact Int.ceil_pos.2 hx0
  have hNx : x ≤ N := by rw [hNc]; exact Int.le_ceil x
  have hNlt : (N : ℝ) < x + 1 := by rw [hNc]; exact Int.ceil_lt_add_one x
  have hprod : (N : ℝ) * vl < nlayers + vl := by nlinarith
  have hprodZ : N * vl < nlayers + vl := by exact_mod_cast hprod
  have hgap : 1 / (vl : ℝ) ≤ x - (N - 1) := by
    have : (1 : ℝ) ≤ nlayers - (N - 1) * vl := by
      have h1 : (N - 1) * vl < nlayers := by linarith
      have h2 : 1 ≤ nlayers - (N - 1) * vl := by omega
      exact_mod_cast h2
    rw [div_le_iff₀ hvp]
    nlinarith
  have hNsmall : N < 2 ^ 53 := by
    have : N * 1 ≤ N * vl := mul_le_mul_of_nonneg_left hv (by omega)
    omega
  have hp : prec b * 2 ^ 53 ≤ 1 := by
    unfold prec
    have : (2⁻¹ : ℝ) ^ (53 + b) ≤ 2⁻¹ ^ 53 := pow_le_pow_of_le_one (by norm_num) (by norm_num) (by omega)
    calc (2⁻¹ : ℝ) ^ (53 + b) * 2 ^ 53 ≤ 2⁻¹ ^ 53 * 2 ^ 53 :=
          mul_le_mul_of_nonneg_right this (by positivity)
      _ = 1 := by norm_num
  have herr : prec b * (1 + |x|) < 1 / vl := by
    rw [abs_of_pos hx0, lt_div_iff₀ hvp]
    calc prec b * (1 + x) * vl = prec b * (vl + nlayers) := by rw [← hxv]; ring
      _ < prec b * 2 ^ 53 := mul_lt_mul_of_pos_left (by linarith) (prec_pos b)
      _ ≤ 1 := hp
  have hr1 := abs_le.1 (rndIeee_err b x)
  have h1 : fLayersVec b nlayers vl = N := by
    unfold fLayersVec
    rw [Int.ceil_eq_iff]
    exact ⟨by linarith, rnd_le_int hx0 hNx hNsmall⟩
  refine ⟨h1, ?_⟩
  unfold fLayers
  rw [h1]
  have hpos : 0 < N * vl := Int.mul_pos (by omega) (by omega)
  have := rnd_int (b := b) (N := N * vl) hpos (by omega)
  push_cast at this
  rw [this]
  exact_mod_cast Int.floor_intCast (R := ℝ) (N * vl)

example : (1 : Int) ≤ 60 ∧ (1 : Int) ≤ 8 ∧ (60 : Int) + 8 < 2 ^ 53 ∧ ceilDiv 60 8 = 8 := by
  norm_num [ceilDiv]

/-- The double vortex test builds 29 rows also when its four operations are rounded. -/
theorem C113_vortex_rows : fRows b DoubleVortex.default.lx DoubleVortex.default.ly 25 = 29 ∧
    fRows b DoubleVortex.default.lx DoubleVortex.default.ly 25 = DoubleVortex.default.rows 25 := by
  suffices h : fRows b DoubleVortex.default.lx DoubleVortex.default.ly 25 = 29 from
    ⟨h, by rw [h, C48_default_rows.1]⟩
  have hlx : DoubleVortex.default.lx = 5000000 := rfl
  have hly : DoubleVortex.default.ly = 5000000 := rfl
  have hu := prec_pos b
  have hp : prec b ≤ 1 / 1048576 := by
    unfold prec
    calc (2⁻¹ : ℝ) ^ (53 + b) ≤ 2⁻¹ ^ 20 := pow_le_pow_of_le_one (by norm_num) (by norm_num) (by omega)
      _ = _ := by norm_num
  have p1 : (2 : ℝ) ^ (-1022 : ℤ) ≤ 1 := zpow_le_one_of_nonpos₀ (by norm_num) (by norm_num)
  have R : ∀ {x : ℝ}, 1 ≤ x → (1 - 1 / 1048576) * x ≤ rndIeee b x ∧ rndIeee b x ≤ (1 + 1 / 1048576) * x := by
    intro x h
    have := abs_le.1 (rnd_rel (b := b) (p1.trans h))
    constructor <;> nlinarith
  have s1 : (1.7320 : ℝ) ≤ √3 := Real.le_sqrt_of_sq_le (by norm_num)
  have s2 : √3 ≤ (1.7321 : ℝ) := Real.sqrt_le_iff.2 ⟨by norm_num, by norm_num⟩
  unfold fRows
  rw [hlx, hly]
  have hd : rndIeee b (5000000 / ((25 : ℤ) : ℝ)) = 200000 := by
    have := rnd_int (b := b) (N := 200000) (by norm_num) (by norm_num)
    rw [show (5000000 / ((25 : ℤ) : ℝ) : ℝ) = ((200000 : ℤ) : ℝ) by norm_num, this]; norm_num
  rw [hd]
  obtain ⟨a1, a2⟩ := R (x := √3) (by linarith)
  set q := rndIeee b √3
  have q1 : 1.7319 ≤ q := by linarith
  have q2 : q ≤ 1.7322 := by linarith
  obtain ⟨b1, b2⟩ := R (x := 200000 * q) (by linarith)
  set r := rndIeee b (200000 * q)
  have r1 : 346370 ≤ r := by linarith
  have r2 : r ≤ 346450 := by linarith
  obtain ⟨c1, c2⟩ := R (x := r / 2) (by linarith)
  set s := rndIeee b (r / 2)
  have s1' : 173180 ≤ s := by linarith
  have s2' : s ≤ 173230 := by linarith
  have t1 : (28.86 : ℝ) ≤ 5000000 / s := by rw [le_div_iff₀ (by linarith)]; linarith
  have t2 : 5000000 / s ≤ (28.88 : ℝ) := by rw [div_le_iff₀ (by linarith)]; linarith
  obtain ⟨d1, d2⟩ := R (x := 5000000 / s) (by linarith)
  rw [Int.ceil_eq_iff]
  push_cast
  constructor <;> linarith

end Props
end
end Omega
