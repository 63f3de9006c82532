import Verif.Lib.Taylor
import Mathlib.Analysis.Calculus.ContDiff.Bounds
import Mathlib.Tactic.Linarith
import Mathlib.Tactic.Positivity
import Mathlib.Tactic.Ring
import Mathlib.Tactic.FieldSimp

/-! Expansions in a small parameter that hold uniformly over a family of points and meshes. Pure
analysis, nothing about the code: used by the consistency theorems. -/

namespace Omega
namespace Jets
open Taylor

variable {ι κ : Type*}

/-- a bounded family of positive spacings -/
structure Spacing (ι : Type*) where
  val : ι → ℝ
  ub : ℝ
  pos : ∀ i, 0 < val i
  le : ∀ i, val i ≤ ub

/-- bounded uniformly over the family -/
def Bdd (f : ι → ℝ) : Prop := ∃ K, 0 ≤ K ∧ ∀ i, |f i| ≤ K

/-- at most a constant times the `n`-th power of the spacing -/
def Ord (δ : Spacing ι) (n : ℕ) (f : ι → ℝ) : Prop := ∃ K, 0 ≤ K ∧ ∀ i, |f i| ≤ K * δ.val i ^ n

namespace Bdd
variable {f g : ι → ℝ}

theorem const (c : ℝ) : Bdd (fun _ : ι => c) := ⟨|c|, abs_nonneg _, fun _ => le_rfl⟩

theorem add (hf : Bdd f) (hg : Bdd g) : Bdd (fun i => f i + g i) := by
  obtain ⟨K, k0, hK⟩ := hf
  obtain ⟨L, l0, hL⟩ := hg
  exact ⟨K + L, by positivity, fun i => (abs_add_le _ _).trans (add_le_add (hK i) (hL i))⟩

theorem neg (hf : Bdd f) : Bdd (fun i => -f i) := by
  obtain ⟨K, k0, hK⟩ := hf
  exact ⟨K, k0, fun i => by rw [abs_neg]; exact hK i⟩

theorem sub (hf : Bdd f) (hg : Bdd g) : Bdd (fun i => f i - g i) := by
  simpa [sub_eq_add_neg] using hf.add hg.neg

theorem mul (hf : Bdd f) (hg : Bdd g) : Bdd (fun i => f i * g i) := by
  obtain ⟨K, k0, hK⟩ := hf
  obtain ⟨L, l0, hL⟩ := hg
  exact ⟨K * L, by positivity, fun i => by
    rw [abs_mul]; exact mul_le_mul (hK i) (hL i) (abs_nonneg _) k0⟩

theorem pow (hf : Bdd f) (n : ℕ) : Bdd (fun i => f i ^ n) := by
  obtain ⟨K, k0, hK⟩ := hf
  exact ⟨K ^ n, by positivity, fun i => by
    rw [abs_pow]; exact pow_le_pow_left₀ (abs_nonneg _) (hK i) n⟩

theorem div_const (hf : Bdd f) (c : ℝ) : Bdd (fun i => f i / c) := by
  simpa [div_eq_mul_inv] using hf.mul (const c⁻¹)

theorem inv {η : ℝ} (hη : 0 < η) (h : ∀ i, η ≤ f i) : Bdd (fun i => (f i)⁻¹) := by
  refine ⟨η⁻¹, by positivity, fun i => ?_⟩
  have := hη.trans_le (h i)
  rw [abs_of_pos (by positivity)]
  exact inv_anti₀ hη (h i)

theorem small (δ : Spacing ι) : Bdd δ.val :=
  ⟨|δ.ub|, abs_nonneg _, fun i => by rw [abs_of_pos (δ.pos i)]; exact (δ.le i).trans (le_abs_self _)⟩

theorem comp (hf : Bdd f) (k : κ → ι) : Bdd (fun i => f (k i)) := by
  obtain ⟨K, k0, hK⟩ := hf
  exact ⟨K, k0, fun i => hK _⟩

end Bdd

/-- closes goals about the boundedness of polynomials in bounded families -/
macro "bdd" : tactic => `(tactic| repeat' first
  | assumption | exact Bdd.const _ | exact Bdd.small _ | apply Bdd.add | apply Bdd.sub
  | apply Bdd.mul | apply Bdd.neg | apply Bdd.pow | apply Bdd.div_const)

namespace Ord
variable {δ : Spacing ι} {f g : ι → ℝ} {n k : ℕ}

theorem of_bdd (hf : Bdd f) (h : ∀ i, g i = δ.val i ^ n * f i) : Ord δ n g := by
  obtain ⟨K, k0, hK⟩ := hf
  refine ⟨K, k0, fun i => ?_⟩
  have := δ.pos i
  rw [h, abs_mul, abs_of_pos (by positivity), mul_comm]
  exact mul_le_mul_of_nonneg_right (hK i) (by positivity)

theorem add (hf : Ord δ n f) (hg : Ord δ n g) : Ord δ n (fun i => f i + g i) := by
  obtain ⟨K, k0, hK⟩ := hf
  obtain ⟨L, l0, hL⟩ := hg
  refine ⟨K + L, by positivity, fun i => (abs_add_le _ _).trans ?_⟩
  rw [add_mul]
  exact add_le_add (hK i) (hL i)

theorem neg (hf : Ord δ n f) : Ord δ n (fun i => -f i) := by
  obtain ⟨K, k0, hK⟩ := hf
  exact ⟨K, k0, fun i => by rw [abs_neg]; exact hK i⟩

theorem sub (hf : Ord δ n f) (hg : Ord δ n g) : Ord δ n (fun i => f i - g i) := by
  simpa [sub_eq_add_neg] using hf.add hg.neg

theorem bmul (hf : Bdd f) (hg : Ord δ n g) : Ord δ n (fun i => f i * g i) := by
  obtain ⟨K, k0, hK⟩ := hf
  obtain ⟨L, l0, hL⟩ := hg
  refine ⟨K * L, by positivity, fun i => ?_⟩
  rw [abs_mul, mul_assoc]
  exact mul_le_mul (hK i) (hL i) (abs_nonneg _) k0

theorem mulb (hf : Ord δ n f) (hg : Bdd g) : Ord δ n (fun i => f i * g i) := by
  simpa [mul_comm] using bmul hg hf

theorem cmul (c : ℝ) (hf : Ord δ n f) : Ord δ n (fun i => c * f i) := bmul (Bdd.const c) hf

theorem bdd (hf : Ord δ n f) : Bdd f := by
  obtain ⟨K, k0, hK⟩ := hf
  refine ⟨K * |δ.ub| ^ n, by positivity, fun i => (hK i).trans ?_⟩
  exact mul_le_mul_of_nonneg_left (pow_le_pow_left₀ (δ.pos i).le
    ((δ.le i).trans (le_abs_self _)) n) k0

theorem congr (hf : Ord δ n f) (h : ∀ i, g i = f i) : Ord δ n g := by
  rwa [show g = f from funext h]

/-- dividing by the spacing costs one order -/
theorem div (hf : Ord δ (n + 1) f) : Ord δ n (fun i => f i / δ.val i) := by
  obtain ⟨K, k0, hK⟩ := hf
  refine ⟨K, k0, fun i => ?_⟩
  have := δ.pos i
  rw [abs_div, abs_of_pos this, div_le_iff₀ this]
  calc _ ≤ _ := hK i
    _ = _ := by ring

/-- a product of approximations -/
theorem mul_sub {f' g' : ι → ℝ} (hf : Ord δ n (fun i => f i - f' i))
    (hg : Ord δ n (fun i => g i - g' i)) (bf : Bdd f') (bg : Bdd g') :
    Ord δ n (fun i => f i * g i - f' i * g' i) := by
  have bg2 : Bdd g := by
    have := hg.bdd.add bg
    simpa using this
  refine ((hf.mulb bg2).add (bmul bf hg)).congr fun i => ?_
  ring

theorem zero : Ord δ n (fun _ => 0) := ⟨0, le_rfl, fun i => by simp⟩

theorem sum {s : Finset κ} {F : κ → ι → ℝ} (h : ∀ j ∈ s, Ord δ n (F j)) :
    Ord δ n (fun i => ∑ j ∈ s, F j i) := by
  classical
  induction s using Finset.induction_on with
  | empty => simpa using zero
  | insert a s ha ih =>
    simp only [Finset.sum_insert ha]
    exact (h a (by simp)).add (ih fun j hj => h j (by simp [hj]))

end Ord

/-! ### Pairs of expansions that differ in the sign of the spacing -/

/-- `f = c0 + δ c1 + δ² c2 + O(δ³)` and `g` the same with `-δ` -/
def J3 (δ : Spacing ι) (f g c0 c1 : ι → ℝ) : Prop :=
  Bdd c0 ∧ Bdd c1 ∧ ∃ c2 r s, Bdd c2 ∧ Bdd r ∧ Bdd s ∧
    (∀ i, f i = c0 i + δ.val i * c1 i + δ.val i ^ 2 * c2 i + δ.val i ^ 3 * r i) ∧
    (∀ i, g i = c0 i - δ.val i * c1 i + δ.val i ^ 2 * c2 i - δ.val i ^ 3 * s i)

/-- `f = c0 + δ c1 + O(δ²)` and `g` the same with `-δ` -/
def J2 (δ : Spacing ι) (f g c0 c1 : ι → ℝ) : Prop :=
  Bdd c0 ∧ Bdd c1 ∧ ∃ r s, Bdd r ∧ Bdd s ∧
    (∀ i, f i = c0 i + δ.val i * c1 i + δ.val i ^ 2 * r i) ∧
    (∀ i, g i = c0 i - δ.val i * c1 i + δ.val i ^ 2 * s i)

namespace J3
variable {δ : Spacing ι} {f g c0 c1 f' g' d0 d1 : ι → ℝ}

theorem add (h : J3 δ f g c0 c1) (h' : J3 δ f' g' d0 d1) :
    J3 δ (fun i => f i + f' i) (fun i => g i + g' i) (fun i => c0 i + d0 i) (fun i => c1 i + d1 i) := by
  obtain ⟨b0, b1, c2, r, s, b2, br, bs, hf, hg⟩ := h
  obtain ⟨b0', b1', c2', r', s', b2', br', bs', hf', hg'⟩ := h'
  refine ⟨by bdd, by bdd, fun i => c2 i + c2' i, fun i => r i + r' i, fun i => s i + s' i, by bdd,
    by bdd, by bdd, fun i => ?_, fun i => ?_⟩
  · beta_reduce; rw [hf, hf']; ring
  · beta_reduce; rw [hg, hg']; ring

theorem smul (a : ι → ℝ) (ha : Bdd a) (h : J3 δ f g c0 c1) :
    J3 δ (fun i => a i * f i) (fun i => a i * g i) (fun i => a i * c0 i) (fun i => a i * c1 i) := by
  obtain ⟨b0, b1, c2, r, s, b2, br, bs, hf, hg⟩ := h
  refine ⟨by bdd, by bdd, fun i => a i * c2 i, fun i => a i * r i, fun i => a i * s i, by bdd,
    by bdd, by bdd, fun i => ?_, fun i => ?_⟩
  · beta_reduce; rw [hf]; ring
  · beta_reduce; rw [hg]; ring

theorem const (a : ι → ℝ) (ha : Bdd a) : J3 δ a a a (fun _ => 0) :=
  ⟨ha, by bdd, fun _ => 0, fun _ => 0, fun _ => 0, by bdd, by bdd, by bdd, fun i => by ring,
    fun i => by ring⟩

theorem mul (h : J3 δ f g c0 c1) (h' : J3 δ f' g' d0 d1) :
    J3 δ (fun i => f i * f' i) (fun i => g i * g' i) (fun i => c0 i * d0 i)
      (fun i => c0 i * d1 i + c1 i * d0 i) := by
  obtain ⟨b0, b1, c2, r, s, b2, br, bs, hf, hg⟩ := h
  obtain ⟨b0', b1', c2', r', s', b2', br', bs', hf', hg'⟩ := h'
  refine ⟨by bdd, by bdd, fun i => c0 i * c2' i + c1 i * d1 i + c2 i * d0 i,
    fun i => c0 i * r' i + r i * d0 i + c1 i * c2' i + c2 i * d1 i +
      δ.val i * (c1 i * r' i + r i * d1 i + c2 i * c2' i) +
      δ.val i ^ 2 * (c2 i * r' i + r i * c2' i) + δ.val i ^ 3 * (r i * r' i),
    fun i => c0 i * s' i + s i * d0 i + c1 i * c2' i + c2 i * d1 i -
      δ.val i * (c1 i * s' i + s i * d1 i + c2 i * c2' i) +
      δ.val i ^ 2 * (c2 i * s' i + s i * c2' i) - δ.val i ^ 3 * (s i * s' i),
    by bdd, by bdd, by bdd, fun i => ?_, fun i => ?_⟩
  · beta_reduce; rw [hf, hf']; ring
  · beta_reduce; rw [hg, hg']; ring

theorem congr (h : J3 δ f g c0 c1) (hf : ∀ i, f' i = f i) (hg : ∀ i, g' i = g i)
    (h0 : ∀ i, d0 i = c0 i) (h1 : ∀ i, d1 i = c1 i) : J3 δ f' g' d0 d1 := by
  rwa [show f' = f from funext hf, show g' = g from funext hg, show d0 = c0 from funext h0,
    show d1 = c1 from funext h1]

/-- the odd part -/
theorem diff (h : J3 δ f g c0 c1) : Ord δ 3 (fun i => f i - g i - 2 * δ.val i * c1 i) := by
  obtain ⟨b0, b1, c2, r, s, b2, br, bs, hf, hg⟩ := h
  refine Ord.of_bdd (f := fun i => r i + s i) (by bdd) fun i => ?_
  rw [hf, hg]; ring

/-- the even part -/
theorem mean (h : J3 δ f g c0 c1) : Ord δ 2 (fun i => f i + g i - 2 * c0 i) := by
  obtain ⟨b0, b1, c2, r, s, b2, br, bs, hf, hg⟩ := h
  refine Ord.of_bdd (f := fun i => 2 * c2 i + δ.val i * r i - δ.val i * s i) (by bdd) fun i => ?_
  rw [hf, hg]; ring

theorem toJ2 (h : J3 δ f g c0 c1) : J2 δ f g c0 c1 := by
  obtain ⟨b0, b1, c2, r, s, b2, br, bs, hf, hg⟩ := h
  refine ⟨b0, b1, fun i => c2 i + δ.val i * r i, fun i => c2 i - δ.val i * s i, by bdd, by bdd,
    fun i => ?_, fun i => ?_⟩
  · beta_reduce; rw [hf]; ring
  · beta_reduce; rw [hg]; ring

end J3

namespace J2
variable {δ : Spacing ι} {f g c0 c1 f' g' d0 d1 : ι → ℝ}

theorem add (h : J2 δ f g c0 c1) (h' : J2 δ f' g' d0 d1) :
    J2 δ (fun i => f i + f' i) (fun i => g i + g' i) (fun i => c0 i + d0 i) (fun i => c1 i + d1 i) := by
  obtain ⟨b0, b1, r, s, br, bs, hf, hg⟩ := h
  obtain ⟨b0', b1', r', s', br', bs', hf', hg'⟩ := h'
  refine ⟨by bdd, by bdd, fun i => r i + r' i, fun i => s i + s' i,
    by bdd, by bdd, fun i => ?_, fun i => ?_⟩
  · beta_reduce; rw [hf, hf']; ring
  · beta_reduce; rw [hg, hg']; ring

theorem smul (a : ι → ℝ) (ha : Bdd a) (h : J2 δ f g c0 c1) :
    J2 δ (fun i => a i * f i) (fun i => a i * g i) (fun i => a i * c0 i) (fun i => a i * c1 i) := by
  obtain ⟨b0, b1, r, s, br, bs, hf, hg⟩ := h
  refine ⟨by bdd, by bdd, fun i => a i * r i, fun i => a i * s i,
    by bdd, by bdd, fun i => ?_, fun i => ?_⟩
  · beta_reduce; rw [hf]; ring
  · beta_reduce; rw [hg]; ring

theorem const (a : ι → ℝ) (ha : Bdd a) : J2 δ a a a (fun _ => 0) := (J3.const a ha).toJ2

theorem congr (h : J2 δ f g c0 c1) (hf : ∀ i, f' i = f i) (hg : ∀ i, g' i = g i)
    (h0 : ∀ i, d0 i = c0 i) (h1 : ∀ i, d1 i = c1 i) : J2 δ f' g' d0 d1 := by
  rwa [show f' = f from funext hf, show g' = g from funext hg, show d0 = c0 from funext h0,
    show d1 = c1 from funext h1]

theorem symm (h : J2 δ f g c0 c1) : J2 δ g f c0 (fun i => -c1 i) := by
  obtain ⟨b0, b1, r, s, br, bs, hf, hg⟩ := h
  refine ⟨b0, by bdd, s, r, bs, br, fun i => ?_, fun i => ?_⟩
  · beta_reduce; rw [hg]; ring
  · beta_reduce; rw [hf]; ring

theorem mean (h : J2 δ f g c0 c1) : Ord δ 2 (fun i => (f i + g i) / 2 - c0 i) := by
  obtain ⟨b0, b1, r, s, br, bs, hf, hg⟩ := h
  refine Ord.of_bdd (f := fun i => (r i + s i) / 2) (by bdd) fun i => ?_
  rw [hf, hg]; ring

/-- quotients, the denominators being bounded away from zero -/
theorem div (h : J2 δ f g c0 c1) (h' : J2 δ f' g' d0 d1) {η : ℝ} (hη : 0 < η) (p0 : ∀ i, η ≤ d0 i)
    (pf : ∀ i, η ≤ f' i) (pg : ∀ i, η ≤ g' i) :
    J2 δ (fun i => f i / f' i) (fun i => g i / g' i) (fun i => c0 i / d0 i)
      (fun i => (c1 i * d0 i - c0 i * d1 i) / d0 i ^ 2) := by
  obtain ⟨b0, b1, r, s, br, bs, hf, hg⟩ := h
  obtain ⟨b0', b1', r', s', br', bs', hf', hg'⟩ := h'
  have i0 := Bdd.inv hη p0
  have i1 := Bdd.inv hη pf
  have i2 := Bdd.inv hη pg
  refine ⟨?_, ?_, fun i => (r i * d0 i ^ 2 - c0 i * d0 i * r' i -
      (c1 i * d0 i - c0 i * d1 i) * (d1 i + δ.val i * r' i)) * ((d0 i)⁻¹ ^ 2 * (f' i)⁻¹),
    fun i => (s i * d0 i ^ 2 - c0 i * d0 i * s' i +
      (c1 i * d0 i - c0 i * d1 i) * (-d1 i + δ.val i * s' i)) * ((d0 i)⁻¹ ^ 2 * (g' i)⁻¹),
    by bdd, by bdd, fun i => ?_, fun i => ?_⟩
  · simp only [div_eq_mul_inv]; bdd
  · simp only [div_eq_mul_inv, ← inv_pow]; bdd
  · have q0 := (hη.trans_le (p0 i)).ne'
    have q1 := (hη.trans_le (pf i)).ne'
    field_simp
    rw [hf i, hf' i]; ring
  · have q0 := (hη.trans_le (p0 i)).ne'
    have q1 := (hη.trans_le (pg i)).ne'
    field_simp
    rw [hg i, hg' i]; ring

end J2

/-! ### Taylor expansions of a family of functions -/

section
open Set
variable {E : Type*} [NormedAddCommGroup E] [NormedSpace ℝ E]

/-- third-order Taylor remainder -/
theorem remainder_four {φ : E → ℝ} (h : ContDiff ℝ 4 φ) {B : ℝ}
    (hB : ∀ z, ‖iteratedFDeriv ℝ 4 φ z‖ ≤ B) (z r : E) :
    |φ (z + r) - φ z - fderiv ℝ φ z r - iteratedFDeriv ℝ 2 φ z (fun _ => r) / 2
      - iteratedFDeriv ℝ 3 φ z (fun _ => r) / 6| ≤ B * ‖r‖ ^ 4 / 24 := by
  have hc := line_contDiff (n := 4) (by exact_mod_cast h) z r
  have hc2 : ContDiff ℝ (2 : ℕ) φ := h.of_le (by norm_num)
  have hc3 : ContDiff ℝ (3 : ℕ) φ := h.of_le (by norm_num)
  obtain ⟨x, -, hx⟩ := taylor_mean_remainder_lagrange_iteratedDeriv (f := line φ z r)
    (x := 1) (x₀ := 0) (n := 3) (by norm_num) (by exact_mod_cast hc.contDiffOn)
  have h0 : line φ z r 0 = φ z := by simp [line]
  have h1 : line φ z r 1 = φ (z + r) := by simp [line]
  have hd := line_deriv (h.differentiable (by norm_num)) z r 0
  have hu : UniqueDiffOn ℝ (uIcc (0:ℝ) 1) := uniqueDiffOn_uIcc (by norm_num)
  have h2 : iteratedDerivWithin 2 (line φ z r) (uIcc 0 1) 0
      = iteratedFDeriv ℝ 2 φ z (fun _ => r) := by
    rw [iteratedDerivWithin_eq_iteratedDeriv hu
      (((line_contDiff hc2 z r).contDiffAt)) (by simp), line_iteratedDeriv hc2]
    simp
  have h3 : iteratedDerivWithin 3 (line φ z r) (uIcc 0 1) 0
      = iteratedFDeriv ℝ 3 φ z (fun _ => r) := by
    rw [iteratedDerivWithin_eq_iteratedDeriv hu
      (((line_contDiff hc3 z r).contDiffAt)) (by simp), line_iteratedDeriv hc3]
    simp
  rw [taylorWithinEval_succ, taylorWithinEval_succ, taylorWithinEval_succ, taylor_within_zero_eval] at hx
  simp only [zero_add, iteratedDerivWithin_one, hd.hasDerivWithinAt.derivWithin (hu 0 (by simp)),
    h0, h1, Nat.reduceAdd, h2, h3] at hx
  have hb := line_bound (n := 4) (by exact_mod_cast h) hB z r x
  norm_num [Nat.factorial] at hx
  rw [show φ (z + r) - φ z - fderiv ℝ φ z r - iteratedFDeriv ℝ 2 φ z (fun _ => r) / 2
      - iteratedFDeriv ℝ 3 φ z (fun _ => r) / 6
      = iteratedDeriv 4 (line φ z r) x / 24 by rw [← hx]; ring, abs_div,
      abs_of_pos (by norm_num : (0:ℝ) < 24)]
  linarith

end

/-- functions with derivatives up to order `n` that are bounded uniformly over the family -/
structure Fam (n : ℕ) (φ : ι → ℝ × ℝ → ℝ) : Prop where
  smooth : ∀ i, ContDiff ℝ n (φ i)
  bound : ∃ B, 0 ≤ B ∧ ∀ i k, k ≤ n → ∀ z, ‖iteratedFDeriv ℝ k (φ i) z‖ ≤ B

namespace Fam
variable {n : ℕ} {φ ψ : ι → ℝ × ℝ → ℝ}

theorem comp (h : Fam n φ) (k : κ → ι) : Fam n (fun i => φ (k i)) := by
  obtain ⟨B, b0, hB⟩ := h.bound
  exact ⟨fun i => h.smooth _, B, b0, fun i => hB _⟩

theorem mono {k : ℕ} (h : Fam n φ) (hk : k ≤ n) : Fam k φ := by
  obtain ⟨B, b0, hB⟩ := h.bound
  exact ⟨fun i => (h.smooth i).of_le (by exact_mod_cast hk), B, b0, fun i j hj => hB i j (hj.trans hk)⟩

theorem const (c : ι → ℝ) (hc : Bdd c) : Fam n (fun i _ => c i) := by
  obtain ⟨K, k0, hK⟩ := hc
  refine ⟨fun i => contDiff_const, K, k0, fun i k hk z => ?_⟩
  rcases Nat.eq_zero_or_pos k with rfl | h
  · rw [norm_iteratedFDeriv_zero]; exact hK i
  · rw [iteratedFDeriv_const_of_ne (by omega)]
    simpa using k0

theorem add (h : Fam n φ) (h' : Fam n ψ) : Fam n (fun i z => φ i z + ψ i z) := by
  obtain ⟨B, b0, hB⟩ := h.bound
  obtain ⟨C, c0, hC⟩ := h'.bound
  refine ⟨fun i => (h.smooth i).add (h'.smooth i), B + C, by positivity, fun i k hk z => ?_⟩
  have e : iteratedFDeriv ℝ k (fun z => φ i z + ψ i z) z =
      iteratedFDeriv ℝ k (φ i) z + iteratedFDeriv ℝ k (ψ i) z :=
    iteratedFDeriv_add_apply (((h.smooth i).of_le (by exact_mod_cast hk)).contDiffAt)
      (((h'.smooth i).of_le (by exact_mod_cast hk)).contDiffAt)
  rw [e]
  exact (norm_add_le _ _).trans (add_le_add (hB i k hk z) (hC i k hk z))

theorem mul (h : Fam n φ) (h' : Fam n ψ) : Fam n (fun i z => φ i z * ψ i z) := by
  obtain ⟨B, b0, hB⟩ := h.bound
  obtain ⟨C, c0, hC⟩ := h'.bound
  refine ⟨fun i => (h.smooth i).mul (h'.smooth i), ∑ k ∈ Finset.range (n + 1),
    ∑ j ∈ Finset.range (k + 1), (k.choose j : ℝ) * B * C, by positivity, fun i k hk z => ?_⟩
  refine (norm_iteratedFDeriv_mul_le (h.smooth i) (h'.smooth i) z (by exact_mod_cast hk)).trans ?_
  refine le_trans ?_ (Finset.single_le_sum (f := fun k => ∑ j ∈ Finset.range (k + 1),
    (k.choose j : ℝ) * B * C) (fun k _ => by positivity) (Finset.mem_range.2 (Nat.lt_succ_of_le hk)))
  refine Finset.sum_le_sum fun j hj => ?_
  have hj : j ≤ k := Nat.lt_succ_iff.1 (Finset.mem_range.1 hj)
  have a := hB i j (hj.trans hk) z
  have b := hC i (k - j) (by omega) z
  exact mul_le_mul (mul_le_mul_of_nonneg_left a (by positivity)) b (norm_nonneg _) (by positivity)

theorem cmul (c : ℝ) (h : Fam n φ) : Fam n (fun i z => c * φ i z) :=
  (const (fun _ => c) (Bdd.const c)).mul h

theorem fderiv (h : Fam (n + 1) φ) (v : ℝ × ℝ) : Fam n (fun i z => fderiv ℝ (φ i) z v) := by
  obtain ⟨B, b0, hB⟩ := h.bound
  have hs : ∀ i, ContDiff ℝ n (_root_.fderiv ℝ (φ i)) := fun i =>
    (h.smooth i).fderiv_right (m := n) (by norm_cast)
  refine ⟨fun i => (hs i).clm_apply contDiff_const, ‖v‖ * B, by positivity, fun i k hk z => ?_⟩
  refine (norm_iteratedFDeriv_clm_apply_const ((hs i).contDiffAt) (by exact_mod_cast hk)).trans ?_
  rw [norm_iteratedFDeriv_fderiv]
  exact mul_le_mul_of_nonneg_left (hB i (k + 1) (by omega) z) (norm_nonneg v)

end Fam

section
variable {φ : ι → ℝ × ℝ → ℝ}

/-- the derivative of order `n` in bounded directions is bounded -/
theorem bdd_iter {N n : ℕ} (hs : Fam N φ) (hn : n ≤ N) (z v : ι → ℝ × ℝ) {c : ℝ}
    (hv : ∀ i, ‖v i‖ ≤ c) : Bdd (fun i => iteratedFDeriv ℝ n (φ i) (z i) (fun _ => v i)) := by
  obtain ⟨B, b0, hB⟩ := hs.bound
  have c0 : 0 ≤ |c| := abs_nonneg c
  refine ⟨B * |c| ^ n, by positivity, fun i => ?_⟩
  rw [← Real.norm_eq_abs]
  refine (ContinuousMultilinearMap.le_opNorm _ _).trans ?_
  simp only [Finset.prod_const, Finset.card_univ, Fintype.card_fin]
  exact mul_le_mul (hB _ _ hn _) (pow_le_pow_left₀ (norm_nonneg _) ((hv i).trans (le_abs_self _)) n)
    (by positivity) b0

theorem bdd_val {N : ℕ} (hs : Fam N φ) (z : ι → ℝ × ℝ) : Bdd (fun i => φ i (z i)) := by
  have := bdd_iter hs (Nat.zero_le N) z (fun _ => 0) (c := 0) (by simp)
  simpa [iteratedFDeriv_zero_apply] using this

theorem bdd_fderiv {N : ℕ} (hs : Fam N φ) (hn : 1 ≤ N) (z v : ι → ℝ × ℝ) {c : ℝ}
    (hv : ∀ i, ‖v i‖ ≤ c) : Bdd (fun i => fderiv ℝ (φ i) (z i) (v i)) := by
  have := bdd_iter hs hn z v hv
  simpa [iteratedFDeriv_one_apply] using this

/-- values on both sides of a point, with three derivatives -/
theorem J3.taylor (δ : Spacing ι) (hs : Fam 3 φ) (z v : ι → ℝ × ℝ) {c : ℝ}
    (hv : ∀ i, ‖v i‖ ≤ c) :
    J3 δ (fun i => φ i (z i + δ.val i • v i)) (fun i => φ i (z i - δ.val i • v i)) (fun i => φ i (z i))
      (fun i => fderiv ℝ (φ i) (z i) (v i)) := by
  obtain ⟨B, b0, hB⟩ := hs.bound
  have key : ∀ i (σ : ℝ), |σ| = 1 → |φ i (z i + δ.val i • (σ • v i)) - φ i (z i) -
      δ.val i * (σ * fderiv ℝ (φ i) (z i) (v i)) -
      δ.val i ^ 2 * (iteratedFDeriv ℝ 2 (φ i) (z i) (fun _ => v i) / 2)| ≤ B * |c| ^ 3 / 6 * δ.val i ^ 3 := by
    intro i σ hσ
    have h := remainder_three (hs.smooth i) (hB i 3 le_rfl) (z i) (δ.val i • (σ • v i))
    have e := (iteratedFDeriv ℝ 2 (φ i) (z i)).map_smul_univ (fun _ => δ.val i * σ) (fun _ => v i)
    simp only [Finset.prod_const, Finset.card_univ, Fintype.card_fin] at e
    rw [map_smul, map_smul, smul_eq_mul, smul_eq_mul, smul_smul, e] at h
    rw [smul_smul]
    have s2 : σ ^ 2 = 1 := by rw [← sq_abs, hσ]; norm_num
    have hd := δ.pos i
    refine (le_of_eq (congrArg abs ?_)).trans (h.trans ?_)
    · rw [mul_pow, s2, smul_eq_mul]; ring
    · rw [norm_smul, norm_mul, Real.norm_eq_abs, Real.norm_eq_abs, hσ, mul_one, abs_of_pos hd, mul_pow]
      have := pow_le_pow_left₀ (norm_nonneg _) ((hv i).trans (le_abs_self _)) 3
      have : B * (δ.val i ^ 3 * ‖v i‖ ^ 3) ≤ B * (δ.val i ^ 3 * |c| ^ 3) :=
        mul_le_mul_of_nonneg_left (mul_le_mul_of_nonneg_left this (by positivity)) b0
      linarith
  have cK : 0 ≤ B * |c| ^ 3 / 6 := by positivity
  refine ⟨bdd_val hs z, bdd_fderiv hs (by norm_num) z v hv,
    fun i => iteratedFDeriv ℝ 2 (φ i) (z i) (fun _ => v i) / 2,
    fun i => (φ i (z i + δ.val i • v i) - φ i (z i) - δ.val i * fderiv ℝ (φ i) (z i) (v i) -
      δ.val i ^ 2 * (iteratedFDeriv ℝ 2 (φ i) (z i) (fun _ => v i) / 2)) / δ.val i ^ 3,
    fun i => -(φ i (z i - δ.val i • v i) - φ i (z i) + δ.val i * fderiv ℝ (φ i) (z i) (v i) -
      δ.val i ^ 2 * (iteratedFDeriv ℝ 2 (φ i) (z i) (fun _ => v i) / 2)) / δ.val i ^ 3,
    (bdd_iter hs (n := 2) (by norm_num) z v hv).div_const 2, ⟨_, cK, fun i => ?_⟩,
    ⟨_, cK, fun i => ?_⟩, fun i => ?_, fun i => ?_⟩
  · have hd := δ.pos i
    rw [abs_div, abs_of_pos (by positivity : 0 < δ.val i ^ 3), div_le_iff₀ (by positivity)]
    simpa using key i 1 (by simp)
  · have hd := δ.pos i
    rw [abs_div, abs_of_pos (by positivity : 0 < δ.val i ^ 3), div_le_iff₀ (by positivity), abs_neg]
    refine (le_of_eq (congrArg abs ?_)).trans (key i (-1) (by simp))
    rw [neg_one_smul, smul_neg, ← sub_eq_add_neg]; ring
  · have hd := (δ.pos i).ne'
    field_simp; ring
  · have hd := (δ.pos i).ne'
    field_simp; ring

/-- second-order quotients on both sides of a point, with four derivatives -/
theorem J3.slope (δ : Spacing ι) (hs : Fam 4 φ) (z v : ι → ℝ × ℝ) {c : ℝ}
    (hv : ∀ i, ‖v i‖ ≤ c) :
    J3 δ (fun i => (φ i (z i + δ.val i • v i) - φ i (z i)) / δ.val i)
      (fun i => (φ i (z i) - φ i (z i - δ.val i • v i)) / δ.val i) (fun i => fderiv ℝ (φ i) (z i) (v i))
      (fun i => iteratedFDeriv ℝ 2 (φ i) (z i) (fun _ => v i) / 2) := by
  obtain ⟨B, b0, hB⟩ := hs.bound
  have key : ∀ i (σ : ℝ), |σ| = 1 → |φ i (z i + δ.val i • (σ • v i)) - φ i (z i) -
      δ.val i * (σ * fderiv ℝ (φ i) (z i) (v i)) -
      δ.val i ^ 2 * (iteratedFDeriv ℝ 2 (φ i) (z i) (fun _ => v i) / 2) -
      δ.val i ^ 3 * (σ * (iteratedFDeriv ℝ 3 (φ i) (z i) (fun _ => v i) / 6))|
        ≤ B * |c| ^ 4 / 24 * δ.val i ^ 4 := by
    intro i σ hσ
    have h := remainder_four (hs.smooth i) (hB i 4 le_rfl) (z i) (δ.val i • (σ • v i))
    have e := (iteratedFDeriv ℝ 2 (φ i) (z i)).map_smul_univ (fun _ => δ.val i * σ) (fun _ => v i)
    have e3 := (iteratedFDeriv ℝ 3 (φ i) (z i)).map_smul_univ (fun _ => δ.val i * σ) (fun _ => v i)
    simp only [Finset.prod_const, Finset.card_univ, Fintype.card_fin] at e e3
    rw [map_smul, map_smul, smul_eq_mul, smul_eq_mul, smul_smul, e, e3] at h
    rw [smul_smul]
    have s2 : σ ^ 2 = 1 := by rw [← sq_abs, hσ]; norm_num
    have s3 : σ ^ 3 = σ := by rw [pow_succ, s2, one_mul]
    have hd := δ.pos i
    refine (le_of_eq (congrArg abs ?_)).trans (h.trans ?_)
    · rw [mul_pow, mul_pow, s2, s3, smul_eq_mul, smul_eq_mul]; ring
    · rw [norm_smul, norm_mul, Real.norm_eq_abs, Real.norm_eq_abs, hσ, mul_one, abs_of_pos hd, mul_pow]
      have := pow_le_pow_left₀ (norm_nonneg _) ((hv i).trans (le_abs_self _)) 4
      have : B * (δ.val i ^ 4 * ‖v i‖ ^ 4) ≤ B * (δ.val i ^ 4 * |c| ^ 4) :=
        mul_le_mul_of_nonneg_left (mul_le_mul_of_nonneg_left this (by positivity)) b0
      linarith
  have cK : 0 ≤ B * |c| ^ 4 / 24 := by positivity
  refine ⟨bdd_fderiv hs (by norm_num) z v hv,
    (bdd_iter hs (n := 2) (by norm_num) z v hv).div_const 2,
    fun i => iteratedFDeriv ℝ 3 (φ i) (z i) (fun _ => v i) / 6,
    fun i => (φ i (z i + δ.val i • v i) - φ i (z i) - δ.val i * fderiv ℝ (φ i) (z i) (v i) -
      δ.val i ^ 2 * (iteratedFDeriv ℝ 2 (φ i) (z i) (fun _ => v i) / 2) -
      δ.val i ^ 3 * (iteratedFDeriv ℝ 3 (φ i) (z i) (fun _ => v i) / 6)) / δ.val i ^ 4,
    fun i => (φ i (z i - δ.val i • v i) - φ i (z i) + δ.val i * fderiv ℝ (φ i) (z i) (v i) -
      δ.val i ^ 2 * (iteratedFDeriv ℝ 2 (φ i) (z i) (fun _ => v i) / 2) +
      δ.val i ^ 3 * (iteratedFDeriv ℝ 3 (φ i) (z i) (fun _ => v i) / 6)) / δ.val i ^ 4,
    (bdd_iter hs (n := 3) (by norm_num) z v hv).div_const 6, ⟨_, cK, fun i => ?_⟩,
    ⟨_, cK, fun i => ?_⟩, fun i => ?_, fun i => ?_⟩
  · have hd := δ.pos i
    rw [abs_div, abs_of_pos (by positivity : 0 < δ.val i ^ 4), div_le_iff₀ (by positivity)]
    simpa using key i 1 (by simp)
  · have hd := δ.pos i
    rw [abs_div, abs_of_pos (by positivity : 0 < δ.val i ^ 4), div_le_iff₀ (by positivity)]
    refine (le_of_eq (congrArg abs ?_)).trans (key i (-1) (by simp))
    rw [neg_one_smul, smul_neg, ← sub_eq_add_neg]; ring
  · have hd := (δ.pos i).ne'
    field_simp; ring
  · have hd := (δ.pos i).ne'
    field_simp; ring

end

end Jets
end Omega
