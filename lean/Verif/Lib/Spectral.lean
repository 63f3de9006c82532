import Mathlib.Analysis.InnerProductSpace.Spectrum
import Mathlib.Analysis.InnerProductSpace.PiL2

/-!
# Polynomials of symmetric operators on a weighted finite index set
-/

namespace Omega
noncomputable section
namespace Spectral

open Polynomial
open scoped RealInnerProductSpace

/-- components along an eigenvector -/
theorem eig_poly {E : Type*} [NormedAddCommGroup E] [InnerProductSpace ℝ E] {T : Module.End ℝ E}
    (hT : LinearMap.IsSymmetric T) {x : E} {μ : ℝ} (hb : T x = μ • x) (Q : ℝ[X]) :
    ∀ y : E, ⟪x, aeval T Q y⟫ = Q.eval μ * ⟪x, y⟫ := by
  induction Q using Polynomial.induction_on' with
  | add p q hp hq =>
    intro y
    rw [map_add, LinearMap.add_apply, inner_add_right, hp, hq, eval_add, add_mul]
  | monomial n a =>
    induction n with
    | zero =>
      intro y
      simp [inner_smul_right]
    | succ n ih =>
      intro y
      have e : (aeval T) (monomial (n + 1) a) y = (aeval T) (monomial n a) (T y) := by
        rw [aeval_monomial, aeval_monomial, pow_succ, Module.End.mul_apply, Module.End.mul_apply,
          Module.End.mul_apply]
      rw [e, ih, ← hT, hb, inner_smul_left, eval_monomial, eval_monomial]
      simp
      ring

/-- A polynomial of a symmetric operator on a Euclidean space is bounded by its values on an interval
that contains the numerical range. -/
theorem contract_euclid {E : Type*} [NormedAddCommGroup E] [InnerProductSpace ℝ E]
    [FiniteDimensional ℝ E] {T : Module.End ℝ E} (hT : LinearMap.IsSymmetric T) {L : ℝ}
    (h0 : ∀ y : E, ⟪y, T y⟫ ≤ 0) (hL : ∀ y : E, -(L * ‖y‖ ^ 2) ≤ ⟪y, T y⟫) {P : ℝ[X]}
    (hP : ∀ z, -L ≤ z → z ≤ 0 → |P.eval z| ≤ 1) (y : E) : ‖aeval T P y‖ ^ 2 ≤ ‖y‖ ^ 2 := by
  let b := hT.eigenvectorBasis rfl
  let l := hT.eigenvalues rfl
  have hb : ∀ i, T (b i) = l i • b i := fun i => hT.apply_eigenvectorBasis rfl i
  have hn : ∀ i, ⟪b i, b i⟫ = (1 : ℝ) := fun i => by
    rw [real_inner_self_eq_norm_sq, b.norm_eq_one, one_pow]
  have hl : ∀ i, ⟪b i, T (b i)⟫ = l i := fun i => by
    rw [hb, inner_smul_right, hn, mul_one]
  rw [← b.sum_sq_norm_inner_right, ← b.sum_sq_norm_inner_right y]
  refine Finset.sum_le_sum fun i _ => ?_
  rw [eig_poly hT (hb i), norm_mul, mul_pow]
  have h1 : l i ≤ 0 := (hl i) ▸ h0 (b i)
  have h2 : -L ≤ l i := by
    have := hL (b i)
    rw [hl, b.norm_eq_one] at this
    linarith
  have h3 := hP _ h2 h1
  have h4 : ‖P.eval (l i)‖ ^ 2 ≤ 1 := by
    rw [Real.norm_eq_abs]
    exact pow_le_one₀ (abs_nonneg _) h3
  nlinarith [sq_nonneg ‖⟪b i, y⟫‖]

/-- A local symmetric operator on functions on a finite set of indices with positive weights is one on a Euclidean
space. -/
theorem embed {A : Finset Int} {w : Int → ℝ} (hw : ∀ i ∈ A, 0 < w i)
    {T : Module.End ℝ (Int → ℝ)}
    (hloc : ∀ f g : Int → ℝ, (∀ i ∈ A, f i = g i) → ∀ i ∈ A, T f i = T g i)
    (hsym : ∀ f g : Int → ℝ, ∑ i ∈ A, w i * (T f i * g i) = ∑ i ∈ A, w i * (f i * T g i)) :
    ∃ (res : (Int → ℝ) →ₗ[ℝ] EuclideanSpace ℝ A) (S : Module.End ℝ (EuclideanSpace ℝ A)),
      LinearMap.IsSymmetric S ∧ Function.Surjective res ∧
      (∀ f g, ⟪res f, res g⟫ = ∑ i ∈ A, w i * (f i * g i)) ∧
      (∀ (Q : ℝ[X]) f, aeval S Q (res f) = res (aeval T Q f)) ∧ ∀ f, S (res f) = res (T f) := by
  let res : (Int → ℝ) →ₗ[ℝ] EuclideanSpace ℝ A :=
    { toFun := fun f => WithLp.toLp 2 fun i => √(w i) * f i
      map_add' := fun x y => by
        ext i
        simp [mul_add]
      map_smul' := fun a x => by
        ext i
        simp
        ring }
  let ext : EuclideanSpace ℝ A →ₗ[ℝ] (Int → ℝ) :=
    { toFun := fun y i => if h : i ∈ A then y ⟨i, h⟩ / √(w i) else 0
      map_add' := fun x y => by
        funext i
        by_cases h : i ∈ A <;> simp [h, add_div]
      map_smul' := fun a x => by
        funext i
        by_cases h : i ∈ A <;> simp [h, mul_div_assoc] }
  have hs : ∀ i : A, √(w i) ≠ 0 := fun i => (Real.sqrt_pos.2 (hw i i.2)).ne'
  have hsq : ∀ i : A, √(w i) * √(w i) = w i := fun i => Real.mul_self_sqrt (hw i i.2).le
  have er : ∀ f, ∀ i ∈ A, ext (res f) i = f i := fun f i hi => by
    show (if h : i ∈ A then √(w i) * f i / √(w i) else 0) = f i
    rw [dif_pos hi, mul_comm, mul_div_assoc, div_self (hs ⟨i, hi⟩), mul_one]
  have re : ∀ y, res (ext y) = y := fun y => by
    ext i
    show √(w i) * (if h : (i : Int) ∈ A then y ⟨i, h⟩ / √(w i) else 0) = y i
    rw [dif_pos i.2, mul_div_cancel₀ _ (hs i)]
  have inn : ∀ f g, ⟪res f, res g⟫ = ∑ i ∈ A, w i * (f i * g i) := fun f g => by
    rw [PiLp.inner_apply, ← Finset.sum_coe_sort A]
    refine Finset.sum_congr rfl fun i _ => ?_
    show √(w i) * g i * (√(w i) * f i) = _
    linear_combination (f i * g i) * hsq i
  let S : Module.End ℝ (EuclideanSpace ℝ A) := res ∘ₗ T ∘ₗ ext
  have int1 : ∀ f, S (res f) = res (T f) := fun f => by
    ext i
    show √(w i) * T (ext (res f)) i = √(w i) * T f i
    rw [hloc _ f (er f) i i.2]
  have intP : ∀ (Q : ℝ[X]) f, aeval S Q (res f) = res (aeval T Q f) := by
    intro Q
    induction Q using Polynomial.induction_on' with
    | add p q hp hq =>
      intro f
      rw [map_add, map_add, LinearMap.add_apply, LinearMap.add_apply, hp, hq, map_add]
    | monomial n a =>
      induction n with
      | zero =>
        intro f
        simp
      | succ n ih =>
        intro f
        have e : (aeval S) (monomial (n + 1) a) (res f) = (aeval S) (monomial n a) (S (res f)) := by
          rw [aeval_monomial, aeval_monomial, pow_succ, Module.End.mul_apply, Module.End.mul_apply,
            Module.End.mul_apply]
        have e' : (aeval T) (monomial (n + 1) a) f = (aeval T) (monomial n a) (T f) := by
          rw [aeval_monomial, aeval_monomial, pow_succ, Module.End.mul_apply, Module.End.mul_apply,
            Module.End.mul_apply]
        rw [e, e', int1, ih]
  have sS : LinearMap.IsSymmetric S := fun x y => by
    rw [← re x, ← re y, int1, int1, inn, inn]
    exact hsym _ _
  exact ⟨res, S, sS, fun y => ⟨ext y, re y⟩, inn, intP, int1⟩

/-- The same for functions on a finite set of indices with positive weights. -/
theorem contract {A : Finset Int} {w : Int → ℝ} (hw : ∀ i ∈ A, 0 < w i)
    {T : Module.End ℝ (Int → ℝ)}
    (hloc : ∀ f g : Int → ℝ, (∀ i ∈ A, f i = g i) → ∀ i ∈ A, T f i = T g i)
    (hsym : ∀ f g : Int → ℝ, ∑ i ∈ A, w i * (T f i * g i) = ∑ i ∈ A, w i * (f i * T g i)) {L : ℝ}
    (h0 : ∀ f : Int → ℝ, ∑ i ∈ A, w i * (f i * T f i) ≤ 0)
    (hL : ∀ f : Int → ℝ, -(L * ∑ i ∈ A, w i * f i ^ 2) ≤ ∑ i ∈ A, w i * (f i * T f i)) {P : ℝ[X]}
    (hP : ∀ z, -L ≤ z → z ≤ 0 → |P.eval z| ≤ 1) (f : Int → ℝ) :
    ∑ i ∈ A, w i * (aeval T P f i) ^ 2 ≤ ∑ i ∈ A, w i * f i ^ 2 := by
  obtain ⟨res, S, sS, sur, inn, intP, int1⟩ := embed hw hloc hsym
  have nrm : ∀ f, ‖res f‖ ^ 2 = ∑ i ∈ A, w i * f i ^ 2 := fun f => by
    rw [← real_inner_self_eq_norm_sq, inn]
    exact Finset.sum_congr rfl fun i _ => by ring
  have := contract_euclid (T := S) sS (L := L)
    (fun y => by obtain ⟨f, rfl⟩ := sur y; rw [int1, inn]; exact h0 _)
    (fun y => by obtain ⟨f, rfl⟩ := sur y; rw [int1, inn, nrm]; exact hL _) hP (res f)
  rwa [intP, nrm, nrm] at this

/-- If a polynomial is less than one in absolute value on the interval without zero, then it shrinks everything
orthogonal to the kernel by a fixed factor. -/
theorem decay_euclid {E : Type*} [NormedAddCommGroup E] [InnerProductSpace ℝ E]
    [FiniteDimensional ℝ E] {T : Module.End ℝ E} (hT : LinearMap.IsSymmetric T) {L : ℝ}
    (h0 : ∀ y : E, ⟪y, T y⟫ ≤ 0) (hL : ∀ y : E, -(L * ‖y‖ ^ 2) ≤ ⟪y, T y⟫) {P : ℝ[X]}
    (hP : ∀ z, -L ≤ z → z < 0 → |P.eval z| < 1) :
    ∃ r : ℝ, 0 ≤ r ∧ r < 1 ∧ ∀ y : E, (∀ x, T x = 0 → ⟪x, y⟫ = 0) → ‖aeval T P y‖ ^ 2 ≤ r * ‖y‖ ^ 2 := by
  let b := hT.eigenvectorBasis rfl
  let l := hT.eigenvalues rfl
  have hb : ∀ i, T (b i) = l i • b i := fun i => hT.apply_eigenvectorBasis rfl i
  have hn : ∀ i, ⟪b i, b i⟫ = (1 : ℝ) := fun i => by
    rw [real_inner_self_eq_norm_sq, b.norm_eq_one, one_pow]
  have hl : ∀ i, ⟪b i, T (b i)⟫ = l i := fun i => by
    rw [hb, inner_smul_right, hn, mul_one]
  have h1 : ∀ i, l i ≤ 0 := fun i => (hl i) ▸ h0 (b i)
  have h2 : ∀ i, -L ≤ l i := fun i => by
    have := hL (b i)
    rw [hl, b.norm_eq_one] at this
    linarith
  clear_value l b
  set s : Fin _ → NNReal := fun i => if l i = 0 then 0 else (P.eval (l i) ^ 2).toNNReal with hs
  have s0 : ∀ i, l i = 0 → s i = 0 := fun i h => if_pos h
  have s1 : ∀ i, l i ≠ 0 → (s i : ℝ) = P.eval (l i) ^ 2 := fun i h => by
    rw [← Real.coe_toNNReal (P.eval (l i) ^ 2) (sq_nonneg _)]
    exact congrArg _ (if_neg h)
  have lt : Finset.univ.sup s < 1 := by
    rw [Finset.sup_lt_iff (by simp)]
    intro i _
    by_cases h : l i = 0
    · rw [s0 i h]
      exact zero_lt_one
    · rw [← NNReal.coe_lt_coe, s1 i h, NNReal.coe_one, sq_lt_one_iff_abs_lt_one]
      exact hP _ (h2 i) (lt_of_le_of_ne (h1 i) h)
  refine ⟨((Finset.univ.sup s : NNReal) : ℝ), NNReal.coe_nonneg _, lt, fun y hy => ?_⟩
  rw [← b.sum_sq_norm_inner_right, ← b.sum_sq_norm_inner_right y, Finset.mul_sum]
  refine Finset.sum_le_sum fun i _ => ?_
  rw [eig_poly hT (hb i), norm_mul, mul_pow]
  by_cases h : l i = 0
  · have := hy (b i) (by rw [hb, h, zero_smul])
    rw [this]
    simp
  · refine mul_le_mul_of_nonneg_right ?_ (sq_nonneg _)
    have le : s i ≤ Finset.univ.sup s := Finset.le_sup (Finset.mem_univ i)
    rw [← NNReal.coe_le_coe] at le
    refine le_trans (le_of_eq ?_) le
    rw [s1 i h, Real.norm_eq_abs, sq_abs]

/-- The same for functions on a finite set of indices with positive weights. -/
theorem decay {A : Finset Int} {w : Int → ℝ} (hw : ∀ i ∈ A, 0 < w i)
    {T : Module.End ℝ (Int → ℝ)}
    (hloc : ∀ f g : Int → ℝ, (∀ i ∈ A, f i = g i) → ∀ i ∈ A, T f i = T g i)
    (hsym : ∀ f g : Int → ℝ, ∑ i ∈ A, w i * (T f i * g i) = ∑ i ∈ A, w i * (f i * T g i)) {L : ℝ}
    (h0 : ∀ f : Int → ℝ, ∑ i ∈ A, w i * (f i * T f i) ≤ 0)
    (hL : ∀ f : Int → ℝ, -(L * ∑ i ∈ A, w i * f i ^ 2) ≤ ∑ i ∈ A, w i * (f i * T f i)) {P : ℝ[X]}
    (hP : ∀ z, -L ≤ z → z < 0 → |P.eval z| < 1) :
    ∃ r : ℝ, 0 ≤ r ∧ r < 1 ∧ ∀ f : Int → ℝ,
      (∀ g : Int → ℝ, (∀ i ∈ A, T g i = 0) → ∑ i ∈ A, w i * (g i * f i) = 0) →
      ∑ i ∈ A, w i * (aeval T P f i) ^ 2 ≤ r * ∑ i ∈ A, w i * f i ^ 2 := by
  obtain ⟨res, S, sS, sur, inn, intP, int1⟩ := embed hw hloc hsym
  have nrm : ∀ f, ‖res f‖ ^ 2 = ∑ i ∈ A, w i * f i ^ 2 := fun f => by
    rw [← real_inner_self_eq_norm_sq, inn]
    exact Finset.sum_congr rfl fun i _ => by ring
  obtain ⟨r, r0, r1, h⟩ := decay_euclid (T := S) sS (L := L)
    (fun y => by obtain ⟨f, rfl⟩ := sur y; rw [int1, inn]; exact h0 _)
    (fun y => by obtain ⟨f, rfl⟩ := sur y; rw [int1, inn, nrm]; exact hL _) hP
  refine ⟨r, r0, r1, fun f hf => ?_⟩
  have := h (res f) fun x hx => by
    obtain ⟨g, rfl⟩ := sur x
    rw [inn]
    refine hf g fun i hi => ?_
    rw [int1] at hx
    have z : ∑ i ∈ A, w i * (T g i * T g i) = 0 := by rw [← inn, hx, inner_zero_left]
    rw [Finset.sum_eq_zero_iff_of_nonneg fun i hi => mul_nonneg (hw i hi).le (mul_self_nonneg _)] at z
    exact mul_self_eq_zero.1 ((mul_eq_zero.1 (z i hi)).resolve_left (hw i hi).ne')
  rwa [intP, nrm, nrm] at this

/-- Polynomials act on the kernel, and on the component along it, as their constant coefficient. -/
theorem kernel_poly {A : Finset Int} {w : Int → ℝ} {T : Module.End ℝ (Int → ℝ)}
    (hloc : ∀ f g : Int → ℝ, (∀ i ∈ A, f i = g i) → ∀ i ∈ A, T f i = T g i)
    (hsym : ∀ f g : Int → ℝ, ∑ i ∈ A, w i * (T f i * g i) = ∑ i ∈ A, w i * (f i * T g i)) {g : Int → ℝ}
    (hg : ∀ i ∈ A, T g i = 0) (P : ℝ[X]) :
    (∀ i ∈ A, aeval T P g i = P.eval 0 * g i) ∧
      ∀ f : Int → ℝ, ∑ i ∈ A, w i * (g i * aeval T P f i) = P.eval 0 * ∑ i ∈ A, w i * (g i * f i) := by
  constructor
  · induction P using Polynomial.induction_on' with
    | add p q hp hq =>
      intro i hi
      rw [map_add, LinearMap.add_apply, Pi.add_apply, hp i hi, hq i hi, eval_add, add_mul]
    | monomial n a =>
      intro i hi
      cases n with
      | zero => simp
      | succ n =>
        have pz : ∀ n : ℕ, ∀ i ∈ A, (T ^ (n + 1)) g i = 0 := fun n => by
          induction n with
          | zero => simpa using hg
          | succ n ih =>
            intro i hi
            rw [pow_succ', Module.End.mul_apply, hloc _ 0 (by simpa using ih) i hi]
            simp
        have : (algebraMap ℝ (Module.End ℝ (Int → ℝ)) a * T ^ (n + 1)) g i = a * (T ^ (n + 1)) g i := by
          simp [Module.End.mul_apply]
        rw [aeval_monomial, this, pz n i hi, eval_monomial]
        simp
  · induction P using Polynomial.induction_on' with
    | add p q hp hq =>
      intro f
      simp only [map_add, LinearMap.add_apply, Pi.add_apply, mul_add, Finset.sum_add_distrib, hp, hq, eval_add,
        add_mul]
    | monomial n a =>
      intro f
      have e : ∀ j, aeval T (monomial n a) f j = a * (T ^ n) f j := fun j => by
        rw [aeval_monomial]
        simp [Module.End.mul_apply]
      simp only [e]
      cases n with
      | zero =>
        rw [eval_monomial, Finset.mul_sum]
        exact Finset.sum_congr rfl fun i _ => by simp; ring
      | succ n =>
        have z : ∑ i ∈ A, w i * (g i * (T ^ (n + 1)) f i) = 0 := by
          have := hsym g ((T ^ n) f)
          rw [pow_succ', Module.End.mul_apply, ← this]
          exact Finset.sum_eq_zero fun i hi => by rw [hg i hi]; ring
        have : ∑ i ∈ A, w i * (g i * (a * (T ^ (n + 1)) f i)) = a * ∑ i ∈ A, w i * (g i * (T ^ (n + 1)) f i) := by
          rw [Finset.mul_sum]
          exact Finset.sum_congr rfl fun i _ => by ring
        rw [this, z, eval_monomial]
        simp

end Spectral
end
end Omega
