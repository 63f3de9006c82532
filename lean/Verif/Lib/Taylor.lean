import Mathlib.Analysis.Calculus.Taylor
import Mathlib.Analysis.Calculus.ContDiff.Operations
import Mathlib.Analysis.Calculus.IteratedDeriv.Lemmas

/-! Taylor estimates along segments for functions of a normed space, and doubly periodic functions of the
plane. Pure analysis, nothing about the code: used by the truncation-error theorems. -/

namespace Omega
namespace Taylor
open Set

variable {E : Type*} [NormedAddCommGroup E] [NormedSpace ℝ E]

/-- restriction to a line -/
def line (φ : E → ℝ) (z r : E) (s : ℝ) : ℝ := φ (z + s • r)

theorem line_contDiff {φ : E → ℝ} {n : ℕ} (h : ContDiff ℝ n φ) (z r : E) :
    ContDiff ℝ n (line φ z r) := by
  unfold line
  exact h.comp (contDiff_const.add (contDiff_id.smul contDiff_const))

theorem line_iteratedDeriv {φ : E → ℝ} {n : ℕ} (h : ContDiff ℝ n φ) (z r : E) (s : ℝ) :
    iteratedDeriv n (line φ z r) s = iteratedFDeriv ℝ n φ (z + s • r) (fun _ => r) := by
  have e : line φ z r = (fun w => φ (z + w)) ∘ (ContinuousLinearMap.toSpanSingleton ℝ r) := by
    funext t; simp [line, ContinuousLinearMap.toSpanSingleton_apply]
  have h2 : ContDiff ℝ n (fun w => φ (z + w)) := h.comp (contDiff_const.add contDiff_id)
  rw [iteratedDeriv_eq_iteratedFDeriv, e,
    ContinuousLinearMap.iteratedFDeriv_comp_right _ h2 s le_rfl]
  simp [ContinuousMultilinearMap.compContinuousLinearMap_apply, iteratedFDeriv_comp_add_left]

theorem line_bound {φ : E → ℝ} {n : ℕ} (h : ContDiff ℝ n φ) {B : ℝ}
    (hB : ∀ z, ‖iteratedFDeriv ℝ n φ z‖ ≤ B) (z r : E) (s : ℝ) :
    |iteratedDeriv n (line φ z r) s| ≤ B * ‖r‖ ^ n := by
  rw [line_iteratedDeriv h, ← Real.norm_eq_abs]
  refine (ContinuousMultilinearMap.le_opNorm _ _).trans ?_
  simp only [Finset.prod_const, Finset.card_univ, Fintype.card_fin]
  exact mul_le_mul_of_nonneg_right (hB _) (by positivity)

theorem line_deriv {φ : E → ℝ} (h : Differentiable ℝ φ) (z r : E) (s : ℝ) :
    HasDerivAt (line φ z r) (fderiv ℝ φ (z + s • r) r) s := by
  have h1 : HasDerivAt (fun s : ℝ => z + s • r) r s := by
    simpa using ((hasDerivAt_id s).smul_const r).const_add z
  exact ((h (z + s • r)).hasFDerivAt).comp_hasDerivAt s h1

/-- first-order Taylor remainder -/
theorem remainder_two {φ : E → ℝ} (h : ContDiff ℝ 2 φ) {B : ℝ}
    (hB : ∀ z, ‖iteratedFDeriv ℝ 2 φ z‖ ≤ B) (z r : E) :
    |φ (z + r) - φ z - fderiv ℝ φ z r| ≤ B * ‖r‖ ^ 2 / 2 := by
  have hc := line_contDiff (n := 2) (by exact_mod_cast h) z r
  obtain ⟨x, -, hx⟩ := taylor_mean_remainder_lagrange_iteratedDeriv (f := line φ z r)
    (x := 1) (x₀ := 0) (n := 1) (by norm_num) (by exact_mod_cast hc.contDiffOn)
  have h0 : line φ z r 0 = φ z := by simp [line]
  have h1 : line φ z r 1 = φ (z + r) := by simp [line]
  have hd := line_deriv (h.differentiable (by norm_num)) z r 0
  have hu : UniqueDiffWithinAt ℝ (uIcc (0:ℝ) 1) 0 :=
    uniqueDiffOn_uIcc (by norm_num) 0 (by simp)
  rw [taylorWithinEval_succ, taylor_within_zero_eval] at hx
  simp only [zero_add, iteratedDerivWithin_one, hd.hasDerivWithinAt.derivWithin hu, h0, h1] at hx
  have hb := line_bound (n := 2) (by exact_mod_cast h) hB z r x
  norm_num at hx
  rw [show φ (z + r) - φ z - fderiv ℝ φ z r = iteratedDeriv 2 (line φ z r) x / 2 by
    rw [← hx]; ring, abs_div, abs_two]
  linarith

/-- second-order Taylor remainder -/
theorem remainder_three {φ : E → ℝ} (h : ContDiff ℝ 3 φ) {B : ℝ}
    (hB : ∀ z, ‖iteratedFDeriv ℝ 3 φ z‖ ≤ B) (z r : E) :
    |φ (z + r) - φ z - fderiv ℝ φ z r - iteratedFDeriv ℝ 2 φ z (fun _ => r) / 2|
      ≤ B * ‖r‖ ^ 3 / 6 := by
  have hc := line_contDiff (n := 3) (by exact_mod_cast h) z r
  have hc2 : ContDiff ℝ (2 : ℕ) φ := h.of_le (by norm_num)
  obtain ⟨x, -, hx⟩ := taylor_mean_remainder_lagrange_iteratedDeriv (f := line φ z r)
    (x := 1) (x₀ := 0) (n := 2) (by norm_num) (by exact_mod_cast hc.contDiffOn)
  have h0 : line φ z r 0 = φ z := by simp [line]
  have h1 : line φ z r 1 = φ (z + r) := by simp [line]
  have hd := line_deriv (h.differentiable (by norm_num)) z r 0
  have hu : UniqueDiffOn ℝ (uIcc (0:ℝ) 1) := uniqueDiffOn_uIcc (by norm_num)
  have h2 : iteratedDerivWithin 2 (line φ z r) (uIcc 0 1) 0
      = iteratedFDeriv ℝ 2 φ z (fun _ => r) := by
    rw [iteratedDerivWithin_eq_iteratedDeriv hu
      (((line_contDiff hc2 z r).contDiffAt)) (by simp), line_iteratedDeriv hc2]
    simp
  rw [taylorWithinEval_succ, taylorWithinEval_succ, taylor_within_zero_eval] at hx
  simp only [zero_add, iteratedDerivWithin_one, hd.hasDerivWithinAt.derivWithin (hu 0 (by simp)),
    h0, h1, Nat.reduceAdd, h2] at hx
  have hb := line_bound (n := 3) (by exact_mod_cast h) hB z r x
  norm_num [Nat.factorial] at hx
  rw [show φ (z + r) - φ z - fderiv ℝ φ z r - iteratedFDeriv ℝ 2 φ z (fun _ => r) / 2
      = iteratedDeriv 3 (line φ z r) x / 6 by rw [← hx]; ring, abs_div,
      abs_of_pos (by norm_num : (0:ℝ) < 6)]
  linarith

/-- the symmetric difference is third-order accurate -/
theorem symm_diff {φ : E → ℝ} (h : ContDiff ℝ 3 φ) {B : ℝ}
    (hB : ∀ z, ‖iteratedFDeriv ℝ 3 φ z‖ ≤ B) (z r : E) :
    |φ (z + r) - φ (z - r) - 2 * fderiv ℝ φ z r| ≤ B * ‖r‖ ^ 3 / 3 := by
  have h1 := abs_le.mp (remainder_three h hB z r)
  have h2 := abs_le.mp (remainder_three h hB z (-r))
  have h3 : iteratedFDeriv ℝ 2 φ z (fun _ => -r) = iteratedFDeriv ℝ 2 φ z (fun _ => r) := by
    have := (iteratedFDeriv ℝ 2 φ z).map_smul_univ (fun _ => (-1 : ℝ)) (fun _ => r)
    simpa using this
  rw [h3, norm_neg, ← sub_eq_add_neg, map_neg] at h2
  rw [abs_le]
  constructor <;> linarith [h1.1, h1.2, h2.1, h2.2]

/-- the symmetric mean is second-order accurate -/
theorem symm_mean {φ : E → ℝ} (h : ContDiff ℝ 2 φ) {B : ℝ}
    (hB : ∀ z, ‖iteratedFDeriv ℝ 2 φ z‖ ≤ B) (z r : E) :
    |φ (z + r) + φ (z - r) - 2 * φ z| ≤ B * ‖r‖ ^ 2 := by
  have h1 := abs_le.mp (remainder_two h hB z r)
  have h2 := abs_le.mp (remainder_two h hB z (-r))
  rw [norm_neg, ← sub_eq_add_neg, map_neg] at h2
  rw [abs_le]
  constructor <;> linarith [h1.1, h1.2, h2.1, h2.2]

/-! ### Doubly periodic functions -/

/-- `φ` has periods `(P, 0)` and `(0, Q)` -/
def Periodic2 {α : Type*} (P Q : ℝ) (φ : ℝ × ℝ → α) : Prop :=
  (∀ x y, φ (x + P, y) = φ (x, y)) ∧ (∀ x y, φ (x, y + Q) = φ (x, y))

theorem Periodic2.shift {α : Type*} {P Q : ℝ} {φ : ℝ × ℝ → α} (h : Periodic2 P Q φ) (k l : Int)
    (x y : ℝ) : φ (x + k * P, y + l * Q) = φ (x, y) := by
  have h1 : Function.Periodic (fun x => φ (x, y + l * Q)) P := fun x => h.1 x _
  have h2 : Function.Periodic (fun y => φ (x, y)) Q := fun y => h.2 x y
  exact ((h1.int_mul k) x).trans ((h2.int_mul l) y)

theorem Periodic2.iter {P Q : ℝ} {φ : ℝ × ℝ → ℝ} (h : Periodic2 P Q φ) (n : ℕ) :
    Periodic2 P Q (fun z => iteratedFDeriv ℝ n φ z) := by
  constructor
  · intro x y
    have e : (fun w => φ ((P, 0) + w)) = φ := by
      funext w; obtain ⟨a, b⟩ := w
      simpa [add_comm] using h.1 a b
    have := iteratedFDeriv_comp_add_left (𝕜 := ℝ) (f := φ) n (P, 0) (x, y)
    rw [e] at this
    show iteratedFDeriv ℝ n φ _ = iteratedFDeriv ℝ n φ _
    rw [this]; simp [add_comm]
  · intro x y
    have e : (fun w => φ ((0, Q) + w)) = φ := by
      funext w; obtain ⟨a, b⟩ := w
      simpa [add_comm] using h.2 a b
    have := iteratedFDeriv_comp_add_left (𝕜 := ℝ) (f := φ) n (0, Q) (x, y)
    rw [e] at this
    show iteratedFDeriv ℝ n φ _ = iteratedFDeriv ℝ n φ _
    rw [this]; simp [add_comm]

/-- the derivatives of a smooth doubly periodic function are bounded -/
theorem Periodic2.bounded {P Q : ℝ} (hP : 0 < P) (hQ : 0 < Q) {φ : ℝ × ℝ → ℝ} {n : ℕ}
    (h : Periodic2 P Q φ) (hc : ContDiff ℝ n φ) : ∃ B, 0 ≤ B ∧ ∀ z, ‖iteratedFDeriv ℝ n φ z‖ ≤ B := by
  have hk : IsCompact (Icc (0:ℝ) P ×ˢ Icc (0:ℝ) Q) := isCompact_Icc.prod isCompact_Icc
  have hcont : Continuous (fun z => ‖iteratedFDeriv ℝ n φ z‖) :=
    (hc.continuous_iteratedFDeriv le_rfl).norm
  obtain ⟨B, hB⟩ := (hk.image hcont).bddAbove
  refine ⟨max B 0, le_max_right _ _, ?_⟩
  rintro ⟨x, y⟩
  obtain ⟨k, hk1, -⟩ := existsUnique_add_zsmul_mem_Ico hP x 0
  obtain ⟨l, hl1, -⟩ := existsUnique_add_zsmul_mem_Ico hQ y 0
  have e := (h.iter n).shift k l x y
  simp only [zsmul_eq_mul, zero_add] at hk1 hl1
  refine le_trans ?_ (le_max_left _ _)
  rw [← e]
  exact hB (mem_image_of_mem _ ⟨⟨hk1.1, hk1.2.le⟩, ⟨hl1.1, hl1.2.le⟩⟩)

end Taylor
end Omega
