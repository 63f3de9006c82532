import Verif.Lib.Butcher
import Mathlib.Analysis.Normed.Module.FiniteDimension
import Mathlib.Topology.MetricSpace.ProperSpace
import Mathlib.Analysis.Complex.Exponential

/-! The local error of explicit Runge-Kutta methods that satisfy the order conditions through order four,
uniformly over compact sets of states, small step sizes and bounded tableaux. Pure analysis. -/

set_option linter.unusedVariables false
set_option linter.unusedSectionVars false

namespace Omega
namespace Butcher

open Set Metric
open scoped ContDiff

variable {E : Type*} [NormedAddCommGroup E] [NormedSpace ℝ E] {U : Set E} {F : E → E}

/-! ### Bounds -/

theorem jet_bound [FiniteDimensional ℝ E] (hU : IsOpen U) (hF : ContDiffOn ℝ ∞ F U) {K : Set E}
    (hK : IsCompact K) (hKU : K ⊆ U) (R : ℝ) :
    ∃ C : ℝ, ∀ Y : ℕ → E, Y 0 ∈ K → (∀ n, 1 ≤ n → n ≤ 4 → ‖Y n‖ ≤ R) → ∀ n ≤ 4, ‖jet F Y n‖ ≤ C := by
  have : ProperSpace E := FiniteDimensional.proper ℝ E
  have cB : IsCompact (closedBall (0 : E) R) := isCompact_closedBall _ _
  obtain ⟨C0, h0⟩ := hK.exists_bound_of_continuousOn (hF.continuousOn.mono hKU)
  obtain ⟨C1, h1⟩ := (hK.prod cB).exists_bound_of_continuousOn
    ((D1_smooth hU hF).continuousOn.mono (prod_mono hKU (subset_univ _)))
  obtain ⟨C2, h2⟩ := (hK.prod (cB.prod cB)).exists_bound_of_continuousOn
    ((D2_smooth hU hF).continuousOn.mono (prod_mono hKU (subset_univ _)))
  obtain ⟨C3, h3⟩ := (hK.prod ((cB.prod cB).prod cB)).exists_bound_of_continuousOn
    ((D3_smooth hU hF).continuousOn.mono (prod_mono hKU (subset_univ _)))
  obtain ⟨C4, h4⟩ := (hK.prod (((cB.prod cB).prod cB).prod cB)).exists_bound_of_continuousOn
    ((D4_smooth hU hF).continuousOn.mono (prod_mono hKU (subset_univ _)))
  refine ⟨|C0| + |C1| + 12 * |C2| + 12 * |C3| + |C4|, fun Y hY0 hY n hn => ?_⟩
  have m : ∀ n, 1 ≤ n → n ≤ 4 → Y n ∈ closedBall (0 : E) R := fun n h1 h2 => by simpa using hY n h1 h2
  have m1 := m 1 (by omega) (by omega)
  have m2 := m 2 (by omega) (by omega)
  have m3 := m 3 (by omega) (by omega)
  have m4 := m 4 (by omega) (by omega)
  have g0 := (h0 _ hY0).trans (le_abs_self _)
  have g1 : ∀ a ∈ closedBall (0 : E) R, ‖D1 F (Y 0, a)‖ ≤ |C1| := fun a ha =>
    (h1 (Y 0, a) ⟨hY0, ha⟩).trans (le_abs_self _)
  have g2 : ∀ a ∈ closedBall (0 : E) R, ∀ b ∈ closedBall (0 : E) R, ‖D2 F (Y 0, (a, b))‖ ≤ |C2| :=
    fun a ha b hb => (h2 (Y 0, (a, b)) ⟨hY0, ha, hb⟩).trans (le_abs_self _)
  have g3 : ∀ a ∈ closedBall (0 : E) R, ∀ b ∈ closedBall (0 : E) R, ∀ c ∈ closedBall (0 : E) R,
      ‖D3 F (Y 0, ((a, b), c))‖ ≤ |C3| :=
    fun a ha b hb c hc => (h3 (Y 0, ((a, b), c)) ⟨hY0, ⟨ha, hb⟩, hc⟩).trans (le_abs_self _)
  have g4 : ‖D4 F (Y 0, (((Y 1, Y 1), Y 1), Y 1))‖ ≤ |C4| :=
    (h4 (Y 0, (((Y 1, Y 1), Y 1), Y 1)) ⟨hY0, ⟨⟨m1, m1⟩, m1⟩, m1⟩).trans (le_abs_self _)
  have p0 := abs_nonneg C0
  have p1 := abs_nonneg C1
  have p2 := abs_nonneg C2
  have p3 := abs_nonneg C3
  have p4 := abs_nonneg C4
  have n3 : ∀ x : E, ‖(3 : ℝ) • x‖ = 3 * ‖x‖ := fun x => by rw [norm_smul]; norm_num
  interval_cases n
  · simp only [jet]; linarith
  · simp only [jet]; linarith [g1 _ m1]
  · simp only [jet]
    refine (norm_add_le _ _).trans ?_
    linarith [g1 _ m2, g2 _ m1 _ m1]
  · simp only [jet]
    refine (norm_add_le _ _).trans ?_
    have := norm_add_le (D3 F (Y 0, ((Y 1, Y 1), Y 1))) ((3 : ℝ) • D2 F (Y 0, (Y 1, Y 2)))
    rw [n3] at this
    linarith [g1 _ m3, g2 _ m1 _ m2, g3 _ m1 _ m1 _ m1]
  · simp only [jet]
    refine (norm_add_le _ _).trans ?_
    have a1 := norm_add_le (D2 F (Y 0, (Y 3, Y 1))) (D1 F (Y 0, Y 4))
    have a2 := norm_add_le (D4 F (Y 0, (((Y 1, Y 1), Y 1), Y 1)) +
      (D3 F (Y 0, ((Y 2, Y 1), Y 1)) + D3 F (Y 0, ((Y 1, Y 2), Y 1)) + D3 F (Y 0, ((Y 1, Y 1), Y 2))))
      ((3 : ℝ) • (D3 F (Y 0, ((Y 1, Y 2), Y 1)) + (D2 F (Y 0, (Y 2, Y 2)) + D2 F (Y 0, (Y 1, Y 3)))))
    rw [n3] at a2
    have a3 := norm_add_le (D4 F (Y 0, (((Y 1, Y 1), Y 1), Y 1)))
      (D3 F (Y 0, ((Y 2, Y 1), Y 1)) + D3 F (Y 0, ((Y 1, Y 2), Y 1)) + D3 F (Y 0, ((Y 1, Y 1), Y 2)))
    have a4 := norm_add₃_le (a := D3 F (Y 0, ((Y 2, Y 1), Y 1))) (b := D3 F (Y 0, ((Y 1, Y 2), Y 1)))
      (c := D3 F (Y 0, ((Y 1, Y 1), Y 2)))
    have a5 := norm_add_le (D3 F (Y 0, ((Y 1, Y 2), Y 1))) (D2 F (Y 0, (Y 2, Y 2)) + D2 F (Y 0, (Y 1, Y 3)))
    have a6 := norm_add_le (D2 F (Y 0, (Y 2, Y 2))) (D2 F (Y 0, (Y 1, Y 3)))
    linarith [g1 _ m4, g2 _ m3 _ m1, g2 _ m2 _ m2, g2 _ m1 _ m3, g3 _ m2 _ m1 _ m1, g3 _ m1 _ m2 _ m1,
      g3 _ m1 _ m1 _ m2]

/-! ### The stages of an explicit method, and their derivatives in the step size -/

/-- derivative of order `n` in `t` of stage value `i`: `F (y + t Σ_{j<i} A i j k j)` -/
noncomputable def stg (F : E → E) (A : ℕ → ℕ → ℝ) (y : E) (t : ℝ) (i : ℕ) : ℕ → E :=
  jet F (fun n => match n with
    | 0 => y + ∑ j : Fin i, A i j • t • stg F A y t j 0
    | n + 1 => ∑ j : Fin i, A i j • (((n + 1 : ℕ) : ℝ) • stg F A y t j n + t • stg F A y t j (n + 1)))
termination_by i
decreasing_by all_goals exact j.2

/-- derivative of order `n` of the argument of stage `i` -/
noncomputable def arg (F : E → E) (A : ℕ → ℕ → ℝ) (y : E) (t : ℝ) (i : ℕ) : ℕ → E
  | 0 => y + ∑ j ∈ Finset.range i, A i j • t • stg F A y t j 0
  | n + 1 => ∑ j ∈ Finset.range i, A i j • (((n + 1 : ℕ) : ℝ) • stg F A y t j n + t • stg F A y t j (n + 1))

theorem stg_eq (F : E → E) (A : ℕ → ℕ → ℝ) (y : E) (t : ℝ) (i : ℕ) :
    stg F A y t i = jet F (arg F A y t i) := by
  rw [stg]
  congr 1
  funext n
  cases n with
  | zero => simp only [arg]; rw [Finset.sum_range]
  | succ n => simp only [arg]; rw [Finset.sum_range]

theorem stg_zero (F : E → E) (A : ℕ → ℕ → ℝ) (y : E) (t : ℝ) (i : ℕ) :
    stg F A y t i 0 = F (y + t • ∑ j ∈ Finset.range i, A i j • stg F A y t j 0) := by
  conv_lhs => rw [stg_eq]
  simp only [jet, arg]
  rw [Finset.smul_sum]
  congr 2
  exact Finset.sum_congr rfl fun j _ => smul_comm _ _ _

theorem stg_deriv (hU : IsOpen U) (hF : ContDiffOn ℝ ∞ F U) (A : ℕ → ℕ → ℝ) (y : E) {S : Set ℝ} {t : ℝ} (i : ℕ)
    (hin : ∀ j ≤ i, arg F A y t j 0 ∈ U) (n : ℕ) (hn : n < 4) :
    HasDerivWithinAt (fun t => stg F A y t i n) (stg F A y t i (n + 1)) S t := by
  induction i using Nat.strong_induction_on generalizing n with
  | _ i ih =>
    have ih' : ∀ j ∈ Finset.range i, ∀ n < 4,
        HasDerivWithinAt (fun t => stg F A y t j n) (stg F A y t j (n + 1)) S t := fun j hj n hn =>
      ih j (Finset.mem_range.mp hj) (fun l hl => hin l (hl.trans (Finset.mem_range.mp hj).le)) n hn
    have hY : ∀ m ≤ n, HasDerivWithinAt (fun t => arg F A y t i m) (arg F A y t i (m + 1)) S t := by
      intro m hm
      cases m with
      | zero =>
        simp only [arg]
        refine HasDerivWithinAt.const_add _ (HasDerivWithinAt.fun_sum fun j hj => ?_)
        refine HasDerivWithinAt.const_smul _ ?_
        have := (hasDerivWithinAt_id t S).smul (ih' j hj 0 (by omega))
        refine this.congr_deriv ?_
        simp [add_comm]
      | succ m =>
        simp only [arg]
        refine HasDerivWithinAt.fun_sum fun j hj => ?_
        refine HasDerivWithinAt.const_smul _ ?_
        have := ((ih' j hj m (by omega)).const_smul (((m + 1 : ℕ) : ℝ))).add
          ((hasDerivWithinAt_id t S).smul (ih' j hj (m + 1) (by omega)))
        refine this.congr_deriv ?_
        push_cast
        simp only [id]
        module
    have e : (fun t => stg F A y t i n) = fun t => jet F (fun m => arg F A y t i m) n := by
      funext t; rw [stg_eq]
    rw [e, stg_eq]
    exact jet_deriv hU hF n hn hY (hin i le_rfl)

theorem stg_bound [FiniteDimensional ℝ E] (hU : IsOpen U) (hF : ContDiffOn ℝ ∞ F U) {K : Set E}
    (hK : IsCompact K) (hKU : K ⊆ U) (M : ℝ) (i : ℕ) :
    ∃ C : ℝ, ∀ (A : ℕ → ℕ → ℝ) (y : E) (t : ℝ), (∀ i j, |A i j| ≤ M) → |t| ≤ 1 → (∀ j ≤ i, arg F A y t j 0 ∈ K) →
      ∀ j ≤ i, ∀ n ≤ 4, ‖stg F A y t j n‖ ≤ C := by
  induction i with
  | zero =>
    obtain ⟨C, hC⟩ := jet_bound hU hF hK hKU 0
    refine ⟨C, fun A y t hA ht hin j hj n hn => ?_⟩
    obtain rfl : j = 0 := by omega
    rw [stg_eq]
    refine hC _ (hin 0 le_rfl) (fun n h1 h2 => ?_) n hn
    obtain ⟨n, rfl⟩ : ∃ k, n = k + 1 := ⟨n - 1, by omega⟩
    simp [arg]
  | succ i ih =>
    obtain ⟨C, hC⟩ := ih
    obtain ⟨C', hC'⟩ := jet_bound hU hF hK hKU ((i + 1 : ℕ) * (|M| * (5 * |C|)))
    refine ⟨max C C', fun A y t hA ht hin j hj n hn => ?_⟩
    have old : ∀ j ≤ i, ∀ n ≤ 4, ‖stg F A y t j n‖ ≤ C := hC A y t hA ht fun j hj => hin j (by omega)
    rcases Nat.lt_or_ge i j with h | h
    · obtain rfl : j = i + 1 := by omega
      refine le_trans ?_ (le_max_right _ _)
      rw [stg_eq]
      refine hC' _ (hin _ le_rfl) (fun n h1 h2 => ?_) n hn
      obtain ⟨n, rfl⟩ : ∃ k, n = k + 1 := ⟨n - 1, by omega⟩
      simp only [arg]
      refine (norm_sum_le _ _).trans ?_
      refine (Finset.sum_le_card_nsmul _ _ (|M| * (5 * |C|)) fun j hj => ?_).trans ?_
      · have hj := Finset.mem_range.mp hj
        rw [norm_smul, Real.norm_eq_abs]
        refine mul_le_mul ((hA _ _).trans (le_abs_self _)) ?_ (norm_nonneg _) (abs_nonneg _)
        refine (norm_add_le _ _).trans ?_
        rw [norm_smul, norm_smul, Real.norm_eq_abs, Real.norm_eq_abs]
        have b1 := (old j (by omega) n (by omega)).trans (le_abs_self C)
        have b2 := (old j (by omega) (n + 1) (by omega)).trans (le_abs_self C)
        have c1 : |((n + 1 : ℕ) : ℝ)| ≤ 4 := by
          rw [Nat.abs_cast]; exact_mod_cast h2
        have := mul_le_mul c1 b1 (norm_nonneg _) (by norm_num)
        have := mul_le_mul ht b2 (norm_nonneg _) (by norm_num)
        linarith
      · simp
    · exact (old j h n hn).trans (le_max_left _ _)

/-! ### The stage derivatives at step size zero -/

/-- row sums of the matrix and the iterated sums in the order conditions -/
noncomputable def rS (A : ℕ → ℕ → ℝ) (i : ℕ) : ℝ := ∑ j ∈ Finset.range i, A i j
noncomputable def pS (A : ℕ → ℕ → ℝ) (i : ℕ) : ℝ := ∑ j ∈ Finset.range i, A i j * rS A j
noncomputable def qS (A : ℕ → ℕ → ℝ) (i : ℕ) : ℝ := ∑ j ∈ Finset.range i, A i j * rS A j ^ 2
noncomputable def wS (A : ℕ → ℕ → ℝ) (i : ℕ) : ℝ := ∑ j ∈ Finset.range i, A i j * pS A j

/-- elementary differentials through order four -/
noncomputable def e1 (F : E → E) (y : E) : E := F y
noncomputable def e2 (F : E → E) (y : E) : E := D1 F (y, e1 F y)
noncomputable def e3 (F : E → E) (y : E) : E := D1 F (y, e2 F y)
noncomputable def e4 (F : E → E) (y : E) : E := D2 F (y, (e1 F y, e1 F y))
noncomputable def e5 (F : E → E) (y : E) : E := D1 F (y, e3 F y)
noncomputable def e6 (F : E → E) (y : E) : E := D1 F (y, e4 F y)
noncomputable def e7 (F : E → E) (y : E) : E := D2 F (y, (e1 F y, e2 F y))
noncomputable def e8 (F : E → E) (y : E) : E := D3 F (y, ((e1 F y, e1 F y), e1 F y))

theorem D1_smul (y : E) (α : ℝ) (a : E) : D1 F (y, α • a) = α • D1 F (y, a) := by simp [D1]
theorem D1_add (y : E) (a b : E) : D1 F (y, a + b) = D1 F (y, a) + D1 F (y, b) := by simp [D1]
theorem D2_smul (hU : IsOpen U) (hF : ContDiffOn ℝ ∞ F U) {y : E} (hy : y ∈ U) (α β : ℝ) (a b : E) :
    D2 F (y, (α • a, β • b)) = (α * β) • D2 F (y, (a, b)) := by
  have h1 := D2_lin1 hU hF hy α 0 a 0 (β • b)
  have h2 := D2_lin2 (F := F) y β 0 a b 0
  simp only [zero_smul, add_zero] at h1 h2
  rw [h1, h2, smul_smul]
theorem D3_smul (hU : IsOpen U) (hF : ContDiffOn ℝ ∞ F U) {y : E} (hy : y ∈ U) (α β γ : ℝ) (a b c : E) :
    D3 F (y, ((α • a, β • b), γ • c)) = (α * β * γ) • D3 F (y, ((a, b), c)) := by
  have h1 := D3_lin1 hU hF hy α 0 a 0 (β • b) (γ • c)
  have h2 := D3_lin2 hU hF hy β 0 a b 0 (γ • c)
  have h3 := D3_lin3 (F := F) y γ 0 a b c 0
  simp only [zero_smul, add_zero] at h1 h2 h3
  rw [h1, h2, h3, smul_smul, smul_smul, mul_assoc]

section AtZero
variable (hU : IsOpen U) (hF : ContDiffOn ℝ ∞ F U) (A : ℕ → ℕ → ℝ) {y : E} (hy : y ∈ U)

theorem arg_zero0 (i : ℕ) : arg F A y 0 i 0 = y := by simp [arg]
theorem arg_zero_succ (i n : ℕ) :
    arg F A y 0 i (n + 1) = ∑ j ∈ Finset.range i, A i j • ((n + 1 : ℕ) : ℝ) • stg F A y 0 j n := by simp [arg]

theorem stg_zero0 (i : ℕ) : stg F A y 0 i 0 = e1 F y := by
  rw [stg_eq]; simp only [jet, arg_zero0]; rfl
theorem arg_zero1 (i : ℕ) : arg F A y 0 i 1 = rS A i • e1 F y := by
  rw [arg_zero_succ, rS, Finset.sum_smul]
  exact Finset.sum_congr rfl fun j _ => by rw [stg_zero0]; simp
theorem stg_zero1 (i : ℕ) : stg F A y 0 i 1 = rS A i • e2 F y := by
  rw [stg_eq]; simp only [jet, arg_zero0, arg_zero1, D1_smul]; rfl
theorem arg_zero2 (i : ℕ) : arg F A y 0 i 2 = (2 * pS A i) • e2 F y := by
  rw [arg_zero_succ, pS, Finset.mul_sum, Finset.sum_smul]
  refine Finset.sum_congr rfl fun j _ => ?_
  rw [stg_zero1]; push_cast; module
include hU hF hy in
theorem stg_zero2 (i : ℕ) : stg F A y 0 i 2 = rS A i ^ 2 • e4 F y + (2 * pS A i) • e3 F y := by
  rw [stg_eq]
  simp only [jet, arg_zero0, arg_zero1, arg_zero2, D1_smul, D2_smul hU hF hy]
  rw [← pow_two]; rfl
include hU hF hy in
theorem arg_zero3 (i : ℕ) : arg F A y 0 i 3 = (3 * qS A i) • e4 F y + (6 * wS A i) • e3 F y := by
  rw [arg_zero_succ, qS, wS, Finset.mul_sum, Finset.mul_sum, Finset.sum_smul, Finset.sum_smul,
    ← Finset.sum_add_distrib]
  refine Finset.sum_congr rfl fun j _ => ?_
  rw [stg_zero2 hU hF A hy]; push_cast; module
include hU hF hy in
theorem stg_zero3 (i : ℕ) : stg F A y 0 i 3 = rS A i ^ 3 • e8 F y + (6 * (rS A i * pS A i)) • e7 F y +
    ((3 * qS A i) • e6 F y + (6 * wS A i) • e5 F y) := by
  rw [stg_eq]
  simp only [jet, arg_zero0, arg_zero1, arg_zero2, arg_zero3 hU hF A hy, D1_smul, D1_add, D2_smul hU hF hy,
    D3_smul hU hF hy]
  simp only [e8, e7, e6, e5]
  module

end AtZero

/-! ### The derivatives of the exact solution -/

/-- derivatives of a solution of `u' = F u` in terms of its value -/
noncomputable def ex (F : E → E) (y : E) : ℕ → E
  | 0 => y
  | n + 1 => jet F (fun j => if h : j ≤ n then ex F y j else 0) n
termination_by n => n
decreasing_by omega

theorem jet_congr {Y Z : ℕ → E} {n : ℕ} (hn : n ≤ 4) (h : ∀ j ≤ n, Y j = Z j) : jet F Y n = jet F Z n := by
  interval_cases n <;> simp only [jet, h 0 (by omega)]
  · rw [h 1 (by omega)]
  · rw [h 1 (by omega), h 2 (by omega)]
  · rw [h 1 (by omega), h 2 (by omega), h 3 (by omega)]
  · rw [h 1 (by omega), h 2 (by omega), h 3 (by omega), h 4 (by omega)]

theorem ex_succ (y : E) {n : ℕ} (hn : n ≤ 4) : ex F y (n + 1) = jet F (ex F y) n := by
  rw [ex]
  exact jet_congr hn fun j hj => by simp [hj]

theorem ex_zero (y : E) : ex F y 0 = y := by rw [ex]

theorem ex_deriv (hU : IsOpen U) (hF : ContDiffOn ℝ ∞ F U) {u : ℝ → E} {S : Set ℝ} {t : ℝ}
    (hu : HasDerivWithinAt u (F (u t)) S t) (hy : u t ∈ U) (n : ℕ) (hn : n < 5) :
    HasDerivWithinAt (fun x => ex F (u x) n) (ex F (u t) (n + 1)) S t := by
  induction n using Nat.strong_induction_on with
  | _ n ih =>
    cases n with
    | zero => simpa [ex_zero, ex_succ, jet] using hu
    | succ n =>
      have e : (fun x => ex F (u x) (n + 1)) = fun x => jet F (fun j => ex F (u x) j) n := by
        funext x; exact ex_succ _ (by omega)
      rw [e, ex_succ _ (by omega)]
      exact jet_deriv hU hF (Y := fun j x => ex F (u x) j) n (by omega)
        (fun j hj => ih j (by omega) (by omega)) (by simpa [ex_zero] using hy)

theorem ex_bound [FiniteDimensional ℝ E] (hU : IsOpen U) (hF : ContDiffOn ℝ ∞ F U) {K : Set E}
    (hK : IsCompact K) (hKU : K ⊆ U) (n : ℕ) (hn : n ≤ 5) :
    ∃ C : ℝ, ∀ y ∈ K, ∀ j, 1 ≤ j → j ≤ n → ‖ex F y j‖ ≤ C := by
  induction n with
  | zero => exact ⟨0, fun y _ j h1 h2 => by omega⟩
  | succ n ih =>
    obtain ⟨C, hC⟩ := ih (by omega)
    obtain ⟨C', hC'⟩ := jet_bound hU hF hK hKU |C|
    refine ⟨max C C', fun y hy j h1 h2 => ?_⟩
    rcases Nat.lt_or_ge n j with h | h
    · obtain rfl : j = n + 1 := by omega
      refine le_trans ?_ (le_max_right _ _)
      rw [ex]
      refine hC' _ (by simpa [ex_zero] using hy) (fun m m1 m2 => ?_) n (by omega)
      split_ifs with h
      · exact (hC y hy m m1 h).trans (le_abs_self _)
      · simp
    · exact (hC y hy j h1 h).trans (le_max_left _ _)

theorem ex1 (y : E) : ex F y 1 = e1 F y := by rw [ex_succ _ (by omega)]; simp only [jet, ex_zero]; rfl
theorem ex2 (y : E) : ex F y 2 = e2 F y := by rw [ex_succ _ (by omega)]; simp only [jet, ex_zero, ex1]; rfl
theorem ex3 (y : E) : ex F y 3 = e4 F y + e3 F y := by
  rw [ex_succ _ (by omega)]; simp only [jet, ex_zero, ex1, ex2]; rfl
theorem ex4 (y : E) : ex F y 4 = e8 F y + (3 : ℝ) • e7 F y + (e6 F y + e5 F y) := by
  rw [ex_succ _ (by omega)]; simp only [jet, ex_zero, ex1, ex2, ex3, D1_add]; rfl

/-- the eight order conditions through order four, up to `ε` -/
structure Order4 (s : ℕ) (A : ℕ → ℕ → ℝ) (b : ℕ → ℝ) (ε : ℝ) : Prop where
  o1 : |∑ i ∈ Finset.range s, b i - 1| ≤ ε
  o2 : |∑ i ∈ Finset.range s, b i * rS A i - 1 / 2| ≤ ε
  o3a : |∑ i ∈ Finset.range s, b i * rS A i ^ 2 - 1 / 3| ≤ ε
  o3b : |∑ i ∈ Finset.range s, b i * pS A i - 1 / 6| ≤ ε
  o4a : |∑ i ∈ Finset.range s, b i * rS A i ^ 3 - 1 / 4| ≤ ε
  o4b : |∑ i ∈ Finset.range s, b i * (rS A i * pS A i) - 1 / 8| ≤ ε
  o4c : |∑ i ∈ Finset.range s, b i * qS A i - 1 / 12| ≤ ε
  o4d : |∑ i ∈ Finset.range s, b i * wS A i - 1 / 24| ≤ ε

/-- one step of the method -/
noncomputable def rkStep (F : E → E) (s : ℕ) (A : ℕ → ℕ → ℝ) (b : ℕ → ℝ) (t : ℝ) (y : E) : E :=
  y + t • ∑ i ∈ Finset.range s, b i • stg F A y t i 0

/-- the elementary differentials of a smooth field are bounded on a compact set -/
theorem e_bound [FiniteDimensional ℝ E] (hU : IsOpen U) (hF : ContDiffOn ℝ ∞ F U) {K : Set E}
    (hK : IsCompact K) (hKU : K ⊆ U) : ∃ C : ℝ, 0 ≤ C ∧ ∀ y ∈ K, ‖e1 F y‖ ≤ C ∧ ‖e2 F y‖ ≤ C ∧ ‖e3 F y‖ ≤ C ∧
      ‖e4 F y‖ ≤ C ∧ ‖e5 F y‖ ≤ C ∧ ‖e6 F y‖ ≤ C ∧ ‖e7 F y‖ ≤ C ∧ ‖e8 F y‖ ≤ C := by
  have c1 : ContinuousOn (e1 F) K := hF.continuousOn.mono hKU
  have k1 : ∀ {f : E → E}, ContinuousOn f K → ContinuousOn (fun y => D1 F (y, f y)) K := fun hf =>
    (D1_smooth hU hF).continuousOn.comp (continuousOn_id.prodMk hf) fun y hy => ⟨hKU hy, mem_univ _⟩
  have k2 : ∀ {f g : E → E}, ContinuousOn f K → ContinuousOn g K →
      ContinuousOn (fun y => D2 F (y, (f y, g y))) K := fun hf hg =>
    (D2_smooth hU hF).continuousOn.comp (continuousOn_id.prodMk (hf.prodMk hg)) fun y hy => ⟨hKU hy, mem_univ _⟩
  have k3 : ∀ {f g h : E → E}, ContinuousOn f K → ContinuousOn g K → ContinuousOn h K →
      ContinuousOn (fun y => D3 F (y, ((f y, g y), h y))) K := fun hf hg hh =>
    (D3_smooth hU hF).continuousOn.comp (continuousOn_id.prodMk ((hf.prodMk hg).prodMk hh))
      fun y hy => ⟨hKU hy, mem_univ _⟩
  have c2 : ContinuousOn (e2 F) K := k1 c1
  have c3 : ContinuousOn (e3 F) K := k1 c2
  have c4 : ContinuousOn (e4 F) K := k2 c1 c1
  have c5 : ContinuousOn (e5 F) K := k1 c3
  have c6 : ContinuousOn (e6 F) K := k1 c4
  have c7 : ContinuousOn (e7 F) K := k2 c1 c2
  have c8 : ContinuousOn (e8 F) K := k3 c1 c1 c1
  obtain ⟨b1, h1⟩ := hK.exists_bound_of_continuousOn c1
  obtain ⟨b2, h2⟩ := hK.exists_bound_of_continuousOn c2
  obtain ⟨b3, h3⟩ := hK.exists_bound_of_continuousOn c3
  obtain ⟨b4, h4⟩ := hK.exists_bound_of_continuousOn c4
  obtain ⟨b5, h5⟩ := hK.exists_bound_of_continuousOn c5
  obtain ⟨b6, h6⟩ := hK.exists_bound_of_continuousOn c6
  obtain ⟨b7, h7⟩ := hK.exists_bound_of_continuousOn c7
  obtain ⟨b8, h8⟩ := hK.exists_bound_of_continuousOn c8
  refine ⟨|b1| + |b2| + |b3| + |b4| + |b5| + |b6| + |b7| + |b8|, by positivity, fun y hy => ?_⟩
  have := abs_nonneg b1
  have := abs_nonneg b2
  have := abs_nonneg b3
  have := abs_nonneg b4
  have := abs_nonneg b5
  have := abs_nonneg b6
  have := abs_nonneg b7
  have := abs_nonneg b8
  refine ⟨?_, ?_, ?_, ?_, ?_, ?_, ?_, ?_⟩
  · linarith [h1 y hy, le_abs_self b1]
  · linarith [h2 y hy, le_abs_self b2]
  · linarith [h3 y hy, le_abs_self b3]
  · linarith [h4 y hy, le_abs_self b4]
  · linarith [h5 y hy, le_abs_self b5]
  · linarith [h6 y hy, le_abs_self b6]
  · linarith [h7 y hy, le_abs_self b7]
  · linarith [h8 y hy, le_abs_self b8]

/-- the stages of a short step stay near the state -/
theorem arg_dist {δ B M t : ℝ} {s : ℕ} {A : ℕ → ℕ → ℝ} {y : E} (hB : ∀ z ∈ closedBall y δ, ‖F z‖ ≤ B)
    (hA : ∀ i j, |A i j| ≤ M) (hδ : 0 ≤ δ) (ht : |t| * (s * (M * B)) ≤ δ) (i : ℕ) (hi : i ≤ s) :
    arg F A y t i 0 ∈ closedBall y δ := by
  have hyc : y ∈ closedBall y δ := mem_closedBall_self hδ
  have B0 : 0 ≤ B := (norm_nonneg _).trans (hB y hyc)
  have M0 : 0 ≤ M := (abs_nonneg _).trans (hA 0 0)
  induction i using Nat.strong_induction_on with
  | _ i ih =>
    rw [mem_closedBall]
    simp only [arg, dist_eq_norm, add_sub_cancel_left]
    refine (norm_sum_le _ _).trans ?_
    refine (Finset.sum_le_card_nsmul _ _ (|t| * (M * B)) fun j hj => ?_).trans ?_
    · have hj := Finset.mem_range.mp hj
      have : ‖stg F A y t j 0‖ ≤ B := by
        rw [stg_eq]
        exact hB _ (ih j hj (by omega))
      rw [norm_smul, norm_smul, Real.norm_eq_abs, Real.norm_eq_abs]
      calc |A i j| * (|t| * ‖stg F A y t j 0‖) ≤ M * (|t| * B) := by
            gcongr; exact hA i j
        _ = _ := by ring
    · rw [Finset.card_range, nsmul_eq_mul]
      refine le_trans ?_ ht
      have : (i : ℝ) ≤ s := by exact_mod_cast hi
      nlinarith [mul_le_mul_of_nonneg_right this (mul_nonneg (abs_nonneg t) (mul_nonneg M0 B0))]

theorem ball_sub {K : Set E} {y : E} {δ : ℝ} (hy : y ∈ K) : closedBall y δ ⊆ cthickening δ K := fun z hz =>
  mem_cthickening_of_dist_le z y δ K hy hz

theorem arg_mem {K : Set E} {δ B M t : ℝ} {s : ℕ} {A : ℕ → ℕ → ℝ} (hB : ∀ z ∈ cthickening δ K, ‖F z‖ ≤ B)
    (hA : ∀ i j, |A i j| ≤ M) (hδ : 0 ≤ δ) (ht : |t| * (s * (M * B)) ≤ δ) {y : E} (hy : y ∈ K) (i : ℕ) (hi : i ≤ s) :
    arg F A y t i 0 ∈ cthickening δ K :=
  ball_sub hy (arg_dist (fun z hz => hB z (ball_sub hy hz)) hA hδ ht i hi)

/-- Local error: one step from a point of a compact set of states differs from the exact solution by
`C (t⁵ + ε t)`, with one constant for all points of the set, all short steps and all tableaux of bounded
size that meet the order conditions up to `ε`. -/
theorem local_error [FiniteDimensional ℝ E] (hU : IsOpen U) (hF : ContDiffOn ℝ ∞ F U) {K : Set E}
    (hK : IsCompact K) (hKU : K ⊆ U) (M : ℝ) (s : ℕ) :
    ∃ C τ : ℝ, 0 ≤ C ∧ 0 < τ ∧ τ ≤ 1 ∧ ∀ (A : ℕ → ℕ → ℝ) (b : ℕ → ℝ) (ε : ℝ), (∀ i j, |A i j| ≤ M) → (∀ i, |b i| ≤ M) →
      Order4 s A b ε → ∀ (u : ℝ → E) (t : ℝ), 0 ≤ t → t ≤ τ →
      (∀ x ∈ Icc 0 t, HasDerivWithinAt u (F (u x)) (Icc 0 t) x) → (∀ x ∈ Icc 0 t, u x ∈ K) →
      ‖u t - rkStep F s A b t (u 0)‖ ≤ C * (t ^ 5 + ε * t) := by
  have : ProperSpace E := FiniteDimensional.proper ℝ E
  obtain ⟨δ, δ0, hδ⟩ := hK.exists_cthickening_subset_open hU hKU
  have hK1 : IsCompact (cthickening δ K) := hK.cthickening
  obtain ⟨B, hB⟩ := hK1.exists_bound_of_continuousOn (hF.continuousOn.mono hδ)
  obtain ⟨C1, hC1⟩ := stg_bound hU hF hK1 hδ M s
  obtain ⟨C2, hC2⟩ := ex_bound hU hF hK hKU 5 le_rfl
  obtain ⟨C3, C30, hC3⟩ := e_bound hU hF hK hKU
  set q : ℝ := s * (|M| * |B|) with hq
  have q0 : 0 ≤ q := by positivity
  refine ⟨|C2| + s * (|M| * |C1|) + 8 * C3, min 1 (δ / (q + 1)), by positivity, by positivity, min_le_left _ _, ?_⟩
  intro A b ε hA hb ho u t t0 htτ hu huK
  have t1 : t ≤ 1 := htτ.trans (min_le_left _ _)
  have t2 : t * q ≤ δ := by
    have h := htτ.trans (min_le_right _ _)
    rw [le_div_iff₀ (by linarith)] at h
    nlinarith
  have ε0 : 0 ≤ ε := (abs_nonneg _).trans ho.o1
  have M0 : 0 ≤ M := (abs_nonneg _).trans (hA 0 0)
  set y := u 0 with hy
  have yK : y ∈ K := huK 0 ⟨le_rfl, t0⟩
  have stay : ∀ x ∈ Icc 0 t, ∀ i ≤ s, arg F A y x i 0 ∈ cthickening δ K := by
    intro x hx i hi
    refine arg_mem (B := |B|) (M := |M|) (s := s) (fun z hz => (hB z hz).trans (le_abs_self _))
      (fun i j => (hA i j).trans (le_abs_self _)) δ0.le ?_ yK i hi
    rw [abs_of_nonneg hx.1]
    exact (mul_le_mul_of_nonneg_right hx.2 q0).trans t2
  have hn := taylor_curve (n := 4) (g := fun n x => ∑ i ∈ Finset.range s, b i • stg F A y x i n) (T := t)
    (C := s * (|M| * |C1|)) (fun n hn x hx => HasDerivWithinAt.fun_sum fun i hi =>
      (stg_deriv hU hF A y i (fun j hj => hδ (stay x hx j (hj.trans (Finset.mem_range.mp hi).le))) n hn).const_smul _)
    (fun x hx => by
      refine (norm_sum_le _ _).trans ((Finset.sum_le_card_nsmul _ _ (|M| * |C1|) fun i hi => ?_).trans (by simp))
      rw [norm_smul, Real.norm_eq_abs]
      refine mul_le_mul ((hb i).trans (le_abs_self _)) ?_ (norm_nonneg _) (abs_nonneg _)
      exact (hC1 A y x hA (by rw [abs_of_nonneg hx.1]; exact hx.2.trans t1) (stay x hx) i
        (Finset.mem_range.mp hi).le 4 le_rfl).trans (le_abs_self _)) t ⟨t0, le_rfl⟩
  have he := taylor_curve (n := 5) (g := fun n x => ex F (u x) n) (T := t) (C := |C2|)
    (fun n hn x hx => ex_deriv hU hF (hu x hx) (hKU (huK x hx)) n hn)
    (fun x hx => (hC2 _ (huK x hx) 5 (by omega) le_rfl).trans (le_abs_self _)) t ⟨t0, le_rfl⟩
  simp only [Finset.sum_range_succ (n := 0), Finset.sum_range_succ (n := 1), Finset.sum_range_succ (n := 2),
    Finset.sum_range_succ (n := 3), Finset.sum_range_succ (n := 4), Finset.sum_range_zero, ex_zero, ex1, ex2, ex3,
    ex4, stg_zero0, stg_zero1, stg_zero2 hU hF A (hKU yK), stg_zero3 hU hF A (hKU yK), ← hy] at hn he
  set s1 := ∑ i ∈ Finset.range s, b i with hs1
  set s2 := ∑ i ∈ Finset.range s, b i * rS A i with hs2
  set s3 := ∑ i ∈ Finset.range s, b i * rS A i ^ 2 with hs3
  set s4 := ∑ i ∈ Finset.range s, b i * pS A i with hs4
  set s5 := ∑ i ∈ Finset.range s, b i * rS A i ^ 3 with hs5
  set s6 := ∑ i ∈ Finset.range s, b i * (rS A i * pS A i) with hs6
  set s7 := ∑ i ∈ Finset.range s, b i * qS A i with hs7
  set s8 := ∑ i ∈ Finset.range s, b i * wS A i with hs8
  have f0 : ∑ i ∈ Finset.range s, b i • e1 F y = s1 • e1 F y := by rw [hs1, Finset.sum_smul]
  have f1 : ∑ i ∈ Finset.range s, b i • rS A i • e2 F y = s2 • e2 F y := by
    rw [hs2, Finset.sum_smul]; exact Finset.sum_congr rfl fun i _ => smul_smul _ _ _
  have f2 : ∑ i ∈ Finset.range s, b i • (rS A i ^ 2 • e4 F y + (2 * pS A i) • e3 F y) =
      s3 • e4 F y + (2 * s4) • e3 F y := by
    rw [hs3, hs4, Finset.mul_sum, Finset.sum_smul, Finset.sum_smul, ← Finset.sum_add_distrib]
    exact Finset.sum_congr rfl fun i _ => by module
  have f3 : ∑ i ∈ Finset.range s, b i • (rS A i ^ 3 • e8 F y + (6 * (rS A i * pS A i)) • e7 F y +
      ((3 * qS A i) • e6 F y + (6 * wS A i) • e5 F y)) =
      s5 • e8 F y + (6 * s6) • e7 F y + ((3 * s7) • e6 F y + (6 * s8) • e5 F y) := by
    rw [hs5, hs6, hs7, hs8, Finset.mul_sum, Finset.mul_sum, Finset.mul_sum, Finset.sum_smul, Finset.sum_smul,
      Finset.sum_smul, Finset.sum_smul, ← Finset.sum_add_distrib, ← Finset.sum_add_distrib,
      ← Finset.sum_add_distrib]
    exact Finset.sum_congr rfl fun i _ => by module
  rw [f0, f1, f2, f3] at hn
  norm_num [Nat.factorial, -smul_add] at hn he
  set N := ∑ i ∈ Finset.range s, b i • stg F A y t i 0 with hN
  obtain ⟨g1, g2, g3, g4, g5, g6, g7, g8⟩ := hC3 y yK
  have pt : ∀ k : ℕ, 1 ≤ k → t ^ k ≤ t := fun k hk => pow_le_of_le_one t0 t1 (by omega)
  have pc : ∀ (k : ℕ) (r x : ℝ) (v : E), 1 ≤ k → |r| ≤ 1 → |x| ≤ ε → ‖v‖ ≤ C3 → ‖(t ^ k * (r * x)) • v‖ ≤ t * (ε * C3) := by
    intro k r x v hk hr hx hv
    rw [norm_smul, Real.norm_eq_abs, abs_mul, abs_mul, abs_of_nonneg (pow_nonneg t0 k)]
    have h1 : |r| * |x| ≤ ε := by
      calc |r| * |x| ≤ 1 * ε := mul_le_mul hr hx (abs_nonneg _) zero_le_one
        _ = ε := one_mul _
    calc t ^ k * (|r| * |x|) * ‖v‖ ≤ t * ε * C3 :=
          mul_le_mul (mul_le_mul (pt k hk) h1 (by positivity) t0) hv (norm_nonneg _) (by positivity)
      _ = _ := by ring
  have key : u t - rkStep F s A b t y = (u t - (y + t • e1 F y + (t ^ 2 / 2) • e2 F y + (t ^ 3 / 6) • (e4 F y + e3 F y) +
      (t ^ 4 / 24) • (e8 F y + (3 : ℝ) • e7 F y + (e6 F y + e5 F y)))) -
      t • (N - (s1 • e1 F y + t • s2 • e2 F y + (t ^ 2 / 2) • (s3 • e4 F y + (2 * s4) • e3 F y) +
        (t ^ 3 / 6) • (s5 • e8 F y + (6 * s6) • e7 F y + ((3 * s7) • e6 F y + (6 * s8) • e5 F y)))) +
      (-((t ^ 1 * (1 * (s1 - 1))) • e1 F y) - (t ^ 2 * (1 * (s2 - 1 / 2))) • e2 F y -
        (t ^ 3 * (1 / 2 * (s3 - 1 / 3))) • e4 F y - (t ^ 3 * (1 * (s4 - 1 / 6))) • e3 F y -
        (t ^ 4 * (1 / 6 * (s5 - 1 / 4))) • e8 F y - (t ^ 4 * (1 * (s6 - 1 / 8))) • e7 F y -
        (t ^ 4 * (1 / 2 * (s7 - 1 / 12))) • e6 F y - (t ^ 4 * (1 * (s8 - 1 / 24))) • e5 F y) := by
    simp only [rkStep, ← hN]
    module
  rw [key]
  refine (norm_add_le _ _).trans ?_
  refine (add_le_add_left (norm_sub_le _ _) _).trans ?_
  have h3 : ‖t • (N - (s1 • e1 F y + t • s2 • e2 F y + (t ^ 2 / 2) • (s3 • e4 F y + (2 * s4) • e3 F y) +
        (t ^ 3 / 6) • (s5 • e8 F y + (6 * s6) • e7 F y + ((3 * s7) • e6 F y + (6 * s8) • e5 F y))))‖ ≤
      s * (|M| * |C1|) * t ^ 5 := by
    rw [norm_smul, Real.norm_eq_abs, abs_of_nonneg t0]
    calc _ ≤ t * (s * (|M| * |C1|) * t ^ 4) := mul_le_mul_of_nonneg_left hn t0
      _ = _ := by ring
  have h4 : ‖-((t ^ 1 * (1 * (s1 - 1))) • e1 F y) - (t ^ 2 * (1 * (s2 - 1 / 2))) • e2 F y -
        (t ^ 3 * (1 / 2 * (s3 - 1 / 3))) • e4 F y - (t ^ 3 * (1 * (s4 - 1 / 6))) • e3 F y -
        (t ^ 4 * (1 / 6 * (s5 - 1 / 4))) • e8 F y - (t ^ 4 * (1 * (s6 - 1 / 8))) • e7 F y -
        (t ^ 4 * (1 / 2 * (s7 - 1 / 12))) • e6 F y - (t ^ 4 * (1 * (s8 - 1 / 24))) • e5 F y‖ ≤ 8 * (t * (ε * C3)) := by
    have a1 := pc 1 1 _ _ (by omega) (by norm_num) ho.o1 g1
    have a2 := pc 2 1 _ _ (by omega) (by norm_num) ho.o2 g2
    have a3 := pc 3 (1 / 2) _ _ (by omega) (by norm_num [abs_le]) ho.o3a g4
    have a4 := pc 3 1 _ _ (by omega) (by norm_num) ho.o3b g3
    have a5 := pc 4 (1 / 6) _ _ (by omega) (by norm_num [abs_le]) ho.o4a g8
    have a6 := pc 4 1 _ _ (by omega) (by norm_num) ho.o4b g7
    have a7 := pc 4 (1 / 2) _ _ (by omega) (by norm_num [abs_le]) ho.o4c g6
    have a8 := pc 4 1 _ _ (by omega) (by norm_num) ho.o4d g5
    refine (norm_sub_le _ _).trans ?_
    refine (add_le_add_left (norm_sub_le _ _) _).trans ?_
    refine (add_le_add_left (add_le_add_left (norm_sub_le _ _) _) _).trans ?_
    refine (add_le_add_left (add_le_add_left (add_le_add_left (norm_sub_le _ _) _) _) _).trans ?_
    refine (add_le_add_left (add_le_add_left (add_le_add_left (add_le_add_left (norm_sub_le _ _) _) _) _) _).trans ?_
    refine (add_le_add_left (add_le_add_left (add_le_add_left (add_le_add_left (add_le_add_left
      (norm_sub_le _ _) _) _) _) _) _).trans ?_
    refine (add_le_add_left (add_le_add_left (add_le_add_left (add_le_add_left (add_le_add_left (add_le_add_left
      (norm_sub_le _ _) _) _) _) _) _) _).trans ?_
    rw [norm_neg]
    linarith
  have t5 : 0 ≤ t ^ 5 := by positivity
  have := mul_nonneg ε0 t0
  have p1 := abs_nonneg C2
  have p2 : 0 ≤ s * (|M| * |C1|) := by positivity
  refine (add_le_add (add_le_add he h3) h4).trans ?_
  nlinarith [mul_nonneg p1 this, mul_nonneg p2 this, mul_nonneg C30 t5]

/-- Stability: one step spreads nearby states by at most a factor `1 + Λ t`. -/
theorem step_stable [FiniteDimensional ℝ E] (hU : IsOpen U) (hF : ContDiffOn ℝ ∞ F U) {K : Set E}
    (hK : IsCompact K) (hKU : K ⊆ U) (M : ℝ) (s : ℕ) :
    ∃ Λ τ ρ : ℝ, 0 ≤ Λ ∧ 0 < τ ∧ τ ≤ 1 ∧ 0 < ρ ∧ ∀ (A : ℕ → ℕ → ℝ) (b : ℕ → ℝ), (∀ i j, |A i j| ≤ M) →
      (∀ i, |b i| ≤ M) → ∀ (t : ℝ) (y z : E), 0 ≤ t → t ≤ τ → y ∈ K → ‖z - y‖ ≤ ρ →
      ‖rkStep F s A b t z - rkStep F s A b t y‖ ≤ (1 + Λ * t) * ‖z - y‖ := by
  have : ProperSpace E := FiniteDimensional.proper ℝ E
  obtain ⟨δ, δ0, hδ⟩ := hK.exists_cthickening_subset_open hU hKU
  have hK1 : IsCompact (cthickening δ K) := hK.cthickening
  obtain ⟨B, hB⟩ := hK1.exists_bound_of_continuousOn (hF.continuousOn.mono hδ)
  obtain ⟨L, hL⟩ := hK1.exists_bound_of_continuousOn
    ((hF.fderiv_of_isOpen (m := ∞) hU (by simp)).continuousOn.mono hδ)
  have lip : ∀ y ∈ K, ∀ z ∈ closedBall y δ, ∀ z' ∈ closedBall y δ, ‖F z - F z'‖ ≤ |L| * ‖z - z'‖ := by
    intro y hy z hz z' hz'
    refine (convex_closedBall y δ).norm_image_sub_le_of_norm_hasFDerivWithin_le
      (f' := fderiv ℝ F) (fun x hx => ?_) (fun x hx => ?_) hz' hz
    · have hx := hδ (ball_sub hy hx)
      exact (((hF x hx).contDiffAt (hU.mem_nhds hx)).differentiableAt (by simp)).hasFDerivAt.hasFDerivWithinAt
    · exact (hL x (ball_sub hy hx)).trans (le_abs_self _)
  set q : ℝ := s * (|M| * |B|) with hq
  have q0 : 0 ≤ q := by positivity
  have args : ∀ (A : ℕ → ℕ → ℝ), (∀ i j, |A i j| ≤ M) → ∀ (t : ℝ) (y z : E), 0 ≤ t → t * q ≤ δ / 2 →
      y ∈ K → ‖z - y‖ ≤ δ / 2 → ∀ i ≤ s, arg F A z t i 0 ∈ closedBall y δ := by
    intro A hA t y z t0 ht hy hz i hi
    have hs : closedBall z (δ / 2) ⊆ closedBall y δ := by
      refine closedBall_subset_closedBall' ?_
      rw [dist_eq_norm]; linarith
    refine hs (arg_dist (B := |B|) (M := |M|) (s := s) (fun x hx => (hB x (ball_sub hy (hs hx))).trans (le_abs_self _))
      (fun i j => (hA i j).trans (le_abs_self _)) (by linarith) ?_ i hi)
    rw [abs_of_nonneg t0]; exact ht
  have stages : ∀ i ≤ s, ∃ Λ : ℝ, 0 ≤ Λ ∧ ∀ (A : ℕ → ℕ → ℝ), (∀ i j, |A i j| ≤ M) → ∀ (t : ℝ) (y z : E), 0 ≤ t → t ≤ 1 →
      t * q ≤ δ / 2 → y ∈ K → ‖z - y‖ ≤ δ / 2 → ∀ j < i, ‖stg F A z t j 0 - stg F A y t j 0‖ ≤ Λ * ‖z - y‖ := by
    intro i
    induction i with
    | zero => exact fun _ => ⟨0, le_rfl, fun _ _ _ _ _ _ _ _ _ _ j hj => by omega⟩
    | succ i ih =>
      intro hi
      obtain ⟨Λ, Λ0, h⟩ := ih (by omega)
      refine ⟨Λ + |L| * (1 + i * (|M| * Λ)), by positivity, fun A hA t y z t0 t1 ht hy hz j hj => ?_⟩
      have hd := norm_nonneg (z - y)
      rcases Nat.lt_or_ge j i with hji | hji
      · refine (h A hA t y z t0 t1 ht hy hz j hji).trans ?_
        refine mul_le_mul_of_nonneg_right ?_ hd
        have : 0 ≤ |L| * (1 + i * (|M| * Λ)) := by positivity
        linarith
      · obtain rfl : j = i := by omega
        have m1 := args A hA t y z t0 ht hy hz j (by omega)
        have m2 := args A hA t y y t0 ht hy (by simpa using (half_pos δ0).le) j (by omega)
        have l := lip y hy _ m1 _ m2
        have e : ∀ x, stg F A x t j 0 = F (arg F A x t j 0) := fun x => by rw [stg_eq]; rfl
        rw [e, e]
        refine l.trans ?_
        have : ‖arg F A z t j 0 - arg F A y t j 0‖ ≤ (1 + j * (|M| * Λ)) * ‖z - y‖ := by
          simp only [arg]
          rw [add_sub_add_comm, ← Finset.sum_sub_distrib]
          refine (norm_add_le _ _).trans ?_
          have : ‖∑ i ∈ Finset.range j, (A j i • t • stg F A z t i 0 - A j i • t • stg F A y t i 0)‖ ≤
              j * (|M| * (Λ * ‖z - y‖)) := by
            refine (norm_sum_le _ _).trans ((Finset.sum_le_card_nsmul _ _ (|M| * (Λ * ‖z - y‖)) fun i hi => ?_).trans
              (by simp))
            rw [← smul_sub, ← smul_sub, norm_smul, norm_smul, Real.norm_eq_abs, Real.norm_eq_abs, abs_of_nonneg t0]
            refine mul_le_mul ((hA _ _).trans (le_abs_self _)) ?_ (by positivity) (abs_nonneg _)
            calc t * ‖stg F A z t i 0 - stg F A y t i 0‖ ≤ 1 * (Λ * ‖z - y‖) :=
                  mul_le_mul t1 (h A hA t y z t0 t1 ht hy hz i (Finset.mem_range.mp hi)) (norm_nonneg _) zero_le_one
              _ = _ := one_mul _
          calc _ ≤ ‖z - y‖ + j * (|M| * (Λ * ‖z - y‖)) := add_le_add_right this _
            _ = _ := by ring
        calc _ ≤ |L| * ((1 + j * (|M| * Λ)) * ‖z - y‖) := mul_le_mul_of_nonneg_left this (abs_nonneg _)
          _ ≤ _ := by nlinarith [mul_nonneg Λ0 hd]
  obtain ⟨Λ, Λ0, h⟩ := stages s le_rfl
  refine ⟨s * (|M| * Λ), min 1 (δ / 2 / (q + 1)), δ / 2, by positivity, by positivity, min_le_left _ _, by positivity, ?_⟩
  intro A b hA hb t y z t0 htτ hy hz
  have t1 : t ≤ 1 := htτ.trans (min_le_left _ _)
  have t2 : t * q ≤ δ / 2 := by
    have h := htτ.trans (min_le_right _ _)
    rw [le_div_iff₀ (by linarith)] at h
    nlinarith
  have hd := norm_nonneg (z - y)
  simp only [rkStep]
  rw [add_sub_add_comm, ← smul_sub, ← Finset.sum_sub_distrib]
  refine (norm_add_le _ _).trans ?_
  have : ‖∑ i ∈ Finset.range s, (b i • stg F A z t i 0 - b i • stg F A y t i 0)‖ ≤ s * (|M| * (Λ * ‖z - y‖)) := by
    refine (norm_sum_le _ _).trans ((Finset.sum_le_card_nsmul _ _ (|M| * (Λ * ‖z - y‖)) fun i hi => ?_).trans (by simp))
    rw [← smul_sub, norm_smul, Real.norm_eq_abs]
    exact mul_le_mul ((hb _).trans (le_abs_self _)) (h A hA t y z t0 t1 t2 hy hz i (Finset.mem_range.mp hi))
      (norm_nonneg _) (abs_nonneg _)
  rw [norm_smul, Real.norm_eq_abs, abs_of_nonneg t0]
  calc _ ≤ ‖z - y‖ + t * (s * (|M| * (Λ * ‖z - y‖))) := add_le_add_right (mul_le_mul_of_nonneg_left this t0) _
    _ = _ := by ring

/-- Global error: on the interval of a solution, the numerical solution from its initial value stays within
`C (dt⁴ + ε)` of it, with one constant for all small step sizes and all tableaux of bounded size that meet the
order conditions up to `ε`, for times small against `1 / ε`. -/
theorem global_error [FiniteDimensional ℝ E] (hU : IsOpen U) (hF : ContDiffOn ℝ ∞ F U) {T : ℝ} {u : ℝ → E}
    (hu : ∀ x ∈ Icc 0 T, HasDerivWithinAt u (F (u x)) (Icc 0 T) x) (huU : ∀ x ∈ Icc 0 T, u x ∈ U) (M : ℝ) (s : ℕ) :
    ∃ C τ : ℝ, 0 ≤ C ∧ 0 < τ ∧ ∀ (A : ℕ → ℕ → ℝ) (b : ℕ → ℝ) (ε : ℝ), (∀ i j, |A i j| ≤ M) → (∀ i, |b i| ≤ M) →
      Order4 s A b ε → ∀ (dt : ℝ) (N : ℕ) (Y : ℕ → E), 0 ≤ dt → dt ≤ τ → N * dt ≤ T → N * dt * ε ≤ τ → Y 0 = u 0 →
      (∀ n < N, Y (n + 1) = rkStep F s A b dt (Y n)) → ‖Y N - u (N * dt)‖ ≤ C * (dt ^ 4 + ε) := by
  set K := u '' Icc 0 T with hKdef
  have hK : IsCompact K := isCompact_Icc.image_of_continuousOn fun x hx => (hu x hx).continuousWithinAt
  have hKU : K ⊆ U := by rintro _ ⟨x, hx, rfl⟩; exact huU x hx
  obtain ⟨C, τ1, C0, τ10, τ11, hloc⟩ := local_error hU hF hK hKU M s
  obtain ⟨Λ, τ2, ρ, Λ0, τ20, τ21, ρ0, hst⟩ := step_stable hU hF hK hKU M s
  set X := C * Real.exp (Λ * |T|) with hX
  have X0 : 0 ≤ X := by positivity
  set D := |T| * X with hD
  have D0 : 0 ≤ D := by positivity
  refine ⟨D, min (min τ1 τ2) (min (ρ / 2 / (D + 1)) (ρ / 2 / (X + 1))), D0, by positivity, ?_⟩
  intro A b ε hA hb ho dt N Y t0 ht hN hε hY0 hY
  have ε0 : 0 ≤ ε := (abs_nonneg _).trans ho.o1
  have ht1 : dt ≤ τ1 := ht.trans ((min_le_left _ _).trans (min_le_left _ _))
  have ht2 : dt ≤ τ2 := ht.trans ((min_le_left _ _).trans (min_le_right _ _))
  have dt1 : dt ≤ 1 := ht1.trans τ11
  have small : ∀ r : ℝ, 0 ≤ r → r ≤ N * dt → r * X * (dt ^ 4 + ε) ≤ ρ := by
    intro r r0 hr
    have T0 : 0 ≤ T := r0.trans (hr.trans hN)
    have h1 := ht.trans ((min_le_right _ _).trans (min_le_left _ _))
    have h2 := hε.trans ((min_le_right _ _).trans (min_le_right _ _))
    have h3 : dt ^ 4 ≤ dt := pow_le_of_le_one t0 dt1 (by omega)
    rw [le_div_iff₀ (by linarith)] at h1 h2
    have p : 0 ≤ dt ^ 4 := by positivity
    have a1 : r * X * dt ^ 4 ≤ ρ / 2 := by
      calc r * X * dt ^ 4 ≤ T * X * dt := by
            refine mul_le_mul (mul_le_mul_of_nonneg_right (hr.trans hN) X0) h3 p (by positivity)
        _ = dt * D := by rw [hD, abs_of_nonneg T0]; ring
        _ ≤ _ := by linarith
    have a2 : r * X * ε ≤ ρ / 2 := by
      calc r * X * ε = r * ε * X := by ring
        _ ≤ N * dt * ε * X := by gcongr
        _ ≤ _ := by
          have : 0 ≤ (N : ℝ) * dt * ε := by positivity
          linarith
    linarith
  have θ0 : 0 ≤ dt ^ 4 + ε := by positivity
  have main : ∀ n ≤ N, ‖Y n - u (n * dt)‖ ≤ n * dt * C * Real.exp (Λ * (n * dt)) * (dt ^ 4 + ε) := by
    intro n hn
    induction n with
    | zero => simp [hY0]
    | succ n ih =>
      have ih := ih (by omega)
      have nN : ((n : ℝ) + 1) * dt ≤ T := by
        refine le_trans (mul_le_mul_of_nonneg_right ?_ t0) hN
        exact_mod_cast hn
      have n0 : 0 ≤ (n : ℝ) * dt := by positivity
      have T0 : 0 ≤ T := by linarith [add_one_mul (n : ℝ) dt]
      have nT : (n : ℝ) * dt ≤ T := by linarith [add_one_mul (n : ℝ) dt]
      have mem : (n : ℝ) * dt ∈ Icc 0 T := ⟨n0, nT⟩
      have close : ‖Y n - u (n * dt)‖ ≤ ρ := by
        have nN' : (n : ℝ) * dt ≤ N * dt := mul_le_mul_of_nonneg_right (by exact_mod_cast (by omega)) t0
        refine ih.trans (le_trans (mul_le_mul_of_nonneg_right ?_ θ0) (small (n * dt) n0 nN'))
        rw [hX, abs_of_nonneg T0, mul_assoc (_ * dt)]
        exact mul_le_mul_of_nonneg_left (mul_le_mul_of_nonneg_left
          (Real.exp_le_exp.2 (mul_le_mul_of_nonneg_left nT Λ0)) C0) n0
      have s1 := hst A b hA hb dt (u (n * dt)) (Y n) t0 ht2 ⟨_, mem, rfl⟩ close
      have shift : ∀ x ∈ Icc 0 dt, (n : ℝ) * dt + x ∈ Icc 0 T := fun x hx =>
        ⟨add_nonneg n0 hx.1, by linarith [hx.2, add_one_mul (n : ℝ) dt]⟩
      have s2 := hloc A b ε hA hb ho (fun x => u (n * dt + x)) dt t0 ht1
        (fun x hx => by
          have h1 := hu _ (shift x hx)
          have h2 : HasDerivWithinAt (fun x => (n : ℝ) * dt + x) 1 (Icc 0 dt) x :=
            (hasDerivWithinAt_id x _).const_add _
          have := h1.scomp x h2 shift
          rw [one_smul] at this
          exact this)
        (fun x hx => ⟨_, shift x hx, rfl⟩)
      simp only [add_zero] at s2
      have e : ((n + 1 : ℕ) : ℝ) * dt = n * dt + dt := by push_cast; ring
      rw [e, hY n (by omega)]
      set v := u (n * dt + dt) with hv
      set w := u (n * dt) with hw
      have tri : ‖rkStep F s A b dt (Y n) - v‖ ≤ (1 + Λ * dt) * ‖Y n - w‖ + C * (dt ^ 5 + ε * dt) := by
        have : rkStep F s A b dt (Y n) - v = (rkStep F s A b dt (Y n) - rkStep F s A b dt w) -
            (v - rkStep F s A b dt w) := by abel
        rw [this]
        exact (norm_sub_le _ _).trans (add_le_add s1 s2)
      refine tri.trans ?_
      have x1 : 1 + Λ * dt ≤ Real.exp (Λ * dt) := by linarith [Real.add_one_le_exp (Λ * dt)]
      have x2 : 1 ≤ Real.exp (Λ * (n * dt + dt)) := Real.one_le_exp (by positivity)
      have x3 : (1 + Λ * dt) * ‖Y n - w‖ ≤ n * dt * C * Real.exp (Λ * (n * dt + dt)) * (dt ^ 4 + ε) := by
        calc (1 + Λ * dt) * ‖Y n - w‖ ≤ Real.exp (Λ * dt) * (n * dt * C * Real.exp (Λ * (n * dt)) * (dt ^ 4 + ε)) :=
              mul_le_mul x1 ih (norm_nonneg _) (Real.exp_pos _).le
          _ = _ := by rw [mul_add Λ, Real.exp_add]; ring
      have x4 : C * (dt ^ 5 + ε * dt) ≤ dt * C * Real.exp (Λ * (n * dt + dt)) * (dt ^ 4 + ε) := by
        calc C * (dt ^ 5 + ε * dt) = dt * C * (dt ^ 4 + ε) * 1 := by ring
          _ ≤ dt * C * (dt ^ 4 + ε) * Real.exp (Λ * (n * dt + dt)) := mul_le_mul_of_nonneg_left x2 (by positivity)
          _ = _ := by ring
      calc _ ≤ _ := add_le_add x3 x4
        _ = _ := by ring
  refine (main N le_rfl).trans (mul_le_mul_of_nonneg_right ?_ θ0)
  have N0 : 0 ≤ (N : ℝ) * dt := by positivity
  have T0 : 0 ≤ T := N0.trans hN
  rw [hD, hX, abs_of_nonneg T0, mul_assoc (_ * dt)]
  exact mul_le_mul hN (mul_le_mul_of_nonneg_left (Real.exp_le_exp.2 (mul_le_mul_of_nonneg_left hN Λ0)) C0)
    (by positivity) T0

end Butcher
end Omega
