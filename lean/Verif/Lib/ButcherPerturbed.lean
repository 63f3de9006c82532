import Verif.Lib.ButcherOrder

/-! Runge-Kutta methods whose stages and steps are computed with small errors: the errors enter the global error
linearly. Pure analysis. -/

set_option linter.unusedVariables false
set_option linter.unusedSectionVars false

namespace Omega
namespace Butcher

open Set Metric
open scoped ContDiff

variable {E : Type*} [NormedAddCommGroup E] [NormedSpace ℝ E] {U : Set E} {F : E → E}

/-- Stability: a step with stages computed up to `η` differs from an exact step from a nearby state by at most
`(1 + Λ t)` times the distance of the states, plus `Λ t η`. -/
theorem step_perturbed [FiniteDimensional ℝ E] (hU : IsOpen U) (hF : ContDiffOn ℝ ∞ F U) {K : Set E}
    (hK : IsCompact K) (hKU : K ⊆ U) (M : ℝ) (s : ℕ) :
    ∃ Λ τ ρ : ℝ, 0 ≤ Λ ∧ 0 < τ ∧ τ ≤ 1 ∧ 0 < ρ ∧ ∀ (A : ℕ → ℕ → ℝ) (b : ℕ → ℝ), (∀ i j, |A i j| ≤ M) →
      (∀ i, |b i| ≤ M) → ∀ (t : ℝ) (y z : E) (k : ℕ → E) (η : ℝ), 0 ≤ t → t ≤ τ → y ∈ K → ‖z - y‖ ≤ ρ →
      0 ≤ η → η ≤ 1 → (∀ i < s, ‖k i - F (z + t • ∑ j ∈ Finset.range i, A i j • k j)‖ ≤ η) →
      ‖(z + t • ∑ i ∈ Finset.range s, b i • k i) - rkStep F s A b t y‖ ≤ (1 + Λ * t) * ‖z - y‖ + Λ * t * η := by
  have : ProperSpace E := FiniteDimensional.proper ℝ E
  obtain ⟨δ, δ0, hδ⟩ := hK.exists_cthickening_subset_open hU hKU
  have hK1 : IsCompact (cthickening δ K) := hK.cthickening
  obtain ⟨B, hB⟩ := hK1.exists_bound_of_continuousOn (hF.continuousOn.mono hδ)
  obtain ⟨L, hL⟩ := hK1.exists_bound_of_continuousOn
    ((hF.fderiv_of_isOpen (m := ∞) hU (by simp)).continuousOn.mono hδ)
  have lip : ∀ y ∈ K, ∀ z ∈ closedBall y δ, ∀ z' ∈ closedBall y δ, ‖F z - F z'‖ ≤ |L| * ‖z - z'‖ := by
    intro y hy z hz z' hz'
    refine (convex_closedBall y δ).norm_image_sub_le_of_norm_hasFDerivWithin_le
      (f' := fderiv ℝ F) (fun x hx => ?_) (fun x hx => ?_) hz' hz
    · have hx := hδ (ball_sub hy hx)
      exact (((hF x hx).contDiffAt (hU.mem_nhds hx)).differentiableAt (by simp)).hasFDerivAt.hasFDerivWithinAt
    · exact (hL x (ball_sub hy hx)).trans (le_abs_self _)
  set q : ℝ := s * (|M| * (|B| + 1)) with hq
  have q0 : 0 ≤ q := by positivity
  -- arguments of computed stages stay near the exact state
  have args : ∀ (A : ℕ → ℕ → ℝ), (∀ i j, |A i j| ≤ M) → ∀ (t : ℝ) (y z : E) (k : ℕ → E) (η : ℝ), 0 ≤ t →
      t * q ≤ δ / 2 → y ∈ K → ‖z - y‖ ≤ δ / 2 → η ≤ 1 →
      (∀ i < s, ‖k i - F (z + t • ∑ j ∈ Finset.range i, A i j • k j)‖ ≤ η) → ∀ i < s,
      z + t • ∑ j ∈ Finset.range i, A i j • k j ∈ closedBall y δ ∧ ‖k i‖ ≤ |B| + 1 := by
    intro A hA t y z k η t0 ht hy hz h1 hk i
    induction i using Nat.strong_induction_on with
    | _ i ih =>
      intro hi
      have m : z + t • ∑ j ∈ Finset.range i, A i j • k j ∈ closedBall y δ := by
        rw [mem_closedBall, dist_eq_norm]
        have e : z + t • ∑ j ∈ Finset.range i, A i j • k j - y = (z - y) + t • ∑ j ∈ Finset.range i, A i j • k j := by
          abel
        rw [e]
        refine (norm_add_le _ _).trans ?_
        have : ‖t • ∑ j ∈ Finset.range i, A i j • k j‖ ≤ t * q := by
          rw [norm_smul, Real.norm_eq_abs, abs_of_nonneg t0]
          refine mul_le_mul_of_nonneg_left ?_ t0
          refine (norm_sum_le _ _).trans ((Finset.sum_le_card_nsmul _ _ (|M| * (|B| + 1)) fun j hj => ?_).trans ?_)
          · have hj := Finset.mem_range.mp hj
            rw [norm_smul, Real.norm_eq_abs]
            exact mul_le_mul ((hA _ _).trans (le_abs_self _)) (ih j hj (by omega)).2 (norm_nonneg _) (abs_nonneg _)
          · rw [Finset.card_range, nsmul_eq_mul, hq]
            have : (i : ℝ) ≤ s := by exact_mod_cast hi.le
            exact mul_le_mul_of_nonneg_right this (by positivity)
        linarith
      refine ⟨m, ?_⟩
      have a := hk i hi
      have b := (hB _ (ball_sub hy m)).trans (le_abs_self _)
      have c := norm_sub_norm_le (k i) (F (z + t • ∑ j ∈ Finset.range i, A i j • k j))
      linarith
  have stages : ∀ i ≤ s, ∃ Λ : ℝ, 0 ≤ Λ ∧ ∀ (A : ℕ → ℕ → ℝ), (∀ i j, |A i j| ≤ M) → ∀ (t : ℝ) (y z : E)
      (k : ℕ → E) (η : ℝ), 0 ≤ t → t ≤ 1 → t * q ≤ δ / 2 → y ∈ K → ‖z - y‖ ≤ δ / 2 → 0 ≤ η → η ≤ 1 →
      (∀ i < s, ‖k i - F (z + t • ∑ j ∈ Finset.range i, A i j • k j)‖ ≤ η) →
      ∀ j < i, ‖k j - stg F A y t j 0‖ ≤ Λ * (‖z - y‖ + η) := by
    intro i
    induction i with
    | zero => exact fun _ => ⟨0, le_rfl, fun _ _ _ _ _ _ _ _ _ _ _ _ _ _ _ j hj => by omega⟩
    | succ i ih =>
      intro hi
      obtain ⟨Λ, Λ0, h⟩ := ih (by omega)
      refine ⟨Λ + |L| * (1 + i * (|M| * Λ)) + 1, by positivity, fun A hA t y z k η t0 t1 ht hy hz η0 η1 hk j hj => ?_⟩
      have hd : 0 ≤ ‖z - y‖ + η := by positivity
      rcases Nat.lt_or_ge j i with hji | hji
      · refine (h A hA t y z k η t0 t1 ht hy hz η0 η1 hk j hji).trans ?_
        refine mul_le_mul_of_nonneg_right ?_ hd
        have : 0 ≤ |L| * (1 + i * (|M| * Λ)) := by positivity
        linarith
      · obtain rfl : j = i := by omega
        have hjs : j < s := by omega
        have m1 := (args A hA t y z k η t0 ht hy hz η1 hk j hjs).1
        have ex : ∀ i < s, ‖stg F A y t i 0 - F (y + t • ∑ j ∈ Finset.range i, A i j • stg F A y t j 0)‖ ≤ 0 := by
          intro i _
          rw [stg_zero, sub_self, norm_zero]
        have m2 := (args A hA t y y (fun i => stg F A y t i 0) 0 t0 ht hy (by simpa using (half_pos δ0).le)
          zero_le_one ex j hjs).1
        have l := lip y hy _ m1 _ m2
        have dif : ‖(z + t • ∑ i ∈ Finset.range j, A j i • k i) -
            (y + t • ∑ i ∈ Finset.range j, A j i • stg F A y t i 0)‖ ≤ (1 + j * (|M| * Λ)) * (‖z - y‖ + η) := by
          rw [add_sub_add_comm, ← smul_sub, ← Finset.sum_sub_distrib]
          refine (norm_add_le _ _).trans ?_
          have : ‖t • ∑ i ∈ Finset.range j, (A j i • k i - A j i • stg F A y t i 0)‖ ≤
              j * (|M| * (Λ * (‖z - y‖ + η))) := by
            rw [norm_smul, Real.norm_eq_abs, abs_of_nonneg t0]
            refine (mul_le_of_le_one_left (norm_nonneg _) t1).trans ?_
            refine (norm_sum_le _ _).trans ((Finset.sum_le_card_nsmul _ _ (|M| * (Λ * (‖z - y‖ + η)))
              fun i hi => ?_).trans (by simp))
            rw [← smul_sub, norm_smul, Real.norm_eq_abs]
            exact mul_le_mul ((hA _ _).trans (le_abs_self _))
              (h A hA t y z k η t0 t1 ht hy hz η0 η1 hk i (Finset.mem_range.mp hi)) (norm_nonneg _) (abs_nonneg _)
          calc _ ≤ ‖z - y‖ + j * (|M| * (Λ * (‖z - y‖ + η))) := add_le_add_right this _
            _ ≤ _ := by nlinarith
        have a := hk j hjs
        rw [stg_zero]
        have tri := norm_sub_le_norm_sub_add_norm_sub (k j) (F (z + t • ∑ i ∈ Finset.range j, A j i • k i))
          (F (y + t • ∑ i ∈ Finset.range j, A j i • stg F A y t i 0))
        have p : |L| * ‖(z + t • ∑ i ∈ Finset.range j, A j i • k i) -
            (y + t • ∑ i ∈ Finset.range j, A j i • stg F A y t i 0)‖ ≤ |L| * ((1 + j * (|M| * Λ)) * (‖z - y‖ + η)) :=
          mul_le_mul_of_nonneg_left dif (abs_nonneg _)
        have := norm_nonneg (z - y)
        nlinarith [mul_nonneg Λ0 hd]
  obtain ⟨Λ, Λ0, h⟩ := stages s le_rfl
  refine ⟨s * (|M| * Λ), min 1 (δ / 2 / (q + 1)), δ / 2, by positivity, by positivity, min_le_left _ _, by positivity, ?_⟩
  intro A b hA hb t y z k η t0 htτ hy hz η0 η1 hk
  have t1 : t ≤ 1 := htτ.trans (min_le_left _ _)
  have t2 : t * q ≤ δ / 2 := by
    have h := htτ.trans (min_le_right _ _)
    rw [le_div_iff₀ (by linarith)] at h
    nlinarith
  simp only [rkStep]
  rw [add_sub_add_comm, ← smul_sub, ← Finset.sum_sub_distrib]
  refine (norm_add_le _ _).trans ?_
  have : ‖∑ i ∈ Finset.range s, (b i • k i - b i • stg F A y t i 0)‖ ≤ s * (|M| * (Λ * (‖z - y‖ + η))) := by
    refine (norm_sum_le _ _).trans ((Finset.sum_le_card_nsmul _ _ (|M| * (Λ * (‖z - y‖ + η))) fun i hi => ?_).trans
      (by simp))
    rw [← smul_sub, norm_smul, Real.norm_eq_abs]
    exact mul_le_mul ((hb _).trans (le_abs_self _))
      (h A hA t y z k η t0 t1 t2 hy hz η0 η1 hk i (Finset.mem_range.mp hi)) (norm_nonneg _) (abs_nonneg _)
  rw [norm_smul, Real.norm_eq_abs, abs_of_nonneg t0]
  calc _ ≤ ‖z - y‖ + t * (s * (|M| * (Λ * (‖z - y‖ + η)))) := add_le_add_right (mul_le_mul_of_nonneg_left this t0) _
    _ = _ := by ring

/-- Global error with perturbations: the numerical solution may start within `e` of the exact one, its stages may
be off by `η` and its steps by `dt η`, as long as it stays near the exact solution. -/
theorem global_perturbed [FiniteDimensional ℝ E] (hU : IsOpen U) (hF : ContDiffOn ℝ ∞ F U) {T : ℝ} {u : ℝ → E}
    (hu : ∀ x ∈ Icc 0 T, HasDerivWithinAt u (F (u x)) (Icc 0 T) x) (huU : ∀ x ∈ Icc 0 T, u x ∈ U) (M : ℝ) (s : ℕ)
    {r : ℝ} (hr : 0 < r) :
    ∃ C τ : ℝ, 0 ≤ C ∧ 0 < τ ∧ ∀ (A : ℕ → ℕ → ℝ) (b : ℕ → ℝ) (ε : ℝ), (∀ i j, |A i j| ≤ M) → (∀ i, |b i| ≤ M) →
      Order4 s A b ε → ∀ (dt η e : ℝ) (N : ℕ) (Y : ℕ → E), 0 ≤ dt → dt ≤ τ → N * dt ≤ T → N * dt * (ε + η) ≤ τ →
      0 ≤ η → η ≤ 1 → e ≤ τ → ‖Y 0 - u 0‖ ≤ e →
      (∀ n < N, (∀ j ≤ n, ‖Y j - u (j * dt)‖ ≤ r) → ∃ k : ℕ → E,
        (∀ i < s, ‖k i - F (Y n + dt • ∑ j ∈ Finset.range i, A i j • k j)‖ ≤ η) ∧
        ‖Y (n + 1) - (Y n + dt • ∑ i ∈ Finset.range s, b i • k i)‖ ≤ dt * η) →
      (∀ n ≤ N, ‖Y n - u (n * dt)‖ ≤ r) ∧ ‖Y N - u (N * dt)‖ ≤ C * (dt ^ 4 + ε + η + e) := by
  set K := u '' Icc 0 T with hKdef
  have hK : IsCompact K := isCompact_Icc.image_of_continuousOn fun x hx => (hu x hx).continuousWithinAt
  have hKU : K ⊆ U := by rintro _ ⟨x, hx, rfl⟩; exact huU x hx
  obtain ⟨C1, τ1, C10, τ10, τ11, hloc⟩ := local_error hU hF hK hKU M s
  obtain ⟨Λ, τ2, ρ1, Λ0, τ20, τ21, ρ10, hst⟩ := step_perturbed hU hF hK hKU M s
  set ρ := min r ρ1 with hρ
  have ρ0 : 0 < ρ := lt_min hr ρ10
  set C := C1 + Λ + 1 with hC
  have C0 : 0 ≤ C := by positivity
  set G := Real.exp (Λ * |T|) with hG
  have G1 : 1 ≤ G := Real.one_le_exp (by positivity)
  set X := C * G with hX
  have X0 : 0 ≤ X := by positivity
  set D := |T| * X with hD
  have D0 : 0 ≤ D := by positivity
  refine ⟨D + G, min (min τ1 τ2) (min (ρ / 3 / (D + 1)) (min (ρ / 3 / (X + 1)) (ρ / 3 / (G + 1)))), by positivity,
    by positivity, ?_⟩
  intro A b ε hA hb ho dt η e N Y t0 ht hN hε η0 η1 heτ hY0 hY
  have ε0 : 0 ≤ ε := (abs_nonneg _).trans ho.o1
  have e0 : 0 ≤ e := (norm_nonneg _).trans hY0
  have ht1 : dt ≤ τ1 := ht.trans ((min_le_left _ _).trans (min_le_left _ _))
  have ht2 : dt ≤ τ2 := ht.trans ((min_le_left _ _).trans (min_le_right _ _))
  have dt1 : dt ≤ 1 := ht1.trans τ11
  have θ0 : 0 ≤ dt ^ 4 + ε + η := by positivity
  have he3 : G * e ≤ ρ / 3 := by
    have h3 := heτ.trans ((min_le_right _ _).trans ((min_le_right _ _).trans (min_le_right _ _)))
    rw [le_div_iff₀ (by linarith)] at h3
    nlinarith
  have small : ∀ r : ℝ, 0 ≤ r → r ≤ N * dt → r * X * (dt ^ 4 + ε + η) + G * e ≤ ρ := by
    intro r r0 hr
    have T0 : 0 ≤ T := r0.trans (hr.trans hN)
    have h1 := ht.trans ((min_le_right _ _).trans (min_le_left _ _))
    have h2 := hε.trans ((min_le_right _ _).trans ((min_le_right _ _).trans (min_le_left _ _)))
    have h3 : dt ^ 4 ≤ dt := pow_le_of_le_one t0 dt1 (by omega)
    rw [le_div_iff₀ (by linarith)] at h1 h2
    have p : 0 ≤ dt ^ 4 := by positivity
    have a1 : r * X * dt ^ 4 ≤ ρ / 3 := by
      calc r * X * dt ^ 4 ≤ T * X * dt := by
            refine mul_le_mul (mul_le_mul_of_nonneg_right (hr.trans hN) X0) h3 p (by positivity)
        _ = dt * D := by rw [hD, abs_of_nonneg T0]; ring
        _ ≤ _ := by linarith
    have a2 : r * X * (ε + η) ≤ ρ / 3 := by
      calc r * X * (ε + η) = r * (ε + η) * X := by ring
        _ ≤ N * dt * (ε + η) * X := by gcongr
        _ ≤ _ := by
          have : 0 ≤ (N : ℝ) * dt * (ε + η) := by positivity
          linarith
    linarith [mul_add (r * X) (dt ^ 4) (ε + η), add_assoc (dt ^ 4) ε η, congrArg (r * X * ·) (add_assoc (dt ^ 4) ε η)]
  have bound : ∀ n : ℕ, n ≤ N → (n * dt * C * (dt ^ 4 + ε + η) + e) * Real.exp (Λ * (n * dt)) ≤
      n * dt * X * (dt ^ 4 + ε + η) + G * e := by
    intro n hn
    have n0 : 0 ≤ (n : ℝ) * dt := by positivity
    have nT : (n : ℝ) * dt ≤ T := (mul_le_mul_of_nonneg_right (by exact_mod_cast hn) t0).trans hN
    have T0 : 0 ≤ T := n0.trans nT
    have g : Real.exp (Λ * (n * dt)) ≤ G := by
      rw [hG, abs_of_nonneg T0]
      exact Real.exp_le_exp.2 (mul_le_mul_of_nonneg_left nT Λ0)
    calc _ ≤ (n * dt * C * (dt ^ 4 + ε + η) + e) * G := mul_le_mul_of_nonneg_left g (by positivity)
      _ = _ := by rw [hX]; ring
  have main : ∀ n ≤ N, ‖Y n - u (n * dt)‖ ≤ (n * dt * C * (dt ^ 4 + ε + η) + e) * Real.exp (Λ * (n * dt)) := by
    intro n
    induction n using Nat.strong_induction_on with
    | _ n ih' =>
    intro hn
    cases n with
    | zero => simpa using hY0
    | succ n =>
      have ih := ih' n (by omega) (by omega)
      have nN : ((n : ℝ) + 1) * dt ≤ T := by
        refine le_trans (mul_le_mul_of_nonneg_right ?_ t0) hN
        exact_mod_cast hn
      have n0 : 0 ≤ (n : ℝ) * dt := by positivity
      have T0 : 0 ≤ T := by linarith [add_one_mul (n : ℝ) dt]
      have nT : (n : ℝ) * dt ≤ T := by linarith [add_one_mul (n : ℝ) dt]
      have mem : (n : ℝ) * dt ∈ Icc 0 T := ⟨n0, nT⟩
      have close' : ∀ j ≤ n, ‖Y j - u (j * dt)‖ ≤ ρ := fun j hj => by
        have nN' : (j : ℝ) * dt ≤ N * dt := mul_le_mul_of_nonneg_right (by exact_mod_cast (by omega)) t0
        exact (ih' j (by omega) (by omega)).trans ((bound j (by omega)).trans (small (j * dt) (by positivity) nN'))
      have close := close' n le_rfl
      obtain ⟨k, hk, hstep⟩ := hY n (by omega) fun j hj => (close' j hj).trans (min_le_left _ _)
      have s1 := hst A b hA hb dt (u (n * dt)) (Y n) k η t0 ht2 ⟨_, mem, rfl⟩ (close.trans (min_le_right _ _)) η0 η1 hk
      have shift : ∀ x ∈ Icc 0 dt, (n : ℝ) * dt + x ∈ Icc 0 T := fun x hx =>
        ⟨add_nonneg n0 hx.1, by linarith [hx.2, add_one_mul (n : ℝ) dt]⟩
      have s2 := hloc A b ε hA hb ho (fun x => u (n * dt + x)) dt t0 ht1
        (fun x hx => by
          have h1 := hu _ (shift x hx)
          have h2 : HasDerivWithinAt (fun x => (n : ℝ) * dt + x) 1 (Icc 0 dt) x :=
            (hasDerivWithinAt_id x _).const_add _
          have := h1.scomp x h2 shift
          rw [one_smul] at this
          exact this)
        (fun x hx => ⟨_, shift x hx, rfl⟩)
      simp only [add_zero] at s2
      have en : ((n + 1 : ℕ) : ℝ) * dt = n * dt + dt := by push_cast; ring
      rw [en]
      set v := u (n * dt + dt) with hv
      set w := u (n * dt) with hw
      set Z := Y n + dt • ∑ i ∈ Finset.range s, b i • k i with hZ
      have tri : ‖Y (n + 1) - v‖ ≤ (1 + Λ * dt) * ‖Y n - w‖ + dt * C * (dt ^ 4 + ε + η) := by
        have : Y (n + 1) - v = (Y (n + 1) - Z) + (Z - rkStep F s A b dt w) - (v - rkStep F s A b dt w) := by abel
        rw [this]
        refine (norm_sub_le _ _).trans ((add_le_add (norm_add_le _ _) le_rfl).trans ?_)
        have p4 : 0 ≤ dt ^ 4 := by positivity
        have : dt * C * (dt ^ 4 + ε + η) = C1 * (dt ^ 5 + ε * dt) + (dt * η + Λ * dt * η) + (C1 * (dt * η) +
            (Λ + 1) * (dt * (dt ^ 4 + ε))) := by rw [hC]; ring
        have q1 : 0 ≤ C1 * (dt * η) + (Λ + 1) * (dt * (dt ^ 4 + ε)) := by positivity
        linarith
      refine tri.trans ?_
      have x1 : 1 + Λ * dt ≤ Real.exp (Λ * dt) := by linarith [Real.add_one_le_exp (Λ * dt)]
      have x2 : 1 ≤ Real.exp (Λ * (n * dt + dt)) := Real.one_le_exp (by positivity)
      have x3 : (1 + Λ * dt) * ‖Y n - w‖ ≤ (n * dt * C * (dt ^ 4 + ε + η) + e) * Real.exp (Λ * (n * dt + dt)) := by
        calc (1 + Λ * dt) * ‖Y n - w‖ ≤ Real.exp (Λ * dt) * ((n * dt * C * (dt ^ 4 + ε + η) + e) *
              Real.exp (Λ * (n * dt))) := mul_le_mul x1 ih (norm_nonneg _) (Real.exp_pos _).le
          _ = _ := by rw [mul_add Λ, Real.exp_add]; ring
      have x4 : dt * C * (dt ^ 4 + ε + η) ≤ dt * C * (dt ^ 4 + ε + η) * Real.exp (Λ * (n * dt + dt)) :=
        le_mul_of_one_le_right (by positivity) x2
      calc _ ≤ _ := add_le_add x3 x4
        _ = _ := by ring
  refine ⟨fun n hn => (main n hn).trans ((bound n hn).trans ((small (n * dt) (by positivity)
    (mul_le_mul_of_nonneg_right (by exact_mod_cast hn) t0)).trans (min_le_left _ _))), ?_⟩
  refine (main N le_rfl).trans ((bound N le_rfl).trans ?_)
  have N0 : 0 ≤ (N : ℝ) * dt := by positivity
  have T0 : 0 ≤ T := N0.trans hN
  have : (N : ℝ) * dt * X * (dt ^ 4 + ε + η) ≤ D * (dt ^ 4 + ε + η) := by
    rw [hD, abs_of_nonneg T0]
    exact mul_le_mul_of_nonneg_right (mul_le_mul_of_nonneg_right hN X0) θ0
  have G0 : 0 ≤ G := by linarith
  nlinarith [mul_nonneg D0 e0, mul_nonneg G0 θ0]

end Butcher
end Omega
