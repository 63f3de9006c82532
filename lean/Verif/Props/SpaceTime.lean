import Verif.Props.Consistency
import Mathlib.Analysis.Calculus.MeanValue
import Mathlib.Analysis.Calculus.FDeriv.Symmetric

/-!
# Tracers that solve the advection equation in a prescribed flow

Time derivatives of a solution are again solutions, and values at a later time are given by Taylor's
formula.  Analysis only; it serves the convergence of tracer advection.
-/

set_option linter.unusedVariables false
set_option linter.unusedSectionVars false

namespace Omega
noncomputable section
namespace Props

open Taylor Jets

/-- A concentration in time and space: `n` times continuously differentiable, periodic in space, values
and derivatives up to order `n` bounded by `B` until the time `Te`. -/
structure BoundedIn (n : ℕ) (P Q B Te : ℝ) (q : ℝ × (ℝ × ℝ) → ℝ) : Prop where
  smooth : ContDiff ℝ n q
  per : ∀ t, Periodic2 P Q fun z => q (t, z)
  bound : ∀ k, k ≤ n → ∀ t, 0 ≤ t → t ≤ Te → ∀ z, ‖iteratedFDeriv ℝ k q (t, z)‖ ≤ B

/-- the advection equation `∂t(hq) + ∇·(hqu) = 0` in a flow that does not change -/
def Advected (H U W : ℝ × ℝ → ℝ) (q : ℝ × (ℝ × ℝ) → ℝ) : Prop :=
  ∀ t z, H z * deriv (fun s => q (s, z)) t = rhsS 0 H U W (fun z => q (t, z)) z

/-- time derivative -/
def dTime (q : ℝ × (ℝ × ℝ) → ℝ) : ℝ × (ℝ × ℝ) → ℝ := fun x => fderiv ℝ q x (1, 0)

variable {n : ℕ} {P Q B Te : ℝ} {q : ℝ × (ℝ × ℝ) → ℝ}

theorem hasDerivAt_time (h : Differentiable ℝ q) (t : ℝ) (z : ℝ × ℝ) :
    HasDerivAt (fun s => q (s, z)) (dTime q (t, z)) t := by
  have l : HasDerivAt (fun s : ℝ => (s, z)) ((1, 0) : ℝ × (ℝ × ℝ)) t :=
    (hasDerivAt_id t).prodMk (hasDerivAt_const t z)
  exact (h (t, z)).hasFDerivAt.comp_hasDerivAt t l

theorem fderiv_slice (h : Differentiable ℝ q) (t : ℝ) (z v : ℝ × ℝ) :
    fderiv ℝ (fun z => q (t, z)) z v = fderiv ℝ q (t, z) (0, v) := by
  have l : HasFDerivAt (fun z : ℝ × ℝ => (t, z)) (ContinuousLinearMap.inr ℝ ℝ (ℝ × ℝ)) z :=
    hasFDerivAt_prodMk_right t z
  have := ((h (t, z)).hasFDerivAt.comp z l).fderiv
  rw [show (fun z => q (t, z)) = q ∘ fun z => (t, z) from rfl, this]
  simp

theorem dTime_periodic (h : Differentiable ℝ q) (hp : ∀ t, Periodic2 P Q fun z => q (t, z)) (t : ℝ) :
    Periodic2 P Q fun z => dTime q (t, z) := by
  refine ⟨fun x y => ?_, fun x y => ?_⟩
  · beta_reduce
    rw [← (hasDerivAt_time h t (x + P, y)).deriv, ← (hasDerivAt_time h t (x, y)).deriv]
    exact congrArg (fun f => deriv f t) (funext fun s => (hp s).1 x y)
  · beta_reduce
    rw [← (hasDerivAt_time h t (x, y + Q)).deriv, ← (hasDerivAt_time h t (x, y)).deriv]
    exact congrArg (fun f => deriv f t) (funext fun s => (hp s).2 x y)

theorem BoundedIn.diff (h : BoundedIn (n + 1) P Q B Te q) : Differentiable ℝ q :=
  h.smooth.differentiable (by exact_mod_cast Nat.succ_ne_zero n)

theorem BoundedIn.dTime (h : BoundedIn (n + 1) P Q B Te q) : BoundedIn n P Q B Te (dTime q) := by
  have hs : ContDiff ℝ n (fderiv ℝ q) := h.smooth.fderiv_right (m := n) (by norm_cast)
  refine ⟨hs.clm_apply contDiff_const, dTime_periodic h.diff h.per, fun k hk t t0 t1 z => ?_⟩
  refine (norm_iteratedFDeriv_clm_apply_const hs.contDiffAt (by exact_mod_cast hk)).trans ?_
  rw [norm_iteratedFDeriv_fderiv]
  have : ‖((1, 0) : ℝ × (ℝ × ℝ))‖ = 1 := by simp [Prod.norm_def]
  rw [this, one_mul]
  exact h.bound (k + 1) (by omega) t t0 t1 z

theorem BoundedIn.slice (h : BoundedIn n P Q B Te q) {t : ℝ} (t0 : 0 ≤ t) (t1 : t ≤ Te) :
    Bounded n P Q B fun z => q (t, z) := by
  have hl : ContDiff ℝ n fun z : ℝ × ℝ => (t, z) := contDiff_prodMk_right t
  refine ⟨h.smooth.comp hl, h.per t, fun k hk z => ?_⟩
  have hs : ContDiff ℝ n fun w => q ((t, 0) + w) := h.smooth.comp (contDiff_const.add contDiff_id)
  have e : (fun z => q (t, z)) = (fun w => q ((t, 0) + w)) ∘ ContinuousLinearMap.inr ℝ ℝ (ℝ × ℝ) := by
    funext z; simp
  rw [e, ContinuousLinearMap.iteratedFDeriv_comp_right _ hs z (by exact_mod_cast hk)]
  refine (ContinuousMultilinearMap.norm_compContinuousLinearMap_le _ _).trans ?_
  rw [iteratedFDeriv_comp_add_left, Finset.prod_const]
  have i1 : ‖ContinuousLinearMap.inr ℝ ℝ (ℝ × ℝ)‖ ≤ 1 := ContinuousLinearMap.norm_inr_le_one ℝ ℝ (ℝ × ℝ)
  have := h.bound k hk t t0 t1 z
  simp only [ContinuousLinearMap.inr_apply, Prod.mk_add_mk, add_zero, zero_add]
  exact (mul_le_mul this (pow_le_one₀ (norm_nonneg _) i1) (by positivity) ((norm_nonneg _).trans this)).trans_eq
    (mul_one B)

theorem BoundedIn.mono {k : ℕ} (h : BoundedIn n P Q B Te q) (hk : k ≤ n) : BoundedIn k P Q B Te q :=
  ⟨h.smooth.of_le (by exact_mod_cast hk), h.per, fun i hi => h.bound i (hi.trans hk)⟩

theorem BoundedIn.le (h : BoundedIn n P Q B Te q) {t : ℝ} (t0 : 0 ≤ t) (t1 : t ≤ Te) (z : ℝ × ℝ) :
    |q (t, z)| ≤ B := by
  have := h.bound 0 (Nat.zero_le _) t t0 t1 z
  rwa [norm_iteratedFDeriv_zero] at this

/-- the divergence of the tracer flux, expanded -/
theorem divAt_flux {H U W φ : ℝ × ℝ → ℝ} (hH : Differentiable ℝ H) (hU : Differentiable ℝ U)
    (hW : Differentiable ℝ W) (hφ : Differentiable ℝ φ) (z : ℝ × ℝ) :
    divAt (fun w => H w * φ w * U w) (fun w => H w * φ w * W w) z =
      divAt (fun w => H w * U w) (fun w => H w * W w) z * φ z +
        H z * U z * fderiv ℝ φ z (1, 0) + H z * W z * fderiv ℝ φ z (0, 1) := by
  unfold divAt
  have hp : Differentiable ℝ fun w => H w * φ w := hH.mul hφ
  rw [fderiv_mul2 hp hU, fderiv_mul2 hp hW, fderiv_mul2 hH hφ, fderiv_mul2 hH hφ,
    fderiv_mul2 hH hU, fderiv_mul2 hH hW]
  ring

theorem Advected.expand {H U W : ℝ × ℝ → ℝ} (hH : Differentiable ℝ H) (hU : Differentiable ℝ U)
    (hW : Differentiable ℝ W) (hq : Differentiable ℝ q) :
    Advected H U W q ↔ ∀ t z, H z * dTime q (t, z) =
      -(divAt (fun w => H w * U w) (fun w => H w * W w) z * q (t, z) +
        H z * U z * fderiv ℝ q (t, z) (0, (1, 0)) + H z * W z * fderiv ℝ q (t, z) (0, (0, 1))) := by
  refine forall_congr' fun t => forall_congr' fun z => ?_
  have hs : Differentiable ℝ fun z => q (t, z) :=
    hq.comp ((differentiable_const t).prodMk differentiable_id)
  rw [(hasDerivAt_time hq t z).deriv, rhsS, zero_mul, add_zero, divAt_flux hH hU hW hs,
    fderiv_slice hq, fderiv_slice hq]

/-- The time derivative of a solution is a solution. -/
theorem Advected.dTime {H U W : ℝ × ℝ → ℝ} (hH : Differentiable ℝ H) (hU : Differentiable ℝ U)
    (hW : Differentiable ℝ W) (hq : ContDiff ℝ 2 q) (h : Advected H U W q) :
    Advected H U W (dTime q) := by
  have d1 : Differentiable ℝ q := hq.differentiable (by norm_num)
  have hf : ContDiff ℝ 1 (fderiv ℝ q) := hq.fderiv_right (m := 1) (by norm_num)
  have dv : ∀ v, Differentiable ℝ fun x => fderiv ℝ q x v := fun v =>
    (hf.clm_apply contDiff_const).differentiable (by norm_num)
  have ff : ∀ x v w, fderiv ℝ (fun y => fderiv ℝ q y v) x w = fderiv ℝ (fderiv ℝ q) x w v := fun x v w => by
    rw [fderiv_clm_apply (hf.differentiable (by norm_num) x) (differentiableAt_const v)]
    simp
  have sw : ∀ x v w, fderiv ℝ (fun y => fderiv ℝ q y v) x w = fderiv ℝ (fun y => fderiv ℝ q y w) x v :=
    fun x v w => by
      rw [ff, ff]
      exact (hq.contDiffAt.isSymmSndFDerivAt (by simp)).eq w v
  rw [Advected.expand hH hU hW d1] at h
  rw [Advected.expand (q := Props.dTime q) hH hU hW (dv (1, 0))]
  intro t z
  have L := (hasDerivAt_time (dv (1, 0)) t z).const_mul (H z)
  have R := ((((hasDerivAt_time d1 t z).const_mul (divAt (fun w => H w * U w) (fun w => H w * W w) z)).add
    ((hasDerivAt_time (dv (0, (1, 0))) t z).const_mul (H z * U z))).add
    ((hasDerivAt_time (dv (0, (0, 1))) t z).const_mul (H z * W z))).neg
  have e : (fun s => H z * fderiv ℝ q (s, z) (1, 0)) = _ := funext fun s => h s z
  rw [e] at L
  have := L.unique R
  refine this.trans ?_
  congr 1
  unfold Props.dTime
  rw [sw (t, z) (0, (1, 0)), sw (t, z) (0, (0, 1))]

/-- A smooth function with periods in space is bounded until any time. -/
theorem BoundedIn.exists (hP : 0 < P) (hQ : 0 < Q) (Te : ℝ) (hs : ContDiff ℝ n q)
    (hp : ∀ t, Periodic2 P Q fun z => q (t, z)) : ∃ B, BoundedIn n P Q B Te q := by
  have h : ∀ k : ℕ, ∃ B, 0 ≤ B ∧ (k ≤ n → ∀ t, 0 ≤ t → t ≤ Te → ∀ z, ‖iteratedFDeriv ℝ k q (t, z)‖ ≤ B) := by
    intro k
    by_cases hk : k ≤ n
    · have hcont : Continuous fun x => ‖iteratedFDeriv ℝ k q x‖ :=
        (hs.continuous_iteratedFDeriv (by exact_mod_cast hk)).norm
      have hK : IsCompact (Set.Icc (0 : ℝ) Te ×ˢ (Set.Icc (0 : ℝ) P ×ˢ Set.Icc (0 : ℝ) Q)) :=
        isCompact_Icc.prod (isCompact_Icc.prod isCompact_Icc)
      obtain ⟨B, hB⟩ := (hK.image hcont).bddAbove
      refine ⟨max B 0, le_max_right _ _, fun _ t t0 t1 => ?_⟩
      rintro ⟨x, y⟩
      obtain ⟨i, hi, -⟩ := existsUnique_add_zsmul_mem_Ico hP x 0
      obtain ⟨j, hj, -⟩ := existsUnique_add_zsmul_mem_Ico hQ y 0
      simp only [zsmul_eq_mul, zero_add] at hi hj
      have e : (fun w => q ((0, ((i : ℝ) * P, (j : ℝ) * Q)) + w)) = q := by
        funext w
        obtain ⟨s, a, b⟩ := w
        simpa [add_comm] using (hp s).shift i j a b
      have := iteratedFDeriv_comp_add_left (𝕜 := ℝ) (f := q) k (0, ((i : ℝ) * P, (j : ℝ) * Q)) (t, (x, y))
      rw [e] at this
      rw [this]
      refine le_trans (hB (Set.mem_image_of_mem _ ?_)) (le_max_left _ _)
      simp only [Prod.mk_add_mk, zero_add]
      rw [add_comm _ x, add_comm _ y]
      exact ⟨⟨t0, t1⟩, ⟨hi.1, hi.2.le⟩, ⟨hj.1, hj.2.le⟩⟩
    · exact ⟨0, le_rfl, fun h => absurd h hk⟩
  choose B b0 hB using h
  refine ⟨∑ k ∈ Finset.range (n + 1), B k, hs, hp, fun k hk t t0 t1 z => (hB k hk t t0 t1 z).trans ?_⟩
  exact Finset.single_le_sum (f := B) (fun k _ => b0 k) (Finset.mem_range.2 (Nat.lt_succ_of_le hk))

theorem BoundedIn.raise {C : ℝ} (h : BoundedIn n P Q B Te q) (hBC : B ≤ C) : BoundedIn n P Q C Te q :=
  ⟨h.smooth, h.per, fun k hk t t0 t1 z => (h.bound k hk t t0 t1 z).trans hBC⟩

/-- In a uniform flow `(a, b)` over any positive thickness, a content that moves with the flow solves the
equation. -/
theorem advected_translation {H : ℝ × ℝ → ℝ} (hH : ∀ z, H z ≠ 0) {φ : ℝ × ℝ → ℝ}
    (hφ : Differentiable ℝ φ) (a b : ℝ) :
    Advected H (fun _ => a) (fun _ => b) fun x => φ (x.2.1 - a * x.1, x.2.2 - b * x.1) / H x.2 := by
  intro t z
  have e1 : (fun s => φ (z.1 - a * s, z.2 - b * s) / H z) = fun s => φ (z + s • (-a, -b)) / H z := by
    funext s
    congr 2
    ext <;> simp <;> ring
  have e2 : ∀ c : ℝ, (fun w : ℝ × ℝ => H w * (φ (w.1 - a * t, w.2 - b * t) / H w) * c) =
      fun w => φ (w + t • (-a, -b)) * c := by
    intro c
    funext w
    rw [mul_div_cancel₀ _ (hH w)]
    congr 2
    ext <;> simp <;> ring
  have l : HasDerivAt (fun s : ℝ => z + s • ((-a, -b) : ℝ × ℝ)) ((-a, -b) : ℝ × ℝ) t := by
    simpa using ((hasDerivAt_id t).smul_const ((-a, -b) : ℝ × ℝ)).const_add z
  have d1 := ((hφ (z + t • (-a, -b))).hasFDerivAt.comp_hasDerivAt t l).div_const (H z)
  have d2 : ∀ (c : ℝ) v, fderiv ℝ (fun w => φ (w + t • (-a, -b)) * c) z v =
      fderiv ℝ φ (z + t • (-a, -b)) v * c := fun c v => by
    have hd : Differentiable ℝ fun w : ℝ × ℝ => φ (w + t • (-a, -b)) :=
      hφ.comp (differentiable_id.add_const _)
    rw [fderiv_mul_const (hd z), fderiv_comp_add_right]
    simp [mul_comm]
  simp only
  rw [e1]
  erw [d1.deriv]
  unfold rhsS divAt
  rw [zero_mul, add_zero, e2, e2, d2, d2, mul_div_cancel₀ _ (hH z),
    show ((-a, -b) : ℝ × ℝ) = (-a) • (1, 0) + (-b) • (0, 1) by ext <;> simp, map_add, map_smul, map_smul]
  simp only [smul_eq_mul]
  ring

/-! ### Taylor's formula in time -/

/-- one more integration -/
theorem integrate {g g' : ℝ → ℝ} {a b M : ℝ} {k : ℕ} (hg : ∀ s, HasDerivAt g (g' s) s) (h0 : g a = 0)
    (hb : ∀ s, a ≤ s → s ≤ b → |g' s| ≤ M * (s - a) ^ k) {s : ℝ} (h1 : a ≤ s) (h2 : s ≤ b) (M0 : 0 ≤ M) :
    |g s| ≤ M * (s - a) ^ (k + 1) := by
  have := norm_image_sub_le_of_norm_deriv_le_segment' (f := g) (f' := g') (C := M * (s - a) ^ k)
    (a := a) (b := s) (fun x _ => (hg x).hasDerivWithinAt) (fun x hx => by
      rw [Real.norm_eq_abs]
      refine (hb x hx.1 (hx.2.le.trans h2)).trans ?_
      have := hx.1
      have := hx.2
      gcongr) s ⟨h1, le_rfl⟩
  rw [h0, sub_zero, Real.norm_eq_abs] at this
  rw [pow_succ, ← mul_assoc]
  exact this

theorem taylor_five {g : ℕ → ℝ → ℝ} {a b M : ℝ} (hg : ∀ i, i ≤ 4 → ∀ s, HasDerivAt (g i) (g (i + 1) s) s)
    (hb : ∀ s, a ≤ s → s ≤ b → |g 5 s| ≤ M) (hab : a ≤ b) :
    |g 0 b - (g 0 a + (b - a) * g 1 a + (b - a) ^ 2 / 2 * g 2 a + (b - a) ^ 3 / 6 * g 3 a +
      (b - a) ^ 4 / 24 * g 4 a)| ≤ M * (b - a) ^ 5 := by
  have M0 : 0 ≤ M := (abs_nonneg _).trans (hb a le_rfl hab)
  have id : ∀ s, HasDerivAt (fun s => s - a) 1 s := fun s => (hasDerivAt_id s).sub_const a
  have s4 : ∀ s, a ≤ s → s ≤ b → |g 4 s - g 4 a| ≤ M * (s - a) ^ 1 := fun s h1 h2 =>
    integrate (g := fun s => g 4 s - g 4 a) (k := 0) (fun s => (hg 4 (by omega) s).sub_const _) (sub_self _)
      (fun s u v => by simpa using hb s u v) h1 h2 M0
  have s3 : ∀ s, a ≤ s → s ≤ b → |g 3 s - (g 3 a + (s - a) * g 4 a)| ≤ M * (s - a) ^ 2 := fun s h1 h2 =>
    integrate (g := fun s => g 3 s - (g 3 a + (s - a) * g 4 a)) (g' := fun s => g 4 s - g 4 a) (k := 1)
      (fun s => by
        have := (hg 3 (by omega) s).sub (((id s).mul_const (g 4 a)).const_add (g 3 a))
        exact this.congr_deriv (by ring)) (by simp) s4 h1 h2 M0
  have s2 : ∀ s, a ≤ s → s ≤ b → |g 2 s - (g 2 a + (s - a) * g 3 a + (s - a) ^ 2 / 2 * g 4 a)| ≤
      M * (s - a) ^ 3 := fun s h1 h2 =>
    integrate (g := fun s => g 2 s - (g 2 a + (s - a) * g 3 a + (s - a) ^ 2 / 2 * g 4 a))
      (g' := fun s => g 3 s - (g 3 a + (s - a) * g 4 a)) (k := 2)
      (fun s => by
        have := (hg 2 (by omega) s).sub ((((id s).mul_const (g 3 a)).const_add (g 2 a)).add
          ((((id s).pow 2).div_const 2).mul_const (g 4 a)))
        exact this.congr_deriv (by push_cast; ring)) (by simp) s3 h1 h2 M0
  have s1 : ∀ s, a ≤ s → s ≤ b → |g 1 s - (g 1 a + (s - a) * g 2 a + (s - a) ^ 2 / 2 * g 3 a +
      (s - a) ^ 3 / 6 * g 4 a)| ≤ M * (s - a) ^ 4 := fun s h1 h2 =>
    integrate (g := fun s => g 1 s - (g 1 a + (s - a) * g 2 a + (s - a) ^ 2 / 2 * g 3 a +
        (s - a) ^ 3 / 6 * g 4 a))
      (g' := fun s => g 2 s - (g 2 a + (s - a) * g 3 a + (s - a) ^ 2 / 2 * g 4 a)) (k := 3)
      (fun s => by
        have := (hg 1 (by omega) s).sub (((((id s).mul_const (g 2 a)).const_add (g 1 a)).add
          ((((id s).pow 2).div_const 2).mul_const (g 3 a))).add
          ((((id s).pow 3).div_const 6).mul_const (g 4 a)))
        exact this.congr_deriv (by push_cast; ring)) (by simp) s2 h1 h2 M0
  exact integrate (g := fun s => g 0 s - (g 0 a + (s - a) * g 1 a + (s - a) ^ 2 / 2 * g 2 a +
      (s - a) ^ 3 / 6 * g 3 a + (s - a) ^ 4 / 24 * g 4 a))
    (g' := fun s => g 1 s - (g 1 a + (s - a) * g 2 a + (s - a) ^ 2 / 2 * g 3 a +
      (s - a) ^ 3 / 6 * g 4 a)) (k := 4)
    (fun s => by
      have := (hg 0 (by omega) s).sub ((((((id s).mul_const (g 1 a)).const_add (g 0 a)).add
        ((((id s).pow 2).div_const 2).mul_const (g 2 a))).add
        ((((id s).pow 3).div_const 6).mul_const (g 3 a))).add
        ((((id s).pow 4).div_const 24).mul_const (g 4 a)))
      exact this.congr_deriv (by push_cast; ring)) (by simp) s1 hab le_rfl M0

end Props
end
end Omega
