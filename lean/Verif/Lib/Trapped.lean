import Mathlib.Analysis.ODE.ExistUnique
import Mathlib.Analysis.Calculus.ContDiff.RCLike
import Mathlib.Analysis.ODE.Gronwall
import Mathlib.Tactic.Linarith

/-!
# Solutions that cannot leave a box exist for all times

An autonomous equation `v' = F v` in finitely many variables, with `F` continuously differentiable on a closed
box.  If every solution that stays in the box up to a time lies in the open box at that time, then the solution
from a point of the open box exists, in the box, up to every time.
-/

namespace Omega
namespace Trapped

open Set

variable {ι : Type*} [Fintype ι]

/-- the nearest point of a box -/
def clamp (lo hi v : ι → ℝ) : ι → ℝ := fun i => max (lo i) (min (hi i) (v i))

omit [Fintype ι] in
theorem clamp_mem {lo hi : ι → ℝ} (hle : ∀ i, lo i ≤ hi i) (v : ι → ℝ) : clamp lo hi v ∈ Icc lo hi :=
  ⟨fun _ => le_max_left _ _, fun i => max_le (hle i) (min_le_left _ _)⟩

omit [Fintype ι] in
theorem clamp_of_mem {lo hi v : ι → ℝ} (h : v ∈ Icc lo hi) : clamp lo hi v = v := by
  funext i
  simp only [clamp]
  rw [min_eq_right (h.2 i), max_eq_right (h.1 i)]

theorem clamp_lipschitz (lo hi : ι → ℝ) : LipschitzWith 1 (clamp lo hi) := by
  refine LipschitzWith.of_dist_le_mul fun v w => ?_
  rw [NNReal.coe_one, one_mul, dist_pi_le_iff dist_nonneg]
  intro i
  refine le_trans ?_ (dist_le_pi_dist v w i)
  have a := abs_max_sub_max_le_abs (min (hi i) (v i)) (min (hi i) (w i)) (lo i)
  have b := abs_min_sub_min_le_max (hi i) (v i) (hi i) (w i)
  rw [sub_self, abs_zero, max_eq_right (abs_nonneg _)] at b
  simp only [clamp, Real.dist_eq]
  rw [max_comm (lo i), max_comm (lo i)]
  exact a.trans b

theorem exists_solution {F : (ι → ℝ) → ι → ℝ} {lo hi : ι → ℝ}
    (hF : ContDiffOn ℝ 1 F (Icc lo hi)) {v0 : ι → ℝ} (h0 : ∀ i, lo i < v0 i ∧ v0 i < hi i) {T : ℝ} (hT : 0 ≤ T)
    (ap : ∀ t ∈ Icc 0 T, ∀ α : ℝ → ι → ℝ, α 0 = v0 → (∀ x ∈ Icc 0 t, α x ∈ Icc lo hi) →
      (∀ x ∈ Icc 0 t, HasDerivWithinAt α (F (α x)) (Icc 0 t) x) → ∀ i, lo i < α t i ∧ α t i < hi i) :
    ∃ α : ℝ → ι → ℝ, α 0 = v0 ∧
      ∀ x ∈ Icc 0 T, α x ∈ Icc lo hi ∧ HasDerivWithinAt α (F (α x)) (Icc 0 T) x := by
  have hle : ∀ i, lo i ≤ hi i := fun i => ((h0 i).1.trans (h0 i).2).le
  have cpt : IsCompact (Icc lo hi) := isCompact_Icc
  obtain ⟨K, hK⟩ := hF.exists_lipschitzOnWith one_ne_zero (convex_Icc lo hi) cpt
  obtain ⟨C, hC⟩ := cpt.exists_bound_of_continuousOn hF.continuousOn
  have C0 : 0 ≤ C := (norm_nonneg _).trans (hC _ (clamp_mem hle v0))
  have lip : LipschitzWith (K * 1) (F ∘ clamp lo hi) := by
    have := hK.comp ((clamp_lipschitz lo hi).lipschitzOnWith (s := univ)) fun v _ => clamp_mem hle v
    rwa [lipschitzOnWith_univ] at this
  have pl : IsPicardLindelof (fun _ => F ∘ clamp lo hi) (⟨0, left_mem_Icc.mpr hT⟩ : Icc (0 : ℝ) T) v0
      ⟨C * T, mul_nonneg C0 hT⟩ 0 ⟨C, C0⟩ (K * 1) := by
    refine ⟨fun t _ => lip.lipschitzOnWith, fun x _ => continuousOn_const, fun t _ x _ => ?_, ?_⟩
    · exact hC _ (clamp_mem hle x)
    · show C * max (T - 0) (0 - 0) ≤ C * T - 0
      rw [sub_zero, sub_zero, sub_zero, max_eq_left hT]
  obtain ⟨α, α0, hα⟩ := pl.exists_eq_forall_mem_Icc_hasDerivWithinAt₀
  have α0 : α 0 = v0 := α0
  have cα : ContinuousOn α (Icc 0 T) := fun x hx => (hα x hx).continuousWithinAt
  set O : Set (ι → ℝ) := {v | ∀ i, lo i < v i ∧ v i < hi i} with hO
  have oO : IsOpen O := by
    have : O = ⋂ i, {v | lo i < v i ∧ v i < hi i} := by ext v; simp [hO]
    rw [this]
    exact isOpen_iInter_of_finite fun i => (isOpen_lt continuous_const (continuous_apply _)).inter
      (isOpen_lt (continuous_apply _) continuous_const)
  have OB : O ⊆ Icc lo hi := fun v hv => ⟨fun i => (hv i).1.le, fun i => (hv i).2.le⟩
  have stay : ∀ x ∈ Icc 0 T, α x ∈ O := by
    by_contra hcon
    push Not at hcon
    obtain ⟨x, hx, hxO⟩ := hcon
    have bc : IsCompact (Icc 0 T ∩ α ⁻¹' Oᶜ) :=
      isCompact_Icc.of_isClosed_subset (cα.preimage_isClosed_of_isClosed isClosed_Icc oO.isClosed_compl)
        inter_subset_left
    obtain ⟨t, ⟨ht, htO⟩, tmin⟩ := bc.exists_isLeast ⟨x, hx, hxO⟩
    have tpos : 0 < t := by
      rcases ht.1.eq_or_lt with e | e
      · exact absurd (by rw [← e, α0]; exact h0 : α t ∈ O) htO
      · exact e
    have bef : ∀ y ∈ Ico 0 t, α y ∈ O := fun y hy => by
      by_contra hn
      exact absurd (tmin ⟨⟨hy.1, hy.2.le.trans ht.2⟩, hn⟩) (not_le.mpr hy.2)
    have sub : Icc 0 t ⊆ Icc 0 T := Icc_subset_Icc_right ht.2
    have inB : ∀ y ∈ Icc 0 t, α y ∈ Icc lo hi := fun y hy => by
      rcases hy.2.eq_or_lt with e | e
      · subst e
        have cw : ContinuousWithinAt α (Ico 0 y) y := (cα y ht).mono (Ico_subset_Icc_self.trans sub)
        have := cw.mem_closure (by rw [closure_Ico tpos.ne]; exact hy) (t := Icc lo hi) fun z hz => OB (bef z hz)
        rwa [isClosed_Icc.closure_eq] at this
      · exact OB (bef y ⟨hy.1, e⟩)
    refine htO (ap t ht α α0 inB fun y hy => ?_)
    have := (hα y (sub hy)).mono sub
    rwa [Function.comp_apply, clamp_of_mem (inB y hy)] at this
  refine ⟨α, α0, fun x hx => ⟨OB (stay x hx), ?_⟩⟩
  have := hα x hx
  rwa [Function.comp_apply, clamp_of_mem (OB (stay x hx))] at this

end Trapped
end Omega
