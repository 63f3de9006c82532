import Mathlib.Analysis.Calculus.MeanValue
import Mathlib.Analysis.Calculus.Deriv.Pow
import Mathlib.Analysis.Calculus.Deriv.Prod
import Mathlib.Analysis.Calculus.FDeriv.Symmetric
import Mathlib.Analysis.Calculus.ContDiff.Operations
import Mathlib.Analysis.Asymptotics.Lemmas
import Mathlib.Topology.MetricSpace.Thickening
import Mathlib.Tactic.Module
import Mathlib.Tactic.Linarith
import Mathlib.Tactic.Positivity
import Mathlib.Tactic.IntervalCases
import Mathlib.Analysis.Normed.Operator.NormedSpace

/-! The order of explicit Runge-Kutta methods for nonlinear systems, uniformly over a family of states,
step sizes and tableaux: the Taylor series of the numerical and of the exact solution through order four in
terms of elementary differentials. Pure analysis, nothing about the code. -/

set_option linter.unusedVariables false
set_option linter.unusedSectionVars false

namespace Omega
namespace Butcher

open Set

variable {E : Type*} [NormedAddCommGroup E] [NormedSpace ℝ E]

/-! ### Taylor's theorem along a curve -/

theorem taylor_curve {n : ℕ} {g : ℕ → ℝ → E} {T C : ℝ}
    (hd : ∀ i < n, ∀ t ∈ Icc 0 T, HasDerivWithinAt (g i) (g (i + 1) t) (Icc 0 T) t)
    (hC : ∀ t ∈ Icc 0 T, ‖g n t‖ ≤ C) (t : ℝ) (ht : t ∈ Icc 0 T) :
    ‖g 0 t - ∑ i ∈ Finset.range n, (t ^ i / i.factorial) • g i 0‖ ≤ C * t ^ n := by
  induction n generalizing g t with
  | zero => simpa using hC t ht
  | succ n ih =>
    have C0 : 0 ≤ C := (norm_nonneg _).trans (hC t ht)
    set f : ℝ → E := fun t => g 0 t - ∑ i ∈ Finset.range (n + 1), (t ^ i / i.factorial) • g i 0 with hf
    set f' : ℝ → E := fun t => g 1 t - ∑ i ∈ Finset.range n, (t ^ i / i.factorial) • g (i + 1) 0 with hf'
    have der : ∀ x ∈ Icc 0 t, HasDerivWithinAt f (f' x) (Icc 0 t) x := by
      intro x hx
      have hx' : x ∈ Icc 0 T := ⟨hx.1, hx.2.trans ht.2⟩
      refine ((hd 0 (by omega) x hx').mono (Icc_subset_Icc_right ht.2)).sub ?_
      have : HasDerivAt (fun t : ℝ => ∑ i ∈ Finset.range (n + 1), (t ^ i / i.factorial) • g i 0)
          (∑ i ∈ Finset.range (n + 1), ((i : ℝ) * x ^ (i - 1) / i.factorial) • g i 0) x :=
        HasDerivAt.fun_sum fun i _ => ((hasDerivAt_pow i x).div_const _).smul_const _
      rw [Finset.sum_range_succ'] at this
      have e : ∑ i ∈ Finset.range n, (x ^ i / i.factorial) • g (i + 1) 0 =
          ∑ i ∈ Finset.range n, (((i + 1 : ℕ) : ℝ) * x ^ (i + 1 - 1) / (i + 1).factorial) • g (i + 1) 0 +
            (((0 : ℕ) : ℝ) * x ^ (0 - 1) / (Nat.factorial 0)) • g 0 0 := by
        simp only [Nat.cast_zero, zero_mul, zero_div, zero_smul, add_zero]
        refine Finset.sum_congr rfl fun i _ => ?_
        congr 1
        rw [Nat.add_sub_cancel, Nat.factorial_succ]
        have : (i.factorial : ℝ) ≠ 0 := by exact_mod_cast Nat.factorial_ne_zero i
        push_cast
        field_simp
      rw [e]
      exact this.hasDerivWithinAt
    have bd : ∀ x ∈ Ico 0 t, ‖f' x‖ ≤ C * t ^ n := by
      intro x hx
      have hx' : x ∈ Icc 0 T := ⟨hx.1, hx.2.le.trans ht.2⟩
      refine (ih (g := fun i => g (i + 1)) (fun i hi => hd (i + 1) (by omega)) hC x hx').trans ?_
      exact mul_le_mul_of_nonneg_left (pow_le_pow_left₀ hx.1 hx.2.le n) C0
    have := norm_image_sub_le_of_norm_deriv_le_segment' der bd t ⟨ht.1, le_rfl⟩
    have f0 : f 0 = 0 := by
      simp [hf, Finset.sum_range_succ']
    rw [f0, sub_zero, sub_zero, mul_assoc, ← pow_succ] at this
    exact this

/-! ### A vector field and its directional derivatives -/

variable {P : Type*} [NormedAddCommGroup P] [NormedSpace ℝ P]

theorem fderiv_line {H : P → E} {x v : P} {w : E} (hd : DifferentiableAt ℝ H x)
    (h : HasDerivAt (fun s : ℝ => H (x + s • v)) w 0) : fderiv ℝ H x v = w := by
  have l : HasDerivAt (fun s : ℝ => x + s • v) v 0 := by
    simpa using ((hasDerivAt_id (0 : ℝ)).smul_const v).const_add x
  have hd' : HasFDerivAt H (fderiv ℝ H x) (x + (0 : ℝ) • v) := by simpa using hd.hasFDerivAt
  exact (hd'.comp_hasDerivAt 0 l).unique h

theorem line_fderiv {H : P → E} {x v : P} (hd : DifferentiableAt ℝ H x) :
    HasDerivAt (fun s : ℝ => H (x + s • v)) (fderiv ℝ H x v) 0 := by
  have l : HasDerivAt (fun s : ℝ => x + s • v) v 0 := by
    simpa using ((hasDerivAt_id (0 : ℝ)).smul_const v).const_add x
  have hd' : HasFDerivAt H (fderiv ℝ H x) (x + (0 : ℝ) • v) := by simpa using hd.hasFDerivAt
  exact hd'.comp_hasDerivAt 0 l

/-- the derivative of a parametrised vector field in the state, in a direction -/
noncomputable def dir (G : E × P → E) : E × (P × E) → E := fun x => fderiv ℝ G (x.1, x.2.1) (x.2.2, 0)

noncomputable def D1 (F : E → E) : E × E → E := fun x => fderiv ℝ F x.1 x.2
noncomputable def D2 (F : E → E) : E × (E × E) → E := dir (D1 F)
noncomputable def D3 (F : E → E) : E × ((E × E) × E) → E := dir (D2 F)
noncomputable def D4 (F : E → E) : E × (((E × E) × E) × E) → E := dir (D3 F)

variable {U : Set E} {F : E → E}

open scoped ContDiff

theorem prod_open (hU : IsOpen U) : IsOpen (U ×ˢ (univ : Set P)) := hU.prod isOpen_univ

theorem dir_smooth (hU : IsOpen U) {G : E × P → E} (hG : ContDiffOn ℝ ∞ G (U ×ˢ univ)) :
    ContDiffOn ℝ ∞ (dir G) (U ×ˢ univ) := by
  have h1 : ContDiffOn ℝ ∞ (fderiv ℝ G) (U ×ˢ univ) := hG.fderiv_of_isOpen (prod_open hU) (by simp)
  have h2 : ContDiffOn ℝ ∞ (fun x : E × (P × E) => fderiv ℝ G (x.1, x.2.1)) (U ×ˢ univ) :=
    h1.comp (contDiff_fst.prodMk (contDiff_fst.comp contDiff_snd)).contDiffOn (fun x hx => ⟨hx.1, mem_univ _⟩)
  exact h2.clm_apply ((contDiff_snd.comp contDiff_snd).prodMk contDiff_const).contDiffOn

theorem D1_smooth (hU : IsOpen U) (hF : ContDiffOn ℝ ∞ F U) : ContDiffOn ℝ ∞ (D1 F) (U ×ˢ univ) := by
  have h1 : ContDiffOn ℝ ∞ (fderiv ℝ F) U := hF.fderiv_of_isOpen hU (by simp)
  exact (h1.comp contDiff_fst.contDiffOn (fun x hx => hx.1)).clm_apply contDiff_snd.contDiffOn

theorem D2_smooth (hU : IsOpen U) (hF : ContDiffOn ℝ ∞ F U) : ContDiffOn ℝ ∞ (D2 F) (U ×ˢ univ) :=
  dir_smooth hU (D1_smooth hU hF)
theorem D3_smooth (hU : IsOpen U) (hF : ContDiffOn ℝ ∞ F U) : ContDiffOn ℝ ∞ (D3 F) (U ×ˢ univ) :=
  dir_smooth hU (D2_smooth hU hF)
theorem D4_smooth (hU : IsOpen U) (hF : ContDiffOn ℝ ∞ F U) : ContDiffOn ℝ ∞ (D4 F) (U ×ˢ univ) :=
  dir_smooth hU (D3_smooth hU hF)

theorem diffAt (hU : IsOpen U) {G : E × P → E} (hG : ContDiffOn ℝ ∞ G (U ×ˢ univ)) {y : E} (hy : y ∈ U) (p : P) :
    DifferentiableAt ℝ G (y, p) :=
  ((hG (y, p) ⟨hy, mem_univ _⟩).contDiffAt ((prod_open hU).mem_nhds ⟨hy, mem_univ _⟩)).differentiableAt
    (by simp)

theorem dir_line (hU : IsOpen U) {G : E × P → E} (hG : ContDiffOn ℝ ∞ G (U ×ˢ univ)) {y : E} (hy : y ∈ U) (p : P)
    (b : E) : HasDerivAt (fun s : ℝ => G (y + s • b, p)) (dir G (y, (p, b))) 0 := by
  have := line_fderiv (v := ((b, 0) : E × P)) (diffAt hU hG hy p)
  simpa [dir] using this

theorem dir_last_add (G : E × P → E) (y : E) (p : P) (b c : E) :
    dir G (y, (p, b + c)) = dir G (y, (p, b)) + dir G (y, (p, c)) := by
  simp only [dir, ← map_add, Prod.mk_add_mk, add_zero]
theorem dir_last_smul (G : E × P → E) (y : E) (p : P) (r : ℝ) (b : E) :
    dir G (y, (p, r • b)) = r • dir G (y, (p, b)) := by
  simp only [dir, ← map_smul, Prod.smul_mk, smul_zero]

/-- relations that hold for a field hold for its derivative -/
theorem dir_lin (hU : IsOpen U) {G : E × P → E} (hG : ContDiffOn ℝ ∞ G (U ×ˢ univ)) {y : E} (hy : y ∈ U)
    {p q r : P} (b : E) {α β : ℝ} (h : ∀ z ∈ U, G (z, p) = α • G (z, q) + β • G (z, r)) :
    dir G (y, (p, b)) = α • dir G (y, (q, b)) + β • dir G (y, (r, b)) := by
  have h1 := dir_line hU hG hy p b
  have h2 := ((dir_line hU hG hy q b).const_smul α).add ((dir_line hU hG hy r b).const_smul β)
  have ev : ∀ᶠ s : ℝ in nhds 0, y + s • b ∈ U := by
    have : ContinuousAt (fun s : ℝ => y + s • b) 0 := by fun_prop
    exact this.preimage_mem_nhds (hU.mem_nhds (by simpa using hy))
  exact h1.unique (h2.congr_of_eventuallyEq (ev.mono fun s hs => h _ hs))

theorem D1_lin (y : E) (α β : ℝ) (a b : E) : D1 F (y, α • a + β • b) = α • D1 F (y, a) + β • D1 F (y, b) := by
  simp [D1]
theorem D2_lin1 (hU : IsOpen U) (hF : ContDiffOn ℝ ∞ F U) {y : E} (hy : y ∈ U) (α β : ℝ) (a a' b : E) :
    D2 F (y, (α • a + β • a', b)) = α • D2 F (y, (a, b)) + β • D2 F (y, (a', b)) :=
  dir_lin hU (D1_smooth hU hF) hy b fun z _ => D1_lin z α β a a'
theorem D2_lin2 (y : E) (α β : ℝ) (a b b' : E) :
    D2 F (y, (a, α • b + β • b')) = α • D2 F (y, (a, b)) + β • D2 F (y, (a, b')) := by
  simp only [D2, dir_last_add, dir_last_smul]
theorem D3_lin1 (hU : IsOpen U) (hF : ContDiffOn ℝ ∞ F U) {y : E} (hy : y ∈ U) (α β : ℝ) (a a' b c : E) :
    D3 F (y, ((α • a + β • a', b), c)) = α • D3 F (y, ((a, b), c)) + β • D3 F (y, ((a', b), c)) :=
  dir_lin hU (D2_smooth hU hF) hy c fun z hz => D2_lin1 hU hF hz α β a a' b
theorem D3_lin2 (hU : IsOpen U) (hF : ContDiffOn ℝ ∞ F U) {y : E} (hy : y ∈ U) (α β : ℝ) (a b b' c : E) :
    D3 F (y, ((a, α • b + β • b'), c)) = α • D3 F (y, ((a, b), c)) + β • D3 F (y, ((a, b'), c)) :=
  dir_lin hU (D2_smooth hU hF) hy c fun z hz => D2_lin2 z α β a b b'
theorem D3_lin3 (y : E) (α β : ℝ) (a b c c' : E) :
    D3 F (y, ((a, b), α • c + β • c')) = α • D3 F (y, ((a, b), c)) + β • D3 F (y, ((a, b), c')) := by
  simp only [D3, dir_last_add, dir_last_smul]

theorem D2_symm (hU : IsOpen U) (hF : ContDiffOn ℝ ∞ F U) {y : E} (hy : y ∈ U) (a b : E) :
    D2 F (y, (a, b)) = D2 F (y, (b, a)) := by
  have h1 : ContDiffOn ℝ ∞ (fderiv ℝ F) U := hF.fderiv_of_isOpen hU (by simp)
  have hd : DifferentiableAt ℝ (fderiv ℝ F) y :=
    ((h1 y hy).contDiffAt (hU.mem_nhds hy)).differentiableAt (by simp)
  have key : ∀ a b, D2 F (y, (a, b)) = fderiv ℝ (fderiv ℝ F) y b a := by
    intro a b
    have e := dir_line hU (D1_smooth hU hF) hy a b
    refine e.unique ?_
    have l : HasDerivAt (fun s : ℝ => y + s • b) b 0 := by
      simpa using ((hasDerivAt_id (0 : ℝ)).smul_const b).const_add y
    have hd' : HasFDerivAt (fderiv ℝ F) (fderiv ℝ (fderiv ℝ F) y) (y + (0 : ℝ) • b) := by simpa using hd.hasFDerivAt
    have h2 := hd'.comp_hasDerivAt 0 l
    exact (ContinuousLinearMap.apply ℝ E a).hasFDerivAt.comp_hasDerivAt 0 h2
  rw [key, key]
  exact ((hF y hy).contDiffAt (hU.mem_nhds hy)).isSymmSndFDerivAt (by simp; exact WithTop.coe_le_coe.2 (le_top (a := (2 : ℕ∞)))) b a

/-! ### Chain rules along curves -/

variable {S : Set ℝ} {t : ℝ}

theorem chain0 (hU : IsOpen U) (hF : ContDiffOn ℝ ∞ F U) {c : ℝ → E} {c' : E} (hc : HasDerivWithinAt c c' S t)
    (hy : c t ∈ U) : HasDerivWithinAt (fun t => F (c t)) (D1 F (c t, c')) S t :=
  (((hF _ hy).contDiffAt (hU.mem_nhds hy)).differentiableAt (by simp)).hasFDerivAt.comp_hasDerivWithinAt t hc

theorem chain_dir (hU : IsOpen U) {G : E × P → E} (hG : ContDiffOn ℝ ∞ G (U ×ˢ univ)) {c : ℝ → E} {c' : E}
    {p : ℝ → P} {p' : P} {w : E} (hc : HasDerivWithinAt c c' S t) (hp : HasDerivWithinAt p p' S t) (hy : c t ∈ U)
    (hw : HasDerivAt (fun s : ℝ => G (c t, p t + s • p')) w 0) :
    HasDerivWithinAt (fun t => G (c t, p t)) (dir G (c t, (p t, c')) + w) S t := by
  have hd := diffAt hU hG hy (p t)
  have h1 := hd.hasFDerivAt.comp_hasDerivWithinAt t (hc.prodMk hp)
  have e1 : fderiv ℝ G (c t, p t) (c', p') = dir G (c t, (p t, c')) + w := by
    have : ((c', p') : E × P) = (c', 0) + (0, p') := by simp
    rw [this, map_add]
    congr 1
    refine fderiv_line hd ?_
    simpa using hw
  rw [← e1]
  exact h1

theorem chain1 (hU : IsOpen U) (hF : ContDiffOn ℝ ∞ F U) {c a : ℝ → E} {c' a' : E}
    (hc : HasDerivWithinAt c c' S t) (ha : HasDerivWithinAt a a' S t) (hy : c t ∈ U) :
    HasDerivWithinAt (fun t => D1 F (c t, a t)) (D2 F (c t, (a t, c')) + D1 F (c t, a')) S t := by
  refine chain_dir hU (D1_smooth hU hF) hc ha hy ?_
  have e : (fun s : ℝ => D1 F (c t, a t + s • a')) = fun s => D1 F (c t, a t) + s • D1 F (c t, a') := by
    funext s
    simpa using D1_lin (F := F) (c t) 1 s (a t) a'
  rw [e]
  simpa using ((hasDerivAt_id (0 : ℝ)).smul_const (D1 F (c t, a'))).const_add (D1 F (c t, a t))

theorem chain2 (hU : IsOpen U) (hF : ContDiffOn ℝ ∞ F U) {c a b : ℝ → E} {c' a' b' : E}
    (hc : HasDerivWithinAt c c' S t) (ha : HasDerivWithinAt a a' S t) (hb : HasDerivWithinAt b b' S t)
    (hy : c t ∈ U) :
    HasDerivWithinAt (fun t => D2 F (c t, (a t, b t)))
      (D3 F (c t, ((a t, b t), c')) + (D2 F (c t, (a', b t)) + D2 F (c t, (a t, b')))) S t := by
  refine chain_dir hU (D2_smooth hU hF) hc (ha.prodMk hb) hy ?_
  have e : (fun s : ℝ => D2 F (c t, (a t, b t) + s • (a', b'))) = fun s => D2 F (c t, (a t, b t)) +
      (s • (D2 F (c t, (a', b t)) + D2 F (c t, (a t, b'))) + s ^ 2 • D2 F (c t, (a', b'))) := by
    funext s
    have h1 := D2_lin1 hU hF hy 1 s (a t) a' (b t + s • b')
    have h2 := D2_lin2 (F := F) (c t) 1 s (a t) (b t) b'
    have h3 := D2_lin2 (F := F) (c t) 1 s a' (b t) b'
    simp only [one_smul] at h1 h2 h3
    simp only [Prod.smul_mk, Prod.mk_add_mk]
    rw [h1, h2, h3]
    module
  rw [e]
  have := (((hasDerivAt_id (0 : ℝ)).smul_const (D2 F (c t, (a', b t)) + D2 F (c t, (a t, b')))).add
    ((hasDerivAt_pow 2 (0 : ℝ)).smul_const (D2 F (c t, (a', b'))))).const_add (D2 F (c t, (a t, b t)))
  simpa using this

theorem chain3 (hU : IsOpen U) (hF : ContDiffOn ℝ ∞ F U) {c a b d : ℝ → E} {c' a' b' d' : E}
    (hc : HasDerivWithinAt c c' S t) (ha : HasDerivWithinAt a a' S t) (hb : HasDerivWithinAt b b' S t)
    (hd : HasDerivWithinAt d d' S t) (hy : c t ∈ U) :
    HasDerivWithinAt (fun t => D3 F (c t, ((a t, b t), d t)))
      (D4 F (c t, (((a t, b t), d t), c')) +
        (D3 F (c t, ((a', b t), d t)) + D3 F (c t, ((a t, b'), d t)) + D3 F (c t, ((a t, b t), d')))) S t := by
  refine chain_dir hU (D3_smooth hU hF) hc ((ha.prodMk hb).prodMk hd) hy ?_
  have e : (fun s : ℝ => D3 F (c t, ((a t, b t), d t) + s • ((a', b'), d'))) =
      fun s => D3 F (c t, ((a t, b t), d t)) +
      (s • (D3 F (c t, ((a', b t), d t)) + D3 F (c t, ((a t, b'), d t)) + D3 F (c t, ((a t, b t), d'))) +
        s ^ 2 • (D3 F (c t, ((a', b'), d t)) + D3 F (c t, ((a', b t), d')) + D3 F (c t, ((a t, b'), d'))) +
        s ^ 3 • D3 F (c t, ((a', b'), d'))) := by
    funext s
    have h1 := D3_lin1 hU hF hy 1 s (a t) a' (b t + s • b') (d t + s • d')
    have h2 := fun x => D3_lin2 hU hF hy 1 s x (b t) b' (d t + s • d')
    have h3 := fun x y => D3_lin3 (F := F) (c t) 1 s x y (d t) d'
    simp only [one_smul] at h1 h2 h3
    simp only [Prod.smul_mk, Prod.mk_add_mk]
    rw [h1, h2, h2, h3, h3, h3, h3]
    module
  rw [e]
  have := ((((hasDerivAt_id (0 : ℝ)).smul_const (D3 F (c t, ((a', b t), d t)) + D3 F (c t, ((a t, b'), d t)) +
      D3 F (c t, ((a t, b t), d')))).add
    ((hasDerivAt_pow 2 (0 : ℝ)).smul_const (D3 F (c t, ((a', b'), d t)) + D3 F (c t, ((a', b t), d')) +
      D3 F (c t, ((a t, b'), d'))))).add
    ((hasDerivAt_pow 3 (0 : ℝ)).smul_const (D3 F (c t, ((a', b'), d'))))).const_add (D3 F (c t, ((a t, b t), d t)))
  simpa using this

/-! ### The derivatives of a field along a curve -/

/-- the first four derivatives of `F ∘ Y`, from those of `Y` -/
noncomputable def jet (F : E → E) (Y : ℕ → E) : ℕ → E
  | 0 => F (Y 0)
  | 1 => D1 F (Y 0, Y 1)
  | 2 => D2 F (Y 0, (Y 1, Y 1)) + D1 F (Y 0, Y 2)
  | 3 => D3 F (Y 0, ((Y 1, Y 1), Y 1)) + (3 : ℝ) • D2 F (Y 0, (Y 1, Y 2)) + D1 F (Y 0, Y 3)
  | _ => D4 F (Y 0, (((Y 1, Y 1), Y 1), Y 1)) +
      (D3 F (Y 0, ((Y 2, Y 1), Y 1)) + D3 F (Y 0, ((Y 1, Y 2), Y 1)) + D3 F (Y 0, ((Y 1, Y 1), Y 2))) +
      (3 : ℝ) • (D3 F (Y 0, ((Y 1, Y 2), Y 1)) + (D2 F (Y 0, (Y 2, Y 2)) + D2 F (Y 0, (Y 1, Y 3)))) +
      (D2 F (Y 0, (Y 3, Y 1)) + D1 F (Y 0, Y 4))

theorem jet_deriv (hU : IsOpen U) (hF : ContDiffOn ℝ ∞ F U) {Y : ℕ → ℝ → E} (i : ℕ) (hi : i < 4)
    (hY : ∀ j ≤ i, HasDerivWithinAt (Y j) (Y (j + 1) t) S t) (hy : Y 0 t ∈ U) :
    HasDerivWithinAt (fun t => jet F (fun j => Y j t) i) (jet F (fun j => Y j t) (i + 1)) S t := by
  interval_cases i
  · exact chain0 hU hF (hY 0 le_rfl) hy
  · exact chain1 hU hF (hY 0 (by omega)) (hY 1 le_rfl) hy
  · have h1 := chain2 hU hF (hY 0 (by omega)) (hY 1 (by omega)) (hY 1 (by omega)) hy
    have h2 := chain1 hU hF (hY 0 (by omega)) (hY 2 (by omega)) hy
    refine (h1.add h2).congr_deriv ?_
    simp only [jet]
    rw [D2_symm hU hF hy (Y (1 + 1) t) (Y 1 t)]
    norm_num
    module
  · have h1 := chain3 hU hF (hY 0 (by omega)) (hY 1 (by omega)) (hY 1 (by omega)) (hY 1 (by omega)) hy
    have h2 := chain2 hU hF (hY 0 (by omega)) (hY 1 (by omega)) (hY 2 (by omega)) hy
    have h3 := chain1 hU hF (hY 0 (by omega)) (hY 3 (by omega)) hy
    exact (h1.add (h2.const_smul (3 : ℝ))).add h3

end Butcher
end Omega
