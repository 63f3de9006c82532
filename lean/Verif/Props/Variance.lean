import Verif.Props.Dissipation
import Verif.Props.TimeOrder

/-!
# C96: centred tracer advection conserves concentration variance
-/

set_option linter.unusedVariables false
set_option linter.unusedSectionVars false

namespace Omega
noncomputable section

namespace Props

open Prog Model Refine Hex Set

variable {p : MeshParams} {dc : ℝ} {m : Mem ℝ}

/-- integral over a layer of thickness times squared concentration, for thickness `x` and tracer
content `s` -/
def variance (d : Dims) (m : Mem ℝ) (x s : Int → ℝ) : ℝ :=
  ∑ c ∈ Spec.cells d, Spec.areaC m c * (s c ^ 2 / x c)

theorem variance_deriv (d : Dims) (m : Mem ℝ) {t : ℝ} {D : Set ℝ} {x s : ℝ → Int → ℝ} {x' s' : Int → ℝ}
    (hx : ∀ c, 0 ≤ c → c < d.ncells → HasDerivWithinAt (fun r => x r c) (x' c) D t)
    (hs : ∀ c, 0 ≤ c → c < d.ncells → HasDerivWithinAt (fun r => s r c) (s' c) D t)
    (h0 : ∀ c, 0 ≤ c → c < d.ncells → x t c ≠ 0) :
    HasDerivWithinAt (fun r => variance d m (x r) (s r)) (∑ c ∈ Spec.cells d, Spec.areaC m c *
      (2 * (s t c / x t c) * s' c - (s t c / x t c) ^ 2 * x' c)) D t := by
  unfold variance
  refine HasDerivWithinAt.fun_sum fun c hc => ?_
  have hc := Finset.mem_Ico.mp hc
  have n := h0 c hc.1 hc.2
  refine ((((hs c hc.1 hc.2).fun_pow 2).fun_div (hx c hc.1 hc.2) n).const_mul _).congr_deriv ?_
  field_simp
  ring

/-- one layer: advection cancels, diffusion removes -/
theorem variance_rate (h : Geo2 p.nx p.ny p.dims.nlayers dc m.mesh) (hc : ConnOK p.dims m)
    {sw : SWModel ℝ} (h1 : sw.en_hadv = true) (h2 : sw.en_thadv = true)
    (h3 : sw.en_thyper = true → sw.prm.eddy_diff4 = 0) (x u s : Int → ℝ) :
    ∑ c ∈ Spec.cells p.dims, Spec.areaC m c * (2 * (s c / x c) * Spec.tracerTend m sw x u s c -
        (s c / x c) ^ 2 * Spec.thicknessTend m sw x u c) =
      -(2 * (if sw.en_tdiff then sw.prm.eddy_diff2 else 0) * ∑ e ∈ Spec.edges p.dims,
        Spec.dcE m e * Spec.dvE m e * (Spec.mean m x e * Spec.grad m (fun c => s c / x c) e ^ 2)) := by
  set q : Int → ℝ := fun c => s c / x c with hq
  set F : Int → ℝ := fun e => Spec.mean m x e * u e with hF
  have a1 := adjoint h q (fun e => Spec.mean m x e * Spec.mean m q e * u e)
  have a2 := adjoint h (fun c => q c ^ 2) F
  have a3 := adjoint h q (fun e => Spec.mean m x e * Spec.grad m q e)
  have gsq : ∀ e, Spec.grad m (fun c => q c ^ 2) e = 2 * Spec.mean m q e * Spec.grad m q e := fun e => by
    unfold Spec.grad Spec.mean; ring
  have term : ∀ c ∈ Spec.cells p.dims, Spec.areaC m c * (2 * q c * Spec.tracerTend m sw x u s c -
        q c ^ 2 * Spec.thicknessTend m sw x u c) =
      -2 * (Spec.areaC m c * (q c * Spec.div m (fun e => Spec.mean m x e * Spec.mean m q e * u e) c)) +
      Spec.areaC m c * (q c ^ 2 * Spec.div m F c) +
      2 * (if sw.en_tdiff then sw.prm.eddy_diff2 else 0) *
        (Spec.areaC m c * (q c * Spec.div m (fun e => Spec.mean m x e * Spec.grad m q e) c)) := by
    intro c hc'
    have b := Finset.mem_Ico.mp hc'
    have e4 : (if sw.en_thyper = true then sw.prm.eddy_diff4 * Spec.div m (fun e =>
        m.real .mesh_scaling_del4 0 e 0 * Spec.grad m (Spec.div m fun e =>
          Spec.mean m x e * Spec.grad m (fun i => s i / x i) e) e) c else 0) = 0 := by
      split_ifs with hh
      · rw [h3 hh, zero_mul]
      · rfl
    have ed : Spec.div m (fun e => m.real .mesh_scaling_del2 0 e 0 *
        Spec.mean m x e * Spec.grad m (fun i => s i / x i) e) c =
        Spec.div m (fun e => Spec.mean m x e * Spec.grad m q e) c := by
      refine div_congr hc (fun e a b => ?_) b.1 b.2
      rw [show m.real .mesh_scaling_del2 0 e 0 = 1 from h.sdel2 e a b]; ring
    unfold Spec.tracerTend Spec.thicknessTend
    rw [e4, if_pos h1, if_pos h2, ed]
    split_ifs <;> ring
  rw [Finset.sum_congr rfl term, Finset.sum_add_distrib, Finset.sum_add_distrib, ← Finset.mul_sum,
    ← Finset.mul_sum, a1, a2, a3]
  have e1 : ∑ e ∈ Spec.edges p.dims, Spec.dcE m e * Spec.dvE m e *
      (F e * Spec.grad m (fun c => q c ^ 2) e) = 2 * ∑ e ∈ Spec.edges p.dims, Spec.dcE m e * Spec.dvE m e *
        (Spec.mean m x e * Spec.mean m q e * u e * Spec.grad m q e) := by
    rw [Finset.mul_sum]
    exact Finset.sum_congr rfl fun e _ => by rw [gsq]; ring
  have e2 : ∑ e ∈ Spec.edges p.dims, Spec.dcE m e * Spec.dvE m e *
      (Spec.mean m x e * Spec.grad m q e * Spec.grad m q e) = ∑ e ∈ Spec.edges p.dims,
        Spec.dcE m e * Spec.dvE m e * (Spec.mean m x e * Spec.grad m q e ^ 2) :=
    Finset.sum_congr rfl fun e _ => by ring
  rw [e1, e2]
  ring

/-! ### C96 -/

/-- Rate of change of the variance of a tracer in a layer along the computed tendency: the derivative, at
zero, of the variance of thickness and tracer displaced by `ε` times their computed tendencies is minus
twice the diffusion coefficient times the thickness-weighted squared gradient of concentration.  Advection
does not contribute, whatever the velocity. -/
theorem C96_variance_rate (hv : RunValid p) (hx : 2 ≤ p.nx) (hy : 2 ≤ p.ny) (hdc : 0 < dc)
    {prm : Params ℝ} (n1 : prm.disable_h = false) (n3 : prm.eddy_diff4 ≤ 0) (hr : Ready p dc prm m)
    {split : Bool} {t : ℝ} {m1 : Mem ℝ}
    (he : Exec p.dims (compute_tendency p.dims ⟨defaultKernels p.dims.vl, split⟩ (SWModel.ofParams prm)
      .replace .tend .state t) m m1)
    {l k : Int} (l0 : 0 ≤ l) (l1 : l < p.dims.ntracers) (k0 : 0 ≤ k) (k1 : k < p.dims.nlayers)
    (hh : ∀ c, 0 ≤ c → c < p.dims.ncells → m.real (.h_cell .state) 0 c k ≠ 0) :
    HasDerivAt (fun ε : ℝ => variance p.dims m
        (fun c => m.real (.h_cell .state) 0 c k + ε * m1.real (.h_cell .tend) 0 c k)
        (fun c => m.real (.tr_cell .state) l c k + ε * m1.real (.tr_cell .tend) l c k))
      (-(2 * max prm.eddy_diff2 0 * ∑ e ∈ Spec.edges p.dims, Spec.dcE m e * Spec.dvE m e *
        (Spec.mean m (fun c => m.real (.h_cell .state) 0 c k) e *
          Spec.grad m (fun c => m.real (.tr_cell .state) l c k / m.real (.h_cell .state) 0 c k) e ^ 2))) 0 := by
  obtain ⟨hd, hc⟩ := ready_ok hv hr
  have hg := Ready.geo2 hr hv.toValid hx hy hdc
  obtain ⟨t1, -, t2⟩ := C51_tendency_formula hd hc (noHook_ofParams prm) (by decide) he
  have D := variance_deriv p.dims m (t := 0) (D := univ)
    (x := fun ε c => m.real (.h_cell .state) 0 c k + ε * m1.real (.h_cell .tend) 0 c k)
    (s := fun ε c => m.real (.tr_cell .state) l c k + ε * m1.real (.tr_cell .tend) l c k)
    (x' := fun c => m1.real (.h_cell .tend) 0 c k) (s' := fun c => m1.real (.tr_cell .tend) l c k)
    (fun c _ _ => by
      simpa using (((hasDerivAt_id (0 : ℝ)).mul_const (m1.real (.h_cell .tend) 0 c k)).const_add
        (m.real (.h_cell .state) 0 c k)).hasDerivWithinAt (s := univ))
    (fun c _ _ => by
      simpa using (((hasDerivAt_id (0 : ℝ)).mul_const (m1.real (.tr_cell .tend) l c k)).const_add
        (m.real (.tr_cell .state) l c k)).hasDerivWithinAt (s := univ))
    (fun c a b => by simpa using hh c a b)
  rw [hasDerivWithinAt_univ] at D
  refine D.congr_deriv ?_
  have R := variance_rate hg hc (sw := SWModel.ofParams prm) rfl rfl (fun h => by
      have : decide ((lit 0 : ℝ) < prm.eddy_diff4) = true := h
      simp at this
      exact absurd this (by linarith)) (fun c => m.real (.h_cell .state) 0 c k)
    (fun e => m.real (.vn_edge .state) 0 e k) (fun c => m.real (.tr_cell .state) l c k)
  have em : (if (SWModel.ofParams prm).en_tdiff = true then (SWModel.ofParams prm).prm.eddy_diff2 else 0) =
      max prm.eddy_diff2 0 := by
    show (if decide ((lit 0 : ℝ) < prm.eddy_diff2) = true then prm.eddy_diff2 else 0) = _
    by_cases h : 0 < prm.eddy_diff2
    · simp [h, h.le]
    · simp [h, not_lt.1 h]
  rw [em] at R
  rw [← R]
  refine Finset.sum_congr rfl fun c hcc => ?_
  have b := Finset.mem_Ico.mp hcc
  rw [t1 n1 c k b.1 b.2 k0 k1, t2 l c k l0 l1 b.1 b.2 k0 k1]
  simp only [zero_mul, add_zero]

theorem quot_close {s s1 h h1 S b δ : ℝ} (hb : 0 < b) (bh : b ≤ h) (hS : |s| ≤ S) (h1' : |h1 - h| ≤ δ)
    (s1' : |s1 - s| ≤ δ) (d1 : δ ≤ 1) (d2 : δ ≤ b / 2) :
    |s1 ^ 2 / h1 - s ^ 2 / h| ≤ (2 * (2 * S + 1) / b + 2 * S ^ 2 / b ^ 2) * δ := by
  have d0 : 0 ≤ δ := (abs_nonneg _).trans h1'
  have S0 : 0 ≤ S := (abs_nonneg _).trans hS
  have hp : 0 < h := hb.trans_le bh
  have lo : b / 2 ≤ h1 := by have := neg_abs_le (h1 - h); linarith
  have h1p : 0 < h1 := by linarith
  have e : s1 ^ 2 / h1 - s ^ 2 / h = (s1 - s) * (s1 + s) / h1 + s ^ 2 * (h - h1) / (h * h1) := by
    field_simp; ring
  have q1 : |s1 + s| ≤ 2 * S + 1 := by
    have : s1 + s = (s1 - s) + 2 * s := by ring
    rw [this]
    refine (abs_add_le _ _).trans ?_
    rw [abs_mul, abs_two]; linarith
  have q2 : |(s1 - s) * (s1 + s) / h1| ≤ 2 * (2 * S + 1) / b * δ := by
    rw [abs_div, abs_mul, abs_of_pos h1p, div_le_iff₀ h1p]
    have : 2 * (2 * S + 1) / b * δ * h1 = (δ * (2 * S + 1)) * (h1 / (b / 2)) := by field_simp
    rw [this]
    have g : 1 ≤ h1 / (b / 2) := by rw [le_div_iff₀ (by linarith)]; linarith
    refine (mul_le_mul s1' q1 (abs_nonneg _) d0).trans ?_
    exact le_mul_of_one_le_right (by positivity) g
  have q3 : |s ^ 2 * (h - h1) / (h * h1)| ≤ 2 * S ^ 2 / b ^ 2 * δ := by
    have hh : 0 < h * h1 := by positivity
    rw [abs_div, abs_mul, abs_of_pos hh, div_le_iff₀ hh, abs_of_nonneg (sq_nonneg s), abs_sub_comm]
    have : 2 * S ^ 2 / b ^ 2 * δ * (h * h1) = S ^ 2 * δ * (h / b * (h1 / (b / 2))) := by field_simp
    rw [this]
    have g1 : 1 ≤ h1 / (b / 2) := by rw [le_div_iff₀ (by linarith)]; linarith
    have g2 : 1 ≤ h / b := by rw [le_div_iff₀ hb]; linarith
    have s2 : s ^ 2 ≤ S ^ 2 := sq_le_sq' (by linarith [neg_abs_le s]) ((le_abs_self s).trans hS)
    refine (mul_le_mul s2 h1' (abs_nonneg _) (by positivity)).trans ?_
    exact le_mul_of_one_le_right (by positivity) (one_le_mul_of_one_le_of_one_le g2 g1)
  rw [e, add_mul]
  exact (abs_add_le _ _).trans (add_le_add q2 q3)

/-- Variance after a run of the classical stepper from a state with a wet solution, without tracer
hyperdiffusion: it exceeds the initial variance by at most `K dt⁴`, for any number of steps up to the time
`T`, and without diffusion it also does not fall below it by more. -/
theorem C96_variance_drift (hv : RunValid p) (hnx : 2 ≤ p.nx) (hny : 2 ≤ p.ny) (hdc : 0 < dc)
    {prm : Params ℝ} (n1 : prm.disable_h = false) (n2 : prm.disable_vn = false) (n3 : prm.eddy_diff4 ≤ 0)
    (hr : Ready p dc prm m) {T : ℝ} {u : ℝ → Fld ℝ} (hu : Solves p.dims m (SWModel.ofParams prm) T u)
    (h0 : EqFld p.dims (m.fld .state) (u 0))
    {l k : Int} (l0 : 0 ≤ l) (l1 : l < p.dims.ntracers) (k0 : 0 ≤ k) (k1 : k < p.dims.nlayers) :
    ∃ K τ : ℝ, 0 ≤ K ∧ 0 < τ ∧ ∀ (dt : ℝ) (sched : List (ℝ × ℝ)) (split : Bool) (m1 : Mem ℝ),
      0 ≤ dt → dt ≤ τ → (∀ q ∈ sched, q.2 = dt) → sched.length * dt ≤ T →
      Exec p.dims (Stepper.rk4.ctor p.dims ++ Stepper.rk4.run p.dims ⟨defaultKernels p.dims.vl, split⟩
        (SWModel.ofParams prm) sched) m m1 →
      variance p.dims m (fun c => m1.real (.h_cell .state) 0 c k)
          (fun c => m1.real (.tr_cell .state) l c k) ≤
        variance p.dims m (fun c => m.real (.h_cell .state) 0 c k)
          (fun c => m.real (.tr_cell .state) l c k) + K * dt ^ 4 ∧
      (prm.eddy_diff2 ≤ 0 → |variance p.dims m (fun c => m1.real (.h_cell .state) 0 c k)
          (fun c => m1.real (.tr_cell .state) l c k) -
        variance p.dims m (fun c => m.real (.h_cell .state) 0 c k)
          (fun c => m.real (.tr_cell .state) l c k)| ≤ K * dt ^ 4) := by
  obtain ⟨hd, hc⟩ := ready_ok hv hr
  have hg := Ready.geo2 hr hv.toValid hnx hny hdc
  obtain ⟨K, τ, K0, τ0, key⟩ := C80_time_order hv hdc n1 n2 hr hu h0
  rcases lt_or_ge T 0 with hT | hT
  · exact ⟨0, 1, le_rfl, one_pos, fun dt sched split m1 t0 _ _ h _ =>
      absurd (h.trans_lt hT) (not_lt.2 (by positivity))⟩
  set V : ℝ → ℝ := fun x => variance p.dims m (fun c => (u x).h c k) (fun c => (u x).tr l c k) with hV
  set κ : ℝ := if (SWModel.ofParams prm).en_tdiff = true then (SWModel.ofParams prm).prm.eddy_diff2 else 0
    with hκ
  have κ0 : 0 ≤ κ := by
    rw [hκ]
    split_ifs with h
    · have : decide ((lit 0 : ℝ) < prm.eddy_diff2) = true := h
      simp at this
      exact this.le
    · exact le_rfl
  set V' : ℝ → ℝ := fun x => -(2 * κ * ∑ e ∈ Spec.edges p.dims, Spec.dcE m e * Spec.dvE m e *
    (Spec.mean m (fun c => (u x).h c k) e * Spec.grad m (fun c => (u x).tr l c k / (u x).h c k) e ^ 2))
    with hV'
  have dV : ∀ x ∈ Icc 0 T, HasDerivWithinAt V (V' x) (Icc 0 T) x := fun x hx => by
    have D := variance_deriv p.dims m (t := x) (D := Icc 0 T) (x := fun r c => (u r).h c k)
      (s := fun r c => (u r).tr l c k) (fun c a b => hu.h c k a b k0 k1 x hx)
      (fun c a b => hu.tr l c k l0 l1 a b k0 k1 x hx) (fun c a b => (hu.wet c k a b k0 k1 x hx).ne')
    refine D.congr_deriv ?_
    exact variance_rate hg hc (sw := SWModel.ofParams prm) rfl rfl (fun h => by
      have : decide ((lit 0 : ℝ) < prm.eddy_diff4) = true := h
      simp at this
      exact absurd this (by linarith)) _ _ _
  have V0 : ∀ x ∈ Icc 0 T, V' x ≤ 0 := fun x hx => by
    rw [hV']
    simp only [neg_nonpos]
    refine mul_nonneg (by linarith) (Finset.sum_nonneg fun e he => ?_)
    have he := Finset.mem_Ico.mp he
    obtain ⟨a, b⟩ := hc.coe e he.1 he.2 0 (by omega) (by omega)
    obtain ⟨a', b'⟩ := hc.coe e he.1 he.2 1 (by omega) (by omega)
    have w1 := hu.wet _ k a b k0 k1 x hx
    have w2 := hu.wet _ k a' b' k0 k1 x hx
    refine mul_nonneg (dcdv_pos hg.toGeo he.1 he.2).le (mul_nonneg ?_ (sq_nonneg _))
    unfold Spec.mean
    exact (div_pos (add_pos w1 w2) two_pos).le
  have anti : AntitoneOn V (Icc 0 T) :=
    antitoneOn_of_hasDerivWithinAt_nonpos (convex_Icc 0 T) (fun x hx => (dV x hx).continuousWithinAt)
      (fun x hx => (dV x (interior_subset hx)).mono interior_subset) (fun x hx => V0 x (interior_subset hx))
  have mem0 : (0 : ℝ) ∈ Icc 0 T := left_mem_Icc.2 hT
  have const : prm.eddy_diff2 ≤ 0 → ∀ x ∈ Icc 0 T, V x = V 0 := fun hk x hx => by
    have kz : κ = 0 := by
      rw [hκ]
      show (if decide ((lit 0 : ℝ) < prm.eddy_diff2) = true then prm.eddy_diff2 else 0) = 0
      simp [hk]
    have dz : ∀ x ∈ Icc 0 T, HasDerivWithinAt V 0 (Icc 0 T) x := fun x hx =>
      (dV x hx).congr_deriv (by rw [hV']; simp [kz])
    have := (convex_Icc 0 T).norm_image_sub_le_of_norm_hasDerivWithin_le (C := 0) dz (fun x _ => by simp) mem0 hx
    rw [zero_mul] at this
    exact sub_eq_zero.mp (norm_le_zero_iff.mp this)
  -- bounds along the solution
  have bd : ∀ c ∈ Spec.cells p.dims, ∃ b S : ℝ, 0 < b ∧ ∀ x ∈ Icc 0 T, b ≤ (u x).h c k ∧ |(u x).tr l c k| ≤ S := by
    intro c hcc
    have a := Finset.mem_Ico.mp hcc
    have ch : ContinuousOn (fun x => (u x).h c k) (Icc 0 T) :=
      fun x hx => (hu.h c k a.1 a.2 k0 k1 x hx).continuousWithinAt
    have ct : ContinuousOn (fun x => (u x).tr l c k) (Icc 0 T) :=
      fun x hx => (hu.tr l c k l0 l1 a.1 a.2 k0 k1 x hx).continuousWithinAt
    obtain ⟨y, hy, hmin⟩ := (isCompact_Icc (a := (0 : ℝ)) (b := T)).exists_isMinOn ⟨0, mem0⟩ ch
    obtain ⟨S, hS⟩ := (isCompact_Icc (a := (0 : ℝ)) (b := T)).exists_bound_of_continuousOn ct
    exact ⟨(u y).h c k, S, hu.wet c k a.1 a.2 k0 k1 y hy, fun x hx => ⟨hmin hx, hS x hx⟩⟩
  choose! b S hb hbS using bd
  obtain ⟨β, β0, hβ⟩ : ∃ β > 0, ∀ c ∈ Spec.cells p.dims, β ≤ b c := by
    by_cases hne : (Spec.cells p.dims).Nonempty
    · obtain ⟨c, hcc, hle⟩ := (Spec.cells p.dims).exists_min_image b hne
      exact ⟨b c, hb c hcc, hle⟩
    · exact ⟨1, one_pos, fun c hcc => absurd ⟨c, hcc⟩ hne⟩
  set C : ℝ := ∑ c ∈ Spec.cells p.dims, Spec.areaC m c *
    (2 * (2 * S c + 1) / b c + 2 * S c ^ 2 / b c ^ 2) with hC
  have S0 : ∀ c ∈ Spec.cells p.dims, 0 ≤ S c := fun c hcc => (abs_nonneg _).trans (hbS c hcc 0 mem0).2
  have C0 : 0 ≤ C := Finset.sum_nonneg fun c hcc => by
    have a := Finset.mem_Ico.mp hcc
    have := hb c hcc; have := S0 c hcc; have := areaC_pos hg.toGeo a.1 a.2
    positivity
  have K1 : 0 < K + 1 := by linarith
  refine ⟨C * K, min τ (min 1 (min (1 / (K + 1)) (β / 2 / (K + 1)))), by positivity,
    lt_min τ0 (lt_min one_pos (lt_min (by positivity) (by positivity))),
    fun dt sched split m1 t0 t1 hs hN he => ?_⟩
  have b1 : dt ≤ τ := t1.trans (min_le_left _ _)
  have b2 : dt ≤ 1 := t1.trans ((min_le_right _ _).trans (min_le_left _ _))
  have b3 : dt ≤ 1 / (K + 1) :=
    t1.trans ((min_le_right _ _).trans ((min_le_right _ _).trans (min_le_left _ _)))
  have b4 : dt ≤ β / 2 / (K + 1) :=
    t1.trans ((min_le_right _ _).trans ((min_le_right _ _).trans (min_le_right _ _)))
  have q4 : dt ^ 4 ≤ dt := by
    have := pow_le_pow_of_le_one t0 b2 (show 1 ≤ 4 by norm_num)
    simpa using this
  rw [le_div_iff₀ K1] at b3 b4
  have dle : K * dt ^ 4 ≤ dt * (K + 1) := by nlinarith [mul_le_mul_of_nonneg_left q4 K0]
  obtain ⟨r1, -, r2⟩ := key .rk4 (Or.inl rfl) dt sched split m1 t0 b1 hs hN (by simp [defect, τ0.le]) he
  simp only [defect, add_zero] at r1 r2
  have hx : (sched.length : ℝ) * dt ∈ Icc 0 T := ⟨by positivity, hN⟩
  have close : |variance p.dims m (fun c => m1.real (.h_cell .state) 0 c k)
      (fun c => m1.real (.tr_cell .state) l c k) - V (sched.length * dt)| ≤ C * K * dt ^ 4 := by
    rw [hV]
    simp only [variance]
    rw [← Finset.sum_sub_distrib, mul_assoc, hC, Finset.sum_mul]
    refine (Finset.abs_sum_le_sum_abs _ _).trans (Finset.sum_le_sum fun c hcc => ?_)
    have a := Finset.mem_Ico.mp hcc
    have ap := areaC_pos hg.toGeo a.1 a.2
    rw [← mul_sub, abs_mul, abs_of_pos ap, mul_assoc]
    refine mul_le_mul_of_nonneg_left ?_ ap.le
    have B := hbS c hcc _ hx
    exact quot_close (hb c hcc) B.1 B.2 (r1 c k a.1 a.2 k0 k1) (r2 l c k l0 l1 a.1 a.2 k0 k1)
      (dle.trans b3) (dle.trans (b4.trans (by linarith [hβ c hcc])))
  have start : variance p.dims m (fun c => m.real (.h_cell .state) 0 c k)
      (fun c => m.real (.tr_cell .state) l c k) = V 0 := by
    refine Finset.sum_congr rfl fun c hcc => ?_
    have a := Finset.mem_Ico.mp hcc
    beta_reduce
    rw [show m.real (.tr_cell .state) l c k = (u 0).tr l c k from h0.tr l c k l0 l1 a.1 a.2 k0 k1,
      show m.real (.h_cell .state) 0 c k = (u 0).h c k from h0.h c k a.1 a.2 k0 k1]
  rw [start]
  have up := anti mem0 hx hx.1
  refine ⟨by linarith [le_abs_self (variance p.dims m (fun c => m1.real (.h_cell .state) 0 c k)
      (fun c => m1.real (.tr_cell .state) l c k) - V (sched.length * dt))], fun hk => ?_⟩
  rw [← const hk _ hx]
  exact close

/-- a moving layer with a varying tracer on 24 cells: its variance is positive, a solution exists for a
while, and for every bound on the step there are runs of the classical stepper that meet the hypotheses -/
example : ∃ (prm : Params ℝ) (m : Mem ℝ) (T : ℝ) (u : ℝ → Fld ℝ), RunValid p46t ∧ 2 ≤ p46t.nx ∧ 2 ≤ p46t.ny ∧
    prm.disable_h = false ∧ prm.disable_vn = false ∧ prm.eddy_diff4 ≤ 0 ∧ 0 < prm.eddy_diff2 ∧
    Ready p46t 1 prm m ∧ 0 < T ∧ Solves p46t.dims m (SWModel.ofParams prm) T u ∧
    EqFld p46t.dims (m.fld .state) (u 0) ∧ (1 : Int) < p46t.dims.ntracers ∧ 0 < p46t.dims.nlayers ∧
    m.real (.vn_edge .state) 0 1 0 ≠ 0 ∧
    m.real (.tr_cell .state) 1 1 0 / m.real (.h_cell .state) 0 1 0 ≠
      m.real (.tr_cell .state) 1 2 0 / m.real (.h_cell .state) 0 2 0 ∧
    ∀ τ > 0, ∃ (dt : ℝ) (sched : List (ℝ × ℝ)) (m1 : Mem ℝ), 0 < dt ∧ dt ≤ τ ∧ (∀ q ∈ sched, q.2 = dt) ∧
      sched ≠ [] ∧ sched.length * dt ≤ T ∧
      Exec p46t.dims (Stepper.rk4.ctor p46t.dims ++ Stepper.rk4.run p46t.dims
        ⟨defaultKernels p46t.dims.vl, true⟩ (SWModel.ofParams prm) sched) m m1 := by
  obtain ⟨prm, hprm⟩ : ∃ q : Params ℝ, q = ⟨1, 10, 0, 0, 1, 0, false, false⟩ := ⟨_, rfl⟩
  obtain ⟨m, hr, hx, -⟩ := exists_ready p46t_run.toValid (1 : ℝ) prm
    ⟨fun c _ => 1 + (c : ℝ) ^ 2, fun e _ => e, fun _ c _ => c⟩ zeroFld
  have eh : ∀ c k, m.real (.h_cell .state) 0 c k = 1 + (c : ℝ) ^ 2 := fun c k =>
    congrFun (congrFun (congrArg Fld.h hx) c) k
  have ev : ∀ e k, m.real (.vn_edge .state) 0 e k = (e : ℝ) := fun e k =>
    congrFun (congrFun (congrArg Fld.vn hx) e) k
  have et : ∀ l c k, m.real (.tr_cell .state) l c k = (c : ℝ) := fun l c k =>
    congrFun (congrFun (congrFun (congrArg Fld.tr hx) l) c) k
  have n1 : prm.disable_h = false := by rw [hprm]
  have n2 : prm.disable_vn = false := by rw [hprm]
  obtain ⟨T, u, T0, hu, h0⟩ := C80_solution_exists p46t_run one_pos n1 n2 hr fun c k _ _ _ _ => by
    rw [eh]; positivity
  refine ⟨prm, m, T, u, p46t_run, by simp [p46t], by simp [p46t], n1, n2, by rw [hprm], by norm_num [hprm],
    hr, T0, hu, h0, by decide, by norm_num [p46t, MeshParams.dims, ceilDiv], by rw [ev]; norm_num,
    by rw [eh, eh, et, et]; norm_num, fun τ τ0 => ?_⟩
  obtain ⟨hd, hc⟩ := ready_ok p46t_run hr
  obtain ⟨m1, he⟩ := ((C40_safe_deterministic hd hc (noHook_ofParams prm) true).2.2 .rk4
    [((0 : ℝ), min τ T)]).2.exists
  exact ⟨min τ T, [(0, min τ T)], m1, lt_min τ0 T0, min_le_left _ _, by simp, by simp, by simp, he⟩

end Props
end
end Omega
