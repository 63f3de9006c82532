import Verif.Lib.Trapped
import Verif.Props.TimeOrder
import Verif.Props.Frozen
import Verif.Props.Positivity
import Verif.Props.Symmetry

/-!
# C124: the state of rest is stable, nonlinearly and for all times

The energy of the disturbance of a state of rest: potential energy of the departure of the thicknesses from
constants, and kinetic energy.  Without viscosity it is constant along solutions of the textbook equations, and it
bounds every entry of the disturbance.  When it is small enough at the start, the solution exists for all times
and never dries out.
-/

set_option linter.unusedVariables false
set_option linter.unusedSectionVars false

namespace Omega
noncomputable section
namespace Props

open Prog Model Refine Hex Set
open scoped ContDiff

/-- energy of the disturbance of the state of rest with thickness `H k` in layer `k` -/
def disturbance (d : Dims) (m : Mem ℝ) (g : ℝ) (H : Int → ℝ) (x : Fld ℝ) : ℝ :=
  ∑ k ∈ Spec.layers d, ∑ c ∈ Spec.cells d, Spec.areaC m c *
    (g * (x.h c k - H k) ^ 2 / 2 + x.h c k * Spec.kinetic m (fun e => x.vn e k) c)

theorem disturbance_congr {d : Dims} {m : Mem ℝ} (hc : ConnOK d m) (g : ℝ) (H : Int → ℝ) {x y : Fld ℝ}
    (h : EqFld d x y) : disturbance d m g H x = disturbance d m g H y := by
  refine Finset.sum_congr rfl fun k hk => Finset.sum_congr rfl fun c hc' => ?_
  have a := Finset.mem_Ico.mp hc'; have b := Finset.mem_Ico.mp hk
  rw [h.h c k a.1 a.2 b.1 b.2, kinetic_congr hc (fun e e0 e1 => h.vn e k e0 e1 b.1 b.2) a.1 a.2]

theorem disturbance_eng (d : Dims) (m : Mem ℝ) (g : ℝ) (H : Int → ℝ) (v : Ix d → ℝ) :
    disturbance d m g H (unpack d v) = eng d m g v -
      (∑ k ∈ Spec.layers d, ∑ c ∈ Spec.cells d, g * H k * (Spec.areaC m c * (unpack d v).h c k)) +
      ∑ k ∈ Spec.layers d, ∑ c ∈ Spec.cells d, Spec.areaC m c * (g * H k ^ 2 / 2) := by
  unfold disturbance eng
  rw [← Finset.sum_sub_distrib, ← Finset.sum_add_distrib]
  refine Finset.sum_congr rfl fun k _ => ?_
  rw [← Finset.sum_sub_distrib, ← Finset.sum_add_distrib]
  exact Finset.sum_congr rfl fun c _ => by ring

theorem disturbance_const {p : MeshParams} {dc : ℝ} {m : Mem ℝ} (hc : ConnOK p.dims m)
    (h : Geo2 p.nx p.ny p.dims.nlayers dc m.mesh) {sw : SWModel ℝ}
    (h1 : sw.en_hadv = true) (h2 : sw.en_pv = true) (h3 : sw.en_ke = true) (h4 : sw.en_ssh = true)
    (h5 : sw.en_vdiff = false) (h6 : sw.en_vhyper = false) (H : Int → ℝ) {T : ℝ} {α : ℝ → Ix p.dims → ℝ}
    (du : ∀ x ∈ Icc 0 T, HasDerivWithinAt α (vfield p.dims m sw (α x)) (Icc 0 T) x) :
    ∀ x ∈ Icc 0 T, disturbance p.dims m sw.prm.grav H (unpack p.dims (α x)) =
      disturbance p.dims m sw.prm.grav H (unpack p.dims (α 0)) := by
  set g := sw.prm.grav with hg
  have sm := eng_smooth p.dims m g
  have dG : ∀ x ∈ Icc 0 T, HasDerivWithinAt (fun x => eng p.dims m g (α x) -
      ∑ k ∈ Spec.layers p.dims, ∑ c ∈ Spec.cells p.dims, g * H k * (Spec.areaC m c * (unpack p.dims (α x)).h c k))
      0 (Icc 0 T) x := fun x hx => by
    have a := ((sm.differentiable (by simp)).differentiableAt.hasFDerivAt
      (x := α x)).comp_hasDerivWithinAt x (du x hx)
    have a := a.congr_deriv (eng_rate hc h (sw := sw) h1 h2 h3 h4 h5 h6 _)
    have b : HasDerivWithinAt (fun x => ∑ k ∈ Spec.layers p.dims, ∑ c ∈ Spec.cells p.dims,
        g * H k * (Spec.areaC m c * (unpack p.dims (α x)).h c k))
        (∑ k ∈ Spec.layers p.dims, ∑ c ∈ Spec.cells p.dims, g * H k * (Spec.areaC m c *
          Spec.thicknessTend m sw (fun i => (unpack p.dims (α x)).h i k) (fun i => (unpack p.dims (α x)).vn i k) c))
        (Icc 0 T) x := by
      refine HasDerivWithinAt.fun_sum fun k hk => HasDerivWithinAt.fun_sum fun c hc' => ?_
      refine HasDerivWithinAt.const_mul _ (HasDerivWithinAt.const_mul _ ?_)
      have := hasDerivWithinAt_pi.mp (du x hx) (.inl (⟨c, hc'⟩, ⟨k, hk⟩))
      have e : (fun x => (unpack p.dims (α x)).h c k) = fun x => α x (.inl (⟨c, hc'⟩, ⟨k, hk⟩)) := by
        funext y
        show (if _ : _ then _ else _) = _
        rw [dif_pos ⟨hc', hk⟩]
      rw [e]
      exact this
    refine (a.sub b).congr_deriv ?_
    rw [zero_sub, neg_eq_zero]
    refine Finset.sum_eq_zero fun k _ => ?_
    rw [← Finset.mul_sum, sum_thickness h, mul_zero]
  intro x hx
  have := (convex_Icc 0 T).norm_image_sub_le_of_norm_hasDerivWithin_le (C := 0) dG (fun x _ => by simp)
    (left_mem_Icc.mpr (hx.1.trans hx.2)) hx
  rw [zero_mul] at this
  have := sub_eq_zero.mp (norm_le_zero_iff.mp this)
  rw [disturbance_eng, disturbance_eng, this]

/-- the energy bounds the disturbance of each entry -/
theorem disturbance_bounds {p : MeshParams} {dc : ℝ} (hdc : 0 < dc) {m : Mem ℝ} (hc : ConnOK p.dims m)
    (h : Geo p.nx p.ny p.dims.nlayers dc m.mesh) {g : ℝ} (hg : 0 < g) (H : Int → ℝ) {x : Fld ℝ}
    (hx : ∀ c k, 0 ≤ c → c < p.dims.ncells → 0 ≤ k → k < p.dims.nlayers → 0 ≤ x.h c k) :
    0 ≤ disturbance p.dims m g H x ∧
    (∀ c k, 0 ≤ c → c < p.dims.ncells → 0 ≤ k → k < p.dims.nlayers →
      g * Spec.areaC m c * (x.h c k - H k) ^ 2 ≤ 2 * disturbance p.dims m g H x) ∧
    ∀ e k, 0 ≤ e → e < p.dims.nedges → 0 ≤ k → k < p.dims.nlayers →
      Spec.dcE m e * Spec.dvE m e * (Spec.mean m (fun c => x.h c k) e * x.vn e k ^ 2) ≤
        2 * disturbance p.dims m g H x := by
  have s3 : (0 : ℝ) < √3 := Real.sqrt_pos.mpr (by norm_num)
  have eA : ∀ c ∈ Spec.cells p.dims, 0 < Spec.areaC m c := fun c hc' => by
    rw [spec_areaC h (mem_cells.mp hc')]; positivity
  have split : disturbance p.dims m g H x = ∑ k ∈ Spec.layers p.dims,
      ((∑ c ∈ Spec.cells p.dims, Spec.areaC m c * (g * (x.h c k - H k) ^ 2 / 2)) +
      ∑ e ∈ Spec.edges p.dims, Spec.dcE m e * Spec.dvE m e *
        (Spec.mean m (fun c => x.h c k) e * x.vn e k ^ 2 / 2)) := by
    refine Finset.sum_congr rfl fun k _ => ?_
    rw [← kinetic_pair h (fun c => x.h c k) (fun e => x.vn e k), ← Finset.sum_add_distrib]
    exact Finset.sum_congr rfl fun c _ => by ring
  have p1 : ∀ k, ∀ c ∈ Spec.cells p.dims, 0 ≤ Spec.areaC m c * (g * (x.h c k - H k) ^ 2 / 2) := fun k c hc' => by
    have := eA c hc'
    positivity
  have p2 : ∀ k ∈ Spec.layers p.dims, ∀ e ∈ Spec.edges p.dims,
      0 ≤ Spec.dcE m e * Spec.dvE m e * (Spec.mean m (fun c => x.h c k) e * x.vn e k ^ 2 / 2) := fun k hk e he => by
    have b := Finset.mem_Ico.mp hk; have a := Finset.mem_Ico.mp he
    rw [spec_dcE h a.1 a.2, spec_dvE h a.1 a.2]
    have c0 := hc.coe e a.1 a.2 0 le_rfl (by norm_num)
    have c1 := hc.coe e a.1 a.2 1 (by norm_num) (by norm_num)
    have q0 := hx _ k c0.1 c0.2 b.1 b.2
    have q1 := hx _ k c1.1 c1.2 b.1 b.2
    have : 0 ≤ Spec.mean m (fun c => x.h c k) e := by
      show 0 ≤ (_ + _) / 2
      exact div_nonneg (add_nonneg q0 q1) (by norm_num)
    positivity
  have pk : ∀ k ∈ Spec.layers p.dims, 0 ≤ (∑ c ∈ Spec.cells p.dims, Spec.areaC m c * (g * (x.h c k - H k) ^ 2 / 2)) +
      ∑ e ∈ Spec.edges p.dims, Spec.dcE m e * Spec.dvE m e *
        (Spec.mean m (fun c => x.h c k) e * x.vn e k ^ 2 / 2) := fun k hk =>
    add_nonneg (Finset.sum_nonneg (p1 k)) (Finset.sum_nonneg (p2 k hk))
  refine ⟨split ▸ Finset.sum_nonneg pk, fun c k c0 c1 k0 k1 => ?_, fun e k e0 e1 k0 k1 => ?_⟩
  · have hk : k ∈ Spec.layers p.dims := Finset.mem_Ico.mpr ⟨k0, k1⟩
    have a := Finset.single_le_sum pk hk
    have b := Finset.single_le_sum (p1 k) (Finset.mem_Ico.mpr ⟨c0, c1⟩ : c ∈ Spec.cells p.dims)
    have c := Finset.sum_nonneg (p2 k hk)
    rw [← split] at a
    linarith
  · have hk : k ∈ Spec.layers p.dims := Finset.mem_Ico.mpr ⟨k0, k1⟩
    have a := Finset.single_le_sum pk hk
    have b := Finset.single_le_sum (p2 k hk) (Finset.mem_Ico.mpr ⟨e0, e1⟩ : e ∈ Spec.edges p.dims)
    have c := Finset.sum_nonneg (p1 k)
    rw [← split] at a
    linarith

/-- the disturbance is so small that it cannot dry out a cell -/
def SmallDisturbance (p : MeshParams) (m : Mem ℝ) (g : ℝ) (H : Int → ℝ) (w : ℝ) : Prop :=
  ∀ c k, 0 ≤ c → c < p.dims.ncells → 0 ≤ k → k < p.dims.nlayers → 8 * w < g * Spec.areaC m c * H k ^ 2

theorem small_bounds {p : MeshParams} {dc : ℝ} (hdc : 0 < dc) {m : Mem ℝ} (hc : ConnOK p.dims m)
    (h : Geo p.nx p.ny p.dims.nlayers dc m.mesh) {g : ℝ} (hg : 0 < g) {H : Int → ℝ}
    (hH : ∀ k, 0 ≤ k → k < p.dims.nlayers → 0 < H k) {x : Fld ℝ}
    (hx : ∀ c k, 0 ≤ c → c < p.dims.ncells → 0 ≤ k → k < p.dims.nlayers → 0 ≤ x.h c k)
    (hs : SmallDisturbance p m g H (disturbance p.dims m g H x)) :
    (∀ c k, 0 ≤ c → c < p.dims.ncells → 0 ≤ k → k < p.dims.nlayers → |x.h c k - H k| < H k / 2) ∧
    ∀ e k, 0 ≤ e → e < p.dims.nedges → 0 ≤ k → k < p.dims.nlayers →
      x.vn e k ^ 2 ≤ 4 * disturbance p.dims m g H x / (Spec.dcE m e * Spec.dvE m e * H k) := by
  obtain ⟨w0, b1, b2⟩ := disturbance_bounds hdc hc h hg H hx
  have s3 : (0 : ℝ) < √3 := Real.sqrt_pos.mpr (by norm_num)
  have near : ∀ c k, 0 ≤ c → c < p.dims.ncells → 0 ≤ k → k < p.dims.nlayers → |x.h c k - H k| < H k / 2 := by
    intro c k c0 c1 k0 k1
    have hk := hH k k0 k1
    have A0 : 0 < Spec.areaC m c := by rw [spec_areaC h ⟨c0, c1⟩]; positivity
    have u := b1 c k c0 c1 k0 k1
    have v := hs c k c0 c1 k0 k1
    have : (x.h c k - H k) ^ 2 < (H k / 2) ^ 2 := by
      have gA : 0 < g * Spec.areaC m c := mul_pos hg A0
      refine lt_of_mul_lt_mul_left (a := g * Spec.areaC m c) ?_ gA.le
      calc _ ≤ _ := u
        _ < _ := by linarith
    exact abs_lt_of_sq_lt_sq this (by linarith)
  refine ⟨near, fun e k e0 e1 k0 k1 => ?_⟩
  have hk := hH k k0 k1
  have d0 : 0 < Spec.dcE m e * Spec.dvE m e := by rw [spec_dcE h e0 e1, spec_dvE h e0 e1]; positivity
  rw [le_div_iff₀ (mul_pos d0 hk)]
  have mh : H k / 2 ≤ Spec.mean m (fun c => x.h c k) e := by
    have c0 := hc.coe e e0 e1 0 le_rfl (by norm_num)
    have c1 := hc.coe e e0 e1 1 (by norm_num) (by norm_num)
    have q0 := (abs_lt.mp (near _ k c0.1 c0.2 k0 k1)).1
    have q1 := (abs_lt.mp (near _ k c1.1 c1.2 k0 k1)).1
    show _ ≤ (_ + _) / 2
    have : ∀ a b y : ℝ, -(y / 2) < a - y → -(y / 2) < b - y → y / 2 ≤ (a + b) / 2 := fun a b y i j => by linarith
    exact this _ _ _ q0 q1
  have := b2 e k e0 e1 k0 k1
  have mono : Spec.dcE m e * Spec.dvE m e * (H k / 2 * x.vn e k ^ 2) ≤
      Spec.dcE m e * Spec.dvE m e * (Spec.mean m (fun c => x.h c k) e * x.vn e k ^ 2) :=
    mul_le_mul_of_nonneg_left (mul_le_mul_of_nonneg_right mh (sq_nonneg _)) d0.le
  linarith

theorem inviscid_gates {prm : Params ℝ} (n3 : prm.visc_del2 ≤ 0) (n4 : prm.visc_del4 ≤ 0) :
    (SWModel.ofParams prm).en_vdiff = false ∧ (SWModel.ofParams prm).en_vhyper = false :=
  ⟨by show decide ((lit 0 : ℝ) < prm.visc_del2) = false
      simp [n3],
   by show decide ((lit 0 : ℝ) < prm.visc_del4) = false
      simp [n4]⟩

/-- Along every wet solution of the equations without viscosity, the energy of the disturbance is constant; it
bounds the disturbance of the thickness of each cell, and, when it is small, the normal velocity of each edge, at
all times of the solution. -/
theorem C124_disturbance_bounded {p : MeshParams} (hv : RunValid p) (hnx : 2 ≤ p.nx) (hny : 2 ≤ p.ny) {dc : ℝ}
    (hdc : 0 < dc) {prm : Params ℝ} (n1 : prm.disable_h = false) (n2 : prm.disable_vn = false)
    (n3 : prm.visc_del2 ≤ 0) (n4 : prm.visc_del4 ≤ 0) (hg : 0 < prm.grav) {m : Mem ℝ}
    (hr : Ready p dc prm m) {H : Int → ℝ} (hH : ∀ k, 0 ≤ k → k < p.dims.nlayers → 0 < H k) {T : ℝ}
    {u : ℝ → Fld ℝ} (hu : Solves p.dims m (SWModel.ofParams prm) T u) {w : ℝ}
    (hw : w = disturbance p.dims m prm.grav H (u 0)) :
    ∀ x ∈ Icc 0 T, disturbance p.dims m prm.grav H (u x) = w ∧
      (∀ c k, 0 ≤ c → c < p.dims.ncells → 0 ≤ k → k < p.dims.nlayers →
        ((u x).h c k - H k) ^ 2 ≤ 2 * w / (prm.grav * Spec.areaC m c)) ∧
      (SmallDisturbance p m prm.grav H w → ∀ e k, 0 ≤ e → e < p.dims.nedges → 0 ≤ k → k < p.dims.nlayers →
        (u x).vn e k ^ 2 ≤ 4 * w / (Spec.dcE m e * Spec.dvE m e * H k)) := by
  obtain ⟨hd, hc⟩ := ready_ok hv hr
  have hHk := hookOK_noHook (noHook_ofParams prm) p.dims m
  have hg2 := Ready.geo2 hr hv.toValid hnx hny hdc
  obtain ⟨du, wu⟩ := hu.pack hd hc hHk n1 n2
  obtain ⟨s5, s6⟩ := inviscid_gates n3 n4
  intro x hx
  have con := disturbance_const hc hg2 (sw := SWModel.ofParams prm) rfl rfl rfl rfl s5 s6 H du x hx
  have con : disturbance p.dims m prm.grav H (u x) = w := by
    rw [hw, ← disturbance_congr hc _ _ (unpack_pack p.dims (u x)),
      ← disturbance_congr hc _ _ (unpack_pack p.dims (u 0))]
    exact con
  have nn : ∀ c k, 0 ≤ c → c < p.dims.ncells → 0 ≤ k → k < p.dims.nlayers → 0 ≤ (u x).h c k :=
    fun c k c0 c1 k0 k1 => (hu.wet c k c0 c1 k0 k1 x hx).le
  refine ⟨con, fun c k c0 c1 k0 k1 => ?_, fun hs e k e0 e1 k0 k1 => ?_⟩
  · have s3 : (0 : ℝ) < √3 := Real.sqrt_pos.mpr (by norm_num)
    have A0 : 0 < Spec.areaC m c := by rw [spec_areaC hg2.toGeo ⟨c0, c1⟩]; positivity
    have := (disturbance_bounds hdc hc hg2.toGeo hg H nn).2.1 c k c0 c1 k0 k1
    rw [con] at this
    rw [le_div_iff₀ (mul_pos hg A0)]
    linarith
  · have := (small_bounds hdc hc hg2.toGeo hg hH nn (by rw [con]; exact hs)).2 e k e0 e1 k0 k1
    rwa [con] at this

/-- The energy of the disturbance of rest with one thickness `H` in all layers is a combination of the values of
`energy_integral` and `mass_integral`. -/
theorem C124_from_diagnostics {p : MeshParams} (hv : RunValid p) {dc : ℝ} {prm : Params ℝ} {m : Mem ℝ}
    (hr : Ready p dc prm m) (g H : ℝ) {E M : ℝ} (hE : IsEnergyIntegral p.dims g .state m E)
    (hM : IsMassIntegral p.dims .state m M) :
    disturbance p.dims m g (fun _ => H) (m.fld .state) =
      E - g * H * M + g * H ^ 2 / 2 * ∑ k ∈ Spec.layers p.dims, ∑ c ∈ Spec.cells p.dims, Spec.areaC m c := by
  rw [(energy_spec hv hr g .state E).1 hE, (mass_spec hv.toValid hr .state M).1 hM]
  simp only [Finset.mul_sum]
  rw [← Finset.sum_sub_distrib, ← Finset.sum_add_distrib]
  refine Finset.sum_congr rfl fun k _ => ?_
  rw [← Finset.sum_sub_distrib, ← Finset.sum_add_distrib]
  refine Finset.sum_congr rfl fun c _ => ?_
  show Spec.areaC m c * (g * (m.real (.h_cell .state) 0 c k - H) ^ 2 / 2 + m.real (.h_cell .state) 0 c k *
    Spec.kinetic m (fun e => m.real (.vn_edge .state) 0 e k) c) = _
  ring

/-! ### Existence for all times -/

/-- upper corner of the box that contains the solution -/
def hiB (d : Dims) (m : Mem ℝ) (H : Int → ℝ) (w R : ℝ) : Ix d → ℝ
  | .inl i => 3 * H i.2 / 2
  | .inr (.inl i) => 1 + 4 * w / (Spec.dcE m i.1 * Spec.dvE m i.1 * H i.2)
  | .inr (.inr _) => R

/-- lower corner of the box that contains the solution -/
def loB (d : Dims) (m : Mem ℝ) (H : Int → ℝ) (w R : ℝ) : Ix d → ℝ
  | .inl i => H i.2 / 2
  | .inr (.inl i) => -(1 + 4 * w / (Spec.dcE m i.1 * Spec.dvE m i.1 * H i.2))
  | .inr (.inr _) => -R

/-- the entries of the tracers -/
abbrev TrIx (d : Dims) : Type :=
  {l // l ∈ Finset.Ico 0 d.ntracers} × {c // c ∈ Spec.cells d} × {k // k ∈ Spec.layers d}

/-- the tracers of a vector of entries replaced -/
def withTr {d : Dims} (v : Ix d → ℝ) (y : TrIx d → ℝ) : Ix d → ℝ
  | .inl i => v (.inl i)
  | .inr (.inl i) => v (.inr (.inl i))
  | .inr (.inr i) => y i

theorem vfield_withTr {d : Dims} (m : Mem ℝ) (sw : SWModel ℝ) (v : Ix d → ℝ) (y : TrIx d → ℝ) (r : ℝ)
    (h : ∀ i, v (.inr (.inr i)) = r * y i) (i : TrIx d) :
    vfield d m sw v (.inr (.inr i)) = r * vfield d m sw (withTr v y) (.inr (.inr i)) := by
  obtain ⟨⟨l, hl⟩, ⟨c, hc⟩, ⟨k, hk⟩⟩ := i
  have e : (fun i => (unpack d v).tr l i k) = fun i => r * (unpack d (withTr v y)).tr l i k := by
    funext i
    simp only [unpack]
    split_ifs with q
    · exact h _
    · simp
  show Spec.tracerTend m sw _ _ (fun i => (unpack d v).tr l i k) c = r * Spec.tracerTend m sw _ _ _ c
  rw [e, tracerTend_smul]
  rfl

theorem loB_wet {p : MeshParams} {m : Mem ℝ} {H : Int → ℝ} (hH : ∀ k, 0 ≤ k → k < p.dims.nlayers → 0 < H k)
    (w R : ℝ) {v : Ix p.dims → ℝ} (hv : loB p.dims m H w R ≤ v) : v ∈ wetSet p.dims := by
  rintro ⟨c, ⟨k, hk⟩⟩
  have b := Finset.mem_Ico.mp hk
  have : H k / 2 ≤ v (.inl (c, ⟨k, hk⟩)) := hv (.inl (c, ⟨k, hk⟩))
  linarith [hH k b.1 b.2]

/-- Without viscosity, from every wet state whose disturbance of a state of rest is small in energy, and for every
time `T`, there is a solution of the textbook equations, tracers included, up to the time `T`, that never dries
out. -/
theorem C124_solution_for_all_times {p : MeshParams} (hv : RunValid p) (hnx : 2 ≤ p.nx) (hny : 2 ≤ p.ny) {dc : ℝ}
    (hdc : 0 < dc) {prm : Params ℝ} (n1 : prm.disable_h = false) (n2 : prm.disable_vn = false)
    (n3 : prm.visc_del2 ≤ 0) (n4 : prm.visc_del4 ≤ 0) (hg : 0 < prm.grav) {m : Mem ℝ}
    (hr : Ready p dc prm m) {H : Int → ℝ} (hH : ∀ k, 0 ≤ k → k < p.dims.nlayers → 0 < H k)
    (hw : ∀ c k, 0 ≤ c → c < p.dims.ncells → 0 ≤ k → k < p.dims.nlayers → 0 < m.real (.h_cell .state) 0 c k)
    (hs : SmallDisturbance p m prm.grav H (disturbance p.dims m prm.grav H (m.fld .state))) {T : ℝ} (hT : 0 ≤ T) :
    ∃ u : ℝ → Fld ℝ, Solves p.dims m (SWModel.ofParams prm) T u ∧ EqFld p.dims (m.fld .state) (u 0) := by
  obtain ⟨hd, hc⟩ := ready_ok hv hr
  have hg2 := Ready.geo2 hr hv.toValid hnx hny hdc
  obtain ⟨s5, s6⟩ := inviscid_gates n3 n4
  have smo := vfield_smooth hc (SWModel.ofParams prm) fun i i0 i1 φ hφ => kiteMean_pos hv hdc hr i0 i1 hφ
  set w := disturbance p.dims m prm.grav H (m.fld .state) with hw0
  set v0 := pack p.dims (m.fld .state) with hv0
  have ew : disturbance p.dims m prm.grav H (unpack p.dims v0) = w :=
    disturbance_congr hc _ _ (unpack_pack p.dims (m.fld .state))
  have smR : ∀ R, ContDiffOn ℝ 1 (vfield p.dims m (SWModel.ofParams prm)) (Icc (loB p.dims m H w R) (hiB p.dims m H w R)) :=
    fun R => (smo.mono fun v hv => loB_wet hH w R hv.1).of_le (WithTop.coe_le_coe.2 (le_top (a := (1 : ℕ∞))))
  -- bounds of thickness and velocity from the energy
  have key : ∀ v : Ix p.dims → ℝ, v ∈ wetSet p.dims → disturbance p.dims m prm.grav H (unpack p.dims v) = w →
      (∀ i, H i.2 / 2 < v (.inl i) ∧ v (.inl i) < 3 * H i.2 / 2) ∧
      ∀ i : {e // e ∈ Spec.edges p.dims} × {k // k ∈ Spec.layers p.dims},
        -(1 + 4 * w / (Spec.dcE m i.1 * Spec.dvE m i.1 * H i.2)) < v (.inr (.inl i)) ∧
        v (.inr (.inl i)) < 1 + 4 * w / (Spec.dcE m i.1 * Spec.dvE m i.1 * H i.2) := by
    intro v wv dv
    have nn : ∀ c k, 0 ≤ c → c < p.dims.ncells → 0 ≤ k → k < p.dims.nlayers → 0 ≤ (unpack p.dims v).h c k :=
      fun c k _ _ _ _ => (unpack_h_pos wv c k).le
    obtain ⟨a, b⟩ := small_bounds hdc hc hg2.toGeo hg hH nn (by rw [dv]; exact hs)
    rw [dv] at b
    constructor
    · rintro ⟨⟨c, hc'⟩, ⟨k, hk⟩⟩
      have c2 := Finset.mem_Ico.mp hc'; have k2 := Finset.mem_Ico.mp hk
      have := abs_lt.mp (a c k c2.1 c2.2 k2.1 k2.2)
      have e : (unpack p.dims v).h c k = v (.inl (⟨c, hc'⟩, ⟨k, hk⟩)) := by
        show (if _ : _ then _ else _) = _
        rw [dif_pos ⟨hc', hk⟩]
      rw [e] at this
      constructor <;> dsimp only <;> linarith [this.1, this.2]
    · rintro ⟨⟨c, hc'⟩, ⟨k, hk⟩⟩
      have c2 := Finset.mem_Ico.mp hc'; have k2 := Finset.mem_Ico.mp hk
      have := b c k c2.1 c2.2 k2.1 k2.2
      have e : (unpack p.dims v).vn c k = v (.inr (.inl (⟨c, hc'⟩, ⟨k, hk⟩))) := by
        show (if _ : _ then _ else _) = _
        rw [dif_pos ⟨hc', hk⟩]
      rw [e] at this
      dsimp only
      set q := 4 * w / (Spec.dcE m c * Spec.dvE m c * H k)
      have q0 : 0 ≤ q := (sq_nonneg _).trans this
      exact abs_lt.mp (abs_lt_of_sq_lt_sq (by nlinarith) (by linarith))
  -- the tracers grow at most exponentially
  obtain ⟨Λ, hΛ⟩ := (isCompact_Icc (a := loB p.dims m H w 1) (b := hiB p.dims m H w 1)).exists_bound_of_continuousOn
    (smR 1).continuousOn
  set Λ' := max Λ 0
  set y0 : TrIx p.dims → ℝ := fun i => v0 (.inr (.inr i)) with hy0
  set R := (‖y0‖ + 1) * Real.exp (Λ' * T) with hR
  have w0 : v0 ∈ wetSet p.dims := by
    rintro ⟨⟨c, hc'⟩, ⟨k, hk'⟩⟩
    have a := Finset.mem_Ico.mp hc'; have b := Finset.mem_Ico.mp hk'
    exact hw c k a.1 a.2 b.1 b.2
  have Λ0 : 0 ≤ Λ' := le_max_right _ _
  have grow : ∀ t ∈ Icc 0 T, ‖y0‖ * Real.exp (Λ' * t) < R := fun t ht => by
    have : Real.exp (Λ' * t) ≤ Real.exp (Λ' * T) := Real.exp_le_exp.mpr (mul_le_mul_of_nonneg_left ht.2 Λ0)
    have := mul_le_mul_of_nonneg_left this (norm_nonneg y0)
    have := Real.exp_pos (Λ' * T)
    rw [hR, add_mul]
    linarith
  have box : ∀ v : Ix p.dims → ℝ, v ∈ wetSet p.dims → disturbance p.dims m prm.grav H (unpack p.dims v) = w →
      ‖(fun i => v (.inr (.inr i)) : TrIx p.dims → ℝ)‖ < R →
      ∀ i, loB p.dims m H w R i < v i ∧ v i < hiB p.dims m H w R i := by
    intro v wv dv ny
    obtain ⟨a, b⟩ := key v wv dv
    rintro (i | i | i)
    · exact a i
    · exact b i
    · exact abs_lt.mp ((norm_le_pi_norm (fun i => v (.inr (.inr i)) : TrIx p.dims → ℝ) i).trans_lt ny)
  have st := Trapped.exists_solution (smR R) (v0 := v0) (box v0 w0 ew (by
    have := grow 0 ⟨le_rfl, hT⟩
    rwa [mul_zero, Real.exp_zero, mul_one] at this)) hT ?_
  · obtain ⟨α, α0, hα⟩ := st
    refine ⟨fun x => unpack p.dims (α x), ⟨?_, ?_, ?_, ?_⟩, ?_⟩
    · intro c k c0 c1 k0 k1 x hx
      have := hasDerivWithinAt_pi.mp (hα x hx).2 (.inl (⟨c, Finset.mem_Ico.mpr ⟨c0, c1⟩⟩,
        ⟨k, Finset.mem_Ico.mpr ⟨k0, k1⟩⟩))
      simpa [unpack, c0, c1, k0, k1, vfield, pack, tendFld] using this
    · intro c k c0 c1 k0 k1 x hx
      have := hasDerivWithinAt_pi.mp (hα x hx).2 (.inr (.inl (⟨c, Finset.mem_Ico.mpr ⟨c0, c1⟩⟩,
        ⟨k, Finset.mem_Ico.mpr ⟨k0, k1⟩⟩)))
      simpa [unpack, c0, c1, k0, k1, vfield, pack, tendFld] using this
    · intro l c k l0 l1 c0 c1 k0 k1 x hx
      have := hasDerivWithinAt_pi.mp (hα x hx).2 (.inr (.inr (⟨l, Finset.mem_Ico.mpr ⟨l0, l1⟩⟩,
        ⟨c, Finset.mem_Ico.mpr ⟨c0, c1⟩⟩, ⟨k, Finset.mem_Ico.mpr ⟨k0, k1⟩⟩)))
      simpa [unpack, l0, l1, c0, c1, k0, k1, vfield, pack, tendFld] using this
    · intro c k _ _ _ _ x hx
      exact unpack_h_pos (loB_wet hH w R (hα x hx).1.1) c k
    · simp only [α0]
      exact (unpack_pack p.dims (m.fld .state)).symm
  · intro t ht α α0 inB dα
    have tm : t ∈ Icc 0 t := right_mem_Icc.mpr ht.1
    have con := disturbance_const hc hg2 (sw := SWModel.ofParams prm) rfl rfl rfl rfl s5 s6 H dα t tm
    rw [α0] at con
    refine box (α t) (loB_wet hH w R (inB t tm).1) (con.trans ew) (lt_of_le_of_lt ?_ (grow t ht))
    -- Grönwall
    have dy : ∀ x ∈ Icc 0 t, HasDerivWithinAt (fun x => (fun i => α x (.inr (.inr i)) : TrIx p.dims → ℝ))
        (fun i => vfield p.dims m (SWModel.ofParams prm) (α x) (.inr (.inr i))) (Icc 0 t) x := fun x hx =>
      hasDerivWithinAt_pi.mpr fun i => hasDerivWithinAt_pi.mp (dα x hx) (.inr (.inr i))
    have gr := norm_le_gronwallBound_of_norm_deriv_right_le (δ := ‖y0‖) (K := Λ') (ε := 0) (a := 0) (b := t)
      (fun x hx => (dy x hx).continuousWithinAt)
      (fun x hx => (dy x ⟨hx.1, hx.2.le⟩).mono_of_mem_nhdsWithin (Icc_mem_nhdsGE_of_mem hx))
      (by rw [α0]) (fun x hx => ?_) t tm
    · rw [gronwallBound_ε0, sub_zero] at gr
      exact gr
    · rw [add_zero]
      set y : TrIx p.dims → ℝ := fun i => α x (.inr (.inr i)) with hy
      obtain ⟨z, hz, hz1⟩ : ∃ z : TrIx p.dims → ℝ, (∀ i, y i = ‖y‖ * z i) ∧ ∀ i, |z i| ≤ 1 := by
        rcases (norm_nonneg y).eq_or_lt with e | e
        · refine ⟨0, fun i => ?_, fun i => by simp⟩
          have : y = 0 := norm_eq_zero.mp e.symm
          rw [this]; simp
        · refine ⟨fun i => y i / ‖y‖, fun i => (mul_div_cancel₀ _ e.ne').symm, fun i => ?_⟩
          rw [abs_div, abs_norm, div_le_one e]
          exact norm_le_pi_norm y i
      have mem : withTr (α x) z ∈ Icc (loB p.dims m H w 1) (hiB p.dims m H w 1) := by
        have B := inB x ⟨hx.1, hx.2.le⟩
        constructor
        · rintro (i | i | i)
          · exact B.1 (.inl i)
          · exact B.1 (.inr (.inl i))
          · exact (abs_le.mp (hz1 i)).1
        · rintro (i | i | i)
          · exact B.2 (.inl i)
          · exact B.2 (.inr (.inl i))
          · exact (abs_le.mp (hz1 i)).2
      rw [pi_norm_le_iff_of_nonneg (mul_nonneg Λ0 (norm_nonneg _))]
      intro i
      rw [vfield_withTr m (SWModel.ofParams prm) (α x) z ‖y‖ hz i, norm_mul, norm_norm, mul_comm]
      refine mul_le_mul_of_nonneg_right ?_ (norm_nonneg _)
      exact (norm_le_pi_norm _ _).trans ((hΛ _ mem).trans (le_max_left _ _))

/-- So the runs of the fourth-order steppers from such a state stay, for any number of steps up to any time `T`, as
close to the state of rest as the energy of the initial disturbance allows, up to `K (dt⁴ + defect)`. -/
theorem C124_runs_stay_near_rest {p : MeshParams} (hv : RunValid p) (hnx : 2 ≤ p.nx) (hny : 2 ≤ p.ny) {dc : ℝ}
    (hdc : 0 < dc) {prm : Params ℝ} (n1 : prm.disable_h = false) (n2 : prm.disable_vn = false)
    (n3 : prm.visc_del2 ≤ 0) (n4 : prm.visc_del4 ≤ 0) (hg : 0 < prm.grav) {m : Mem ℝ}
    (hr : Ready p dc prm m) {H : Int → ℝ} (hH : ∀ k, 0 ≤ k → k < p.dims.nlayers → 0 < H k)
    (hw : ∀ c k, 0 ≤ c → c < p.dims.ncells → 0 ≤ k → k < p.dims.nlayers → 0 < m.real (.h_cell .state) 0 c k)
    {w : ℝ} (hw0 : w = disturbance p.dims m prm.grav H (m.fld .state))
    (hs : SmallDisturbance p m prm.grav H w) {T : ℝ} (hT : 0 ≤ T) :
    ∃ K τ : ℝ, 0 ≤ K ∧ 0 < τ ∧ ∀ stp, FourthOrder stp → ∀ (dt : ℝ) (sched : List (ℝ × ℝ)) (split : Bool)
      (m1 : Mem ℝ), 0 ≤ dt → dt ≤ τ → (∀ q ∈ sched, q.2 = dt) → sched.length * dt ≤ T →
      sched.length * dt * defect stp ≤ τ →
      Exec p.dims (stp.ctor p.dims ++ stp.run p.dims ⟨defaultKernels p.dims.vl, split⟩
        (SWModel.ofParams prm) sched) m m1 →
      (∀ c k, 0 ≤ c → c < p.dims.ncells → 0 ≤ k → k < p.dims.nlayers →
        |m1.real (.h_cell .state) 0 c k - H k| ≤ √(2 * w / (prm.grav * Spec.areaC m c)) + K * (dt ^ 4 + defect stp)) ∧
      ∀ e k, 0 ≤ e → e < p.dims.nedges → 0 ≤ k → k < p.dims.nlayers →
        |m1.real (.vn_edge .state) 0 e k| ≤
          √(4 * w / (Spec.dcE m e * Spec.dvE m e * H k)) + K * (dt ^ 4 + defect stp) := by
  obtain ⟨hd, hc⟩ := ready_ok hv hr
  obtain ⟨u, hu, h0⟩ := C124_solution_for_all_times hv hnx hny hdc n1 n2 n3 n4 hg hr hH hw (hw0 ▸ hs) hT
  obtain ⟨K, τ, K0, τ0, key⟩ := C80_time_order hv hdc n1 n2 hr hu h0
  refine ⟨K, τ, K0, τ0, fun stp hstp dt sched split m1 t0 t1 hsc hT' hε he => ?_⟩
  obtain ⟨a, b, -⟩ := key stp hstp dt sched split m1 t0 t1 hsc hT' hε he
  obtain ⟨-, q1, q2⟩ := C124_disturbance_bounded hv hnx hny hdc n1 n2 n3 n4 hg hr hH hu (w := w)
    (by rw [hw0]; exact disturbance_congr hc _ _ h0) (sched.length * dt) ⟨by positivity, hT'⟩
  constructor
  · intro c k c0 c1 k0 k1
    have i := abs_le.mp (a c k c0 c1 k0 k1)
    have j := abs_le.mp (Real.abs_le_sqrt (q1 c k c0 c1 k0 k1))
    rw [abs_le]
    constructor <;> linarith [i.1, i.2, j.1, j.2]
  · intro c k c0 c1 k0 k1
    have i := abs_le.mp (b c k c0 c1 k0 k1)
    have j := abs_le.mp (Real.abs_le_sqrt (q2 hs c k c0 c1 k0 k1))
    rw [abs_le]
    constructor <;> linarith [i.1, i.2, j.1, j.2]

/-- a bump of the thickness on a mesh of 24 cells with a tracer and rotation: every time is reached, by runs of
both steppers -/
example : ∃ (prm : Params ℝ) (m : Mem ℝ) (H : Int → ℝ), RunValid p46t ∧ 2 ≤ p46t.nx ∧ 2 ≤ p46t.ny ∧
    0 < p46t.dims.nlayers ∧ 0 < p46t.dims.ntracers ∧
    prm.disable_h = false ∧ prm.disable_vn = false ∧ prm.visc_del2 ≤ 0 ∧ prm.visc_del4 ≤ 0 ∧ 0 < prm.grav ∧
    prm.f0 ≠ 0 ∧ Ready p46t 1 prm m ∧ (∀ k, 0 ≤ k → k < p46t.dims.nlayers → 0 < H k) ∧
    (∀ c k, 0 ≤ c → c < p46t.dims.ncells → 0 ≤ k → k < p46t.dims.nlayers → 0 < m.real (.h_cell .state) 0 c k) ∧
    m.real (.h_cell .state) 0 1 0 ≠ H 0 ∧
    SmallDisturbance p46t m prm.grav H (disturbance p46t.dims m prm.grav H (m.fld .state)) ∧
    ∀ T : ℝ, 0 ≤ T → (∃ u : ℝ → Fld ℝ, Solves p46t.dims m (SWModel.ofParams prm) T u ∧
        EqFld p46t.dims (m.fld .state) (u 0)) ∧
      ∀ n : ℕ, 0 < n → ∀ stp : Stepper, ∃ (sched : List (ℝ × ℝ)) (m1 : Mem ℝ), (∀ q ∈ sched, q.2 = T / n) ∧
        sched.length * (T / n) = T ∧ Exec p46t.dims (stp.ctor p46t.dims ++ stp.run p46t.dims
          ⟨defaultKernels p46t.dims.vl, true⟩ (SWModel.ofParams prm) sched) m m1 := by
  obtain ⟨prm, e⟩ : ∃ q : Params ℝ, q = ⟨1, 10, 0, 0, 1, 0, false, false⟩ := ⟨_, rfl⟩
  have g10 : prm.grav = 10 := by rw [e]
  obtain ⟨m, hr, hx, -⟩ := exists_ready p46t_run.toValid (1 : ℝ) prm
    ⟨fun c k => if c = 1 ∧ k = 0 then 11 / 10 else 1, fun _ _ => 0, fun _ c _ => c⟩ zeroFld
  have eh : ∀ c k, (m.fld .state).h c k = if c = 1 ∧ k = 0 then 11 / 10 else 1 := fun c k =>
    congrFun (congrFun (congrArg Fld.h hx) c) k
  have ev : ∀ e k, (m.fld .state).vn e k = 0 := fun e k => congrFun (congrFun (congrArg Fld.vn hx) e) k
  have hg2 := Ready.geo2 hr p46t_run.toValid (by simp [p46t]) (by simp [p46t]) one_pos
  have s3 : (0 : ℝ) < √3 := Real.sqrt_pos.mpr (by norm_num)
  have dv : disturbance p46t.dims m prm.grav (fun _ => 1) (m.fld .state) = √3 / 40 := by
    have : ∀ k ∈ Spec.layers p46t.dims, ∀ c ∈ Spec.cells p46t.dims, Spec.areaC m c *
        (prm.grav * ((m.fld .state).h c k - 1) ^ 2 / 2 + (m.fld .state).h c k *
          Spec.kinetic m (fun e => (m.fld .state).vn e k) c) = if k = 0 then (if c = 1 then √3 / 40 else 0) else 0 := by
      intro k _ c hc
      have z : Spec.kinetic m (fun e => (m.fld .state).vn e k) c = 0 := by
        simp only [ev]
        rw [spec_kinetic hg2.toGeo _ (mem_cells.mp hc)]
        simp [Sd]
      rw [z, eh, spec_areaC hg2.toGeo (mem_cells.mp hc), g10]
      split_ifs <;> first | (exfalso; omega) | ring
    unfold disturbance
    rw [Finset.sum_congr rfl fun k hk => Finset.sum_congr rfl (this k hk)]
    have l0 : (0 : Int) ∈ Spec.layers p46t.dims := by simp [Spec.layers, p46t_layers]
    have c1 : (1 : Int) ∈ Spec.cells p46t.dims := by simp [Spec.cells, MeshParams.dims, p46t]
    rw [Finset.sum_comm]
    simp [Finset.sum_ite_eq', l0, c1]
  have sd : SmallDisturbance p46t m prm.grav (fun _ => 1) (disturbance p46t.dims m prm.grav (fun _ => 1) (m.fld .state)) := by
    intro c k c0 c1 _ _
    rw [dv, spec_areaC hg2.toGeo ⟨c0, c1⟩, g10]
    linarith
  have wet : ∀ c k, 0 ≤ c → c < p46t.dims.ncells → 0 ≤ k → k < p46t.dims.nlayers →
      0 < m.real (.h_cell .state) 0 c k := fun c k _ _ _ _ => by
    show 0 < (m.fld .state).h c k
    rw [eh]; split_ifs <;> norm_num
  refine ⟨prm, m, fun _ => 1, p46t_run, by simp [p46t], by simp [p46t], p46t_layers,
    by simp [MeshParams.dims, p46t], by rw [e], by rw [e], by rw [e], by rw [e], by rw [e]; norm_num,
    by rw [e]; norm_num, hr, fun _ _ _ => one_pos, wet, ?_, sd, fun T hT => ⟨?_, fun n n0 stp => ?_⟩⟩
  · show (m.fld .state).h 1 0 ≠ 1
    rw [eh]; norm_num
  · exact C124_solution_for_all_times p46t_run (by simp [p46t]) (by simp [p46t]) one_pos (by rw [e]) (by rw [e])
      (by rw [e]) (by rw [e]) (by rw [e]; norm_num) hr (fun _ _ _ => one_pos) wet sd hT
  · obtain ⟨m1, he⟩ := run_exists p46t_run hr stp (List.replicate n ((0 : ℝ), T / n)) true
    refine ⟨_, m1, fun q hq => by rw [List.eq_of_mem_replicate hq], ?_, he⟩
    rw [List.length_replicate]
    exact mul_div_cancel₀ T (by exact_mod_cast n0.ne')

end Props
end
end Omega
