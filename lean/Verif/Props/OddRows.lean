import Mathlib.Analysis.SpecialFunctions.Trigonometric.Bounds
import Verif.Props.MeshGeometry
import Verif.Props.Operators
import Verif.Props.TestRuns

/-!
# C112: on a mesh with an odd number of rows the seam does not see variation along the rows

The cells of the first and of the last row are then stored at the same east coordinates, but the edge
tables connect them as if the rows were offset by half a cell.  `test/double_vortex.cpp` builds such a
mesh (29 rows).
-/

set_option linter.unusedVariables false

namespace Omega
noncomputable section

namespace Props

open Prog Model Refine Hex

variable {p : MeshParams} {dc : ℝ} {m : Mem ℝ}

theorem xC_even {nx i r : Int} (h0 : 0 ≤ i) (h1 : i < nx) (hr : r % 2 = 0) (dc : ℝ) :
    xC nx dc (cid nx i r) = dc * (i + 1 / 2) := by
  unfold xC
  rw [row_cid h0 h1, col_cid h0 h1, if_pos hr]
  simp; ring

theorem seam_range (hnx : 1 ≤ p.nx) (hny : 1 ≤ p.ny) {i : Int} (h0 : 0 ≤ i) (h1 : i < p.nx) :
    0 ≤ 3 * i + 1 ∧ 3 * i + 2 < 3 * (p.nx * p.ny) := by
  have : p.nx * 1 ≤ p.nx * p.ny := mul_le_mul_of_nonneg_left hny (by omega)
  omega

/-- differences across the two seam edges of cell `i` of the first row -/
theorem seam_gr (hodd : p.ny % 2 = 1) {i : Int} (h0 : 0 ≤ i) (h1 : i < p.nx)
    (φ : Int → ℝ) :
    Gr p.nx p.ny φ (3 * i + 1) = φ (cid p.nx i 0) - φ (cid p.nx i (p.ny - 1)) ∧
    Gr p.nx p.ny φ (3 * i + 2) = φ (cid p.nx i 0) - φ (cid p.nx (px p.nx i) (p.ny - 1)) := by
  have a1 : (3 * i + 1) / 3 = cid p.nx i 0 := by unfold cid; omega
  have a2 : (3 * i + 2) / 3 = cid p.nx i 0 := by unfold cid; omega
  have b1 : (3 * i + 1) % 3 = 1 := by omega
  have b2 : (3 * i + 2) % 3 = 2 := by omega
  have hm : mx p.ny (0 : Int) = p.ny - 1 := by simp [mx]
  have par : (p.ny - 1) % 2 = 0 := by omega
  have i4 : inv p.nx p.ny 4 (cid p.nx i 0) = cid p.nx i (p.ny - 1) := by
    rw [inv_cid h0 h1]; simp [inI, inR, hm, par]
  have i5 : inv p.nx p.ny 5 (cid p.nx i 0) = cid p.nx (px p.nx i) (p.ny - 1) := by
    rw [inv_cid h0 h1]; simp [inI, inR, hm, par]
  unfold Gr
  rw [coe_one, coe_zero, coe_one, coe_zero, a1, a2, b1, b2]
  exact ⟨by rw [← i4]; rfl, by rw [← i5]; rfl⟩

theorem Gr_congr {φ ψ : Int → ℝ} (hnx : 1 ≤ p.nx) {e : Int} (a : 0 ≤ e) (b : e < 3 * (p.nx * p.ny))
    (h : ∀ c, IsCell p.nx p.ny c → φ c = ψ c) : Gr p.nx p.ny φ e = Gr p.nx p.ny ψ e := by
  have hc : IsCell p.nx p.ny (e / 3) := ⟨by omega, by omega⟩
  unfold Gr
  rw [coe_one, coe_zero, h _ hc, h _ (inv_isCell hnx hc)]

/-- With an odd number of rows the gradient of any function of the east coordinate is zero on one seam
edge of each column; that edge has the east coordinate `dc (i + 1/4)` and its normal has an east
component of one half. -/
theorem C112_seam_blind (hv : MeshParams.Valid p) (hdc : 0 < dc) (hb : Built p dc m)
    (hodd : p.ny % 2 = 1) (φ : ℝ → ℝ) {i : Int} (h0 : 0 ≤ i) (h1 : i < p.nx) :
    ∃ e, 0 ≤ e ∧ e < p.dims.nedges ∧ m.real .x_edge 0 e 0 = dc * (i + 1 / 4) ∧
      Real.cos (m.real .angle_edge 0 e 0) = 1 / 2 ∧
      Spec.grad m (fun c => φ (m.real .x_cell 0 c 0)) e = 0 := by
  have hr := seam_range hv.nx_pos hv.ny_pos h0 h1
  have hm := hb.hex hv
  have e0 : (0 : Int) ≤ 3 * i + 1 := by omega
  have e1 : 3 * i + 1 < 3 * (p.nx * p.ny) := by omega
  have b1 : (3 * i + 1) % 3 = 1 := by omega
  have a1 : (3 * i + 1) / 3 = cid p.nx i 0 := by unfold cid; omega
  refine ⟨3 * i + 1, e0, e1, ?_, ?_, ?_⟩
  · rw [hm.x_edge _ e0 e1]
    unfold xE
    rw [b1, a1, xC_even h0 h1 (by norm_num)]
    simp; ring
  · rw [hm.angle_edge _ e0 e1, cos_angE, b1]; norm_num [DX]
  · rw [spec_grad (hb.geo hv hdc) _ e0 e1,
      Gr_congr hv.nx_pos e0 e1 (ψ := fun c => φ (xC p.nx dc c)) fun c hc => by rw [hm.x_cell c hc],
      (seam_gr hodd h0 h1 _).1]
    rw [xC_even h0 h1 (by norm_num), xC_even h0 h1 (by omega), sub_self, zero_div]

/-- The error of the gradient of one wave along the rows does not shrink with the resolution: on every
mesh with an odd number of rows there is an edge where it is at least `π |a| / (2 L)`. -/
theorem C112_gradient_error (hv : MeshParams.Valid p) (hdc : 0 < dc) (hb : Built p dc m)
    (hnx : 2 ≤ p.nx) (hodd : p.ny % 2 = 1) (H a : ℝ) {φ : ℝ → ℝ}
    (hφ : ∀ x, φ x = H + a * Real.sin (2 * Real.pi * x / periodX p.nx dc)) :
    ∃ e, 0 ≤ e ∧ e < p.dims.nedges ∧
      Real.pi * |a| / (2 * periodX p.nx dc) ≤
        |Spec.grad m (fun c => φ (m.real .x_cell 0 c 0)) e -
          deriv φ (m.real .x_edge 0 e 0) * Real.cos (m.real .angle_edge 0 e 0)| := by
  obtain ⟨e, e0, e1, hx, hc, hg⟩ := C112_seam_blind hv hdc hb hodd φ (i := 0) le_rfl (by omega)
  refine ⟨e, e0, e1, ?_⟩
  have hn : (2 : ℝ) ≤ p.nx := by exact_mod_cast hnx
  have hL : periodX p.nx dc = p.nx * dc := by simp [periodX]
  have hLp : 0 < periodX p.nx dc := by rw [hL]; positivity
  have hd : deriv φ (m.real .x_edge 0 e 0) = a * (Real.cos (2 * Real.pi * (m.real .x_edge 0 e 0) /
      periodX p.nx dc) * (2 * Real.pi / periodX p.nx dc)) := by
    have ef : φ = fun x => H + a * Real.sin (2 * Real.pi * x / periodX p.nx dc) := funext hφ
    rw [ef]
    have : HasDerivAt (fun x : ℝ => 2 * Real.pi * x / periodX p.nx dc)
        (2 * Real.pi / periodX p.nx dc) (m.real .x_edge 0 e 0) := by
      simpa using ((hasDerivAt_id _).const_mul (2 * Real.pi)).div_const (periodX p.nx dc)
    exact ((this.sin.const_mul a).const_add H).deriv
  rw [hg, hc, hd, hx]
  have harg : 2 * Real.pi * (dc * (((0 : Int) : ℝ) + 1 / 4)) / periodX p.nx dc =
      Real.pi / (2 * p.nx) := by
    rw [hL]; field_simp; norm_num
  rw [harg]
  have hcos : 1 / 2 ≤ Real.cos (Real.pi / (2 * p.nx)) := by
    rw [← Real.cos_pi_div_three]
    have hpi := Real.pi_pos
    refine Real.cos_le_cos_of_nonneg_of_le_pi (by positivity) (by linarith) ?_
    exact div_le_div_of_nonneg_left hpi.le (by norm_num) (by linarith)
  rw [zero_sub, abs_neg, abs_mul, abs_mul, abs_mul, abs_of_pos (by linarith : (0 : ℝ) <
    Real.cos (Real.pi / (2 * p.nx))), abs_of_pos (by positivity : 0 < 2 * Real.pi / periodX p.nx dc)]
  rw [abs_of_pos (by norm_num : (0 : ℝ) < 1 / 2)]
  have : Real.pi * |a| / (2 * periodX p.nx dc) =
      |a| * (1 / 2 * (2 * Real.pi / periodX p.nx dc)) * (1 / 2) := by field_simp
  rw [this]
  gcongr

/-- velocity tendency of a state at rest -/
theorem tend_rest (hv : RunValid p) {prm : Params ℝ} (hr : Ready p dc prm m) {sw : SWModel ℝ}
    (hn : sw.NoHook) (hen : sw.prm.disable_vn = false) (hs : sw.en_ssh = true) {split : Bool} {t : ℝ}
    {m1 : Mem ℝ}
    (he : Exec p.dims (compute_tendency p.dims ⟨defaultKernels p.dims.vl, split⟩ sw .replace .tend
      .state t) m m1)
    (hrest : ∀ e k, 0 ≤ e → e < p.dims.nedges → 0 ≤ k → k < p.dims.nlayers →
      m.real (.vn_edge .state) 0 e k = 0) {e k : Int} (a : 0 ≤ e) (b : e < p.dims.nedges)
    (k0 : 0 ≤ k) (k1 : k < p.dims.nlayers) :
    m1.real (.vn_edge .tend) 0 e k = -sw.prm.grav * Spec.grad m (fun i =>
      m.real (.h_cell .state) 0 i k) e := by
  obtain ⟨hd, hc⟩ := ready_ok hv hr
  have key := (tend_spec hd hc hn (by decide) he
    (x := ⟨(m.fld .state).h, fun _ _ => 0, (m.fld .state).tr⟩)
    ⟨fun _ _ _ _ _ _ => rfl, fun e k a b c d => hrest e k a b c d, fun _ _ _ _ _ _ _ _ _ => rfl⟩).2.1
    hen
  have hz : Spec.div m (fun _ => 0) = fun _ => 0 := by funext c; simp [Spec.div]
  have hzc : Spec.curl m (fun _ => 0) = fun _ => 0 := by funext c; simp [Spec.curl]
  have hzk : Spec.kinetic m (fun _ => 0) = fun _ => 0 := by funext c; simp [Spec.kinetic]
  have hzl : Spec.vecLap m (fun _ => 0) = fun _ => 0 := by
    funext c; simp [Spec.vecLap, hz, hzc, Spec.grad]
  rw [key e k a b k0 k1]
  simp only [Spec.velocityTend, hz, hzc, hzk, hzl, Spec.pvFlux, Spec.grad, Spec.gradT, mul_zero,
    zero_mul, Finset.sum_const_zero, sub_zero, zero_div, ite_self, zero_sub, add_zero, Mem.fld, hs,
    if_true]
  ring

/-- vorticity of a gradient at the upper left corner of a cell of the last row -/
theorem seam_curl (hv : MeshParams.Valid p) (hdc : 0 < dc)
    (h : Geo p.nx p.ny p.dims.nlayers dc m.mesh) (hodd : p.ny % 2 = 1) {i : Int} (h0 : 0 ≤ i)
    (h1 : i < p.nx) (f : Int → ℝ)
    (hf : f (cid p.nx i (p.ny - 1)) = f (cid p.nx i 0)) :
    Spec.curl m (Spec.grad m f) (2 * cid p.nx i (p.ny - 1)) =
      -(4 / (dc * √3)) * ((f (cid p.nx (px p.nx i) (p.ny - 1)) - 2 * f (cid p.nx i (p.ny - 1)) +
        f (cid p.nx (mx p.nx i) (p.ny - 1))) / dc) := by
  set A := cid p.nx i (p.ny - 1) with hA
  have hr := cid_range (nx := p.nx) (ny := p.ny) (i := i) (r := p.ny - 1) h0 h1
    (by have := hv.ny_pos; omega) (by omega)
  rw [← hA] at hr
  have g0 : (0 : Int) ≤ 2 * A := by omega
  have g1 : 2 * A < 2 * (p.nx * p.ny) := by omega
  have e : EqOn (3 * (p.nx * p.ny)) (Spec.grad m f) (Gr p.nx p.ny fun i => f i / dc) := by
    intro e a b
    rw [spec_grad h _ a b]; unfold Gr; ring
  rw [spec_curl h _ g0 g1, Cu_congr h.hnx e g0 g1]
  have hp : px p.ny (p.ny - 1) = 0 := by simp [px]
  have iB : inv p.nx p.ny 2 A = cid p.nx i 0 := by
    rw [hA, inv_cid h0 h1]; simp [inI, inR, hp]
  have i3 : inv p.nx p.ny 3 A = cid p.nx (mx p.nx i) (p.ny - 1) := by
    rw [hA, inv_cid h0 h1]; simp [inI, inR]
  have m0 : 2 * A % 2 = 0 := by omega
  have d0 : 2 * A / 2 = A := by omega
  have a0 : 3 * A / 3 = A := by omega
  have b0 : 3 * A % 3 = 0 := by omega
  have c0 : cid p.nx i 0 = i := by unfold cid; omega
  obtain ⟨s1, s2⟩ := seam_gr hodd h0 h1 (fun i => f i / dc)
  have s3 : Gr p.nx p.ny (fun i => f i / dc) (3 * A) =
      f A / dc - f (cid p.nx (mx p.nx i) (p.ny - 1)) / dc := by
    unfold Gr
    rw [coe_one, coe_zero, a0, b0, ← i3]; rfl
  unfold Cu Hex.eov
  rw [if_pos m0]
  simp only [m0, d0, if_true, iB]
  norm_num
  rw [c0] at s1 s2
  rw [c0] at hf
  rw [c0, s1, s2, s3, ← hA, hf]
  ring

/-- A layer at rest whose thickness depends on the east coordinate only: on one seam edge of each
column no pressure force acts, whatever the thickness, though the normal there is at sixty degrees to
the rows. -/
theorem C112_no_pressure (hv : RunValid p) (hdc : 0 < dc) {prm : Params ℝ} (hr : Ready p dc prm m)
    (hodd : p.ny % 2 = 1) {sw : SWModel ℝ} (hn : sw.NoHook) (hen : sw.prm.disable_vn = false)
    (hs : sw.en_ssh = true) {split : Bool} {t : ℝ} {m1 : Mem ℝ}
    (he : Exec p.dims (compute_tendency p.dims ⟨defaultKernels p.dims.vl, split⟩ sw .replace .tend
      .state t) m m1)
    (hrest : ∀ e k, 0 ≤ e → e < p.dims.nedges → 0 ≤ k → k < p.dims.nlayers →
      m.real (.vn_edge .state) 0 e k = 0) (φ : Int → ℝ → ℝ)
    (hh : ∀ c k, 0 ≤ c → c < p.dims.ncells → 0 ≤ k → k < p.dims.nlayers →
      m.real (.h_cell .state) 0 c k = φ k (m.real .x_cell 0 c 0)) {i : Int} (h0 : 0 ≤ i)
    (h1 : i < p.nx) :
    ∃ e, 0 ≤ e ∧ e < p.dims.nedges ∧ m.real .x_edge 0 e 0 = dc * (i + 1 / 4) ∧
      Real.cos (m.real .angle_edge 0 e 0) = 1 / 2 ∧
      ∀ k, 0 ≤ k → k < p.dims.nlayers → m1.real (.vn_edge .tend) 0 e k = 0 := by
  have hv' := hv.toValid
  have hrg := seam_range hv'.nx_pos hv'.ny_pos h0 h1
  have hm := (hr.hex hv').1
  have e0 : (0 : Int) ≤ 3 * i + 1 := by omega
  have e1 : 3 * i + 1 < 3 * (p.nx * p.ny) := by omega
  have b1 : (3 * i + 1) % 3 = 1 := by omega
  have a1 : (3 * i + 1) / 3 = cid p.nx i 0 := by unfold cid; omega
  refine ⟨3 * i + 1, e0, e1, ?_, ?_, fun k k0 k1 => ?_⟩
  · rw [hm.x_edge _ e0 e1]
    unfold xE
    rw [b1, a1, xC_even h0 h1 (by norm_num)]
    simp; ring
  · rw [hm.angle_edge _ e0 e1, cos_angE, b1]; norm_num [DX]
  · rw [tend_rest hv hr hn hen hs he hrest e0 e1 k0 k1, spec_grad (Ready.geo hr hv' hdc) _ e0 e1,
      Gr_congr hv'.nx_pos e0 e1 (ψ := fun c => φ k (xC p.nx dc c)) fun c hc => by
        rw [hh c k hc.1 hc.2 k0 k1, hm.x_cell c hc],
      (seam_gr hodd h0 h1 _).1]
    rw [xC_even h0 h1 (by norm_num), xC_even h0 h1 (by omega), sub_self, zero_div, mul_zero]

/-- Pressure alone makes vorticity at the seam: the vorticity tendency of a layer at rest with
thickness `φ` of the east coordinate (of the period of the domain) is the second difference of `φ`
times `4 g / √3`, where it should be zero. -/
theorem C112_spurious_vorticity (hv : RunValid p) (hdc : 0 < dc) {prm : Params ℝ}
    (hr : Ready p dc prm m) (hodd : p.ny % 2 = 1) {sw : SWModel ℝ} (hn : sw.NoHook)
    (hen : sw.prm.disable_vn = false) (hs : sw.en_ssh = true) {split : Bool} {t : ℝ} {m1 : Mem ℝ}
    (he : Exec p.dims (compute_tendency p.dims ⟨defaultKernels p.dims.vl, split⟩ sw .replace .tend
      .state t) m m1)
    (hrest : ∀ e k, 0 ≤ e → e < p.dims.nedges → 0 ≤ k → k < p.dims.nlayers →
      m.real (.vn_edge .state) 0 e k = 0) (φ : Int → ℝ → ℝ)
    (hper : ∀ k x, φ k (x + periodX p.nx dc) = φ k x)
    (hh : ∀ c k, 0 ≤ c → c < p.dims.ncells → 0 ≤ k → k < p.dims.nlayers →
      m.real (.h_cell .state) 0 c k = φ k (m.real .x_cell 0 c 0)) {i : Int} (h0 : 0 ≤ i)
    (h1 : i < p.nx) :
    ∃ v, 0 ≤ v ∧ v < p.dims.nvertices ∧ ∀ k, 0 ≤ k → k < p.dims.nlayers →
      Spec.curl m (fun e => m1.real (.vn_edge .tend) 0 e k) v =
        4 / √3 * sw.prm.grav * ((φ k (dc * (i + 1 / 2) + dc) - 2 * φ k (dc * (i + 1 / 2)) +
          φ k (dc * (i + 1 / 2) - dc)) / dc ^ 2) := by
  have hv' := hv.toValid
  have hm := (hr.hex hv').1
  have hg := Ready.geo hr hv' hdc
  have hx1 := hv'.nx_pos
  have hy1 := hv'.ny_pos
  have hrg := cid_range (nx := p.nx) (ny := p.ny) (i := i) (r := p.ny - 1) h0 h1
    (by omega) (by omega)
  have g0 : (0 : Int) ≤ 2 * cid p.nx i (p.ny - 1) := by omega
  have g1 : 2 * cid p.nx i (p.ny - 1) < 2 * (p.nx * p.ny) := by omega
  refine ⟨2 * cid p.nx i (p.ny - 1), g0, g1, fun k k0 k1 => ?_⟩
  have par : (p.ny - 1) % 2 = 0 := by omega
  have hL : periodX p.nx dc = p.nx * dc := by simp [periodX]
  have hP : ∀ j r, 0 ≤ j → j < p.nx → 0 ≤ r → r < p.ny → r % 2 = 0 →
      m.real (.h_cell .state) 0 (cid p.nx j r) k = φ k (dc * (j + 1 / 2)) := by
    intro j r j0 j1 r0 r1 hr2
    have hc := cid_range (nx := p.nx) (ny := p.ny) (i := j) (r := r) j0 j1 r0 r1
    rw [hh _ k hc.1 hc.2 k0 k1, hm.x_cell _ hc, xC_even j0 j1 hr2]
  have hu : EqOn (3 * (p.nx * p.ny)) (fun e => m1.real (.vn_edge .tend) 0 e k)
      (Spec.grad m fun i => -sw.prm.grav * m.real (.h_cell .state) 0 i k) := by
    intro e a b
    simp only
    rw [tend_rest hv hr hn hen hs he hrest a b k0 k1]
    unfold Spec.grad; ring
  have hc := seam_curl hv' hdc hg hodd h0 h1
    (fun i => -sw.prm.grav * m.real (.h_cell .state) 0 i k)
    (by beta_reduce; rw [hP i _ h0 h1 (by omega) (by omega) par, hP i 0 h0 h1 le_rfl (by omega) rfl])
  rw [spec_curl hg _ g0 g1] at hc ⊢
  rw [Cu_congr hg.hnx hu g0 g1, hc]
  have hpx : 0 ≤ px p.nx i ∧ px p.nx i < p.nx := by unfold px; split_ifs <;> omega
  have hmx : 0 ≤ mx p.nx i ∧ mx p.nx i < p.nx := by unfold mx; split_ifs <;> omega
  have ep : φ k (dc * ((px p.nx i : Int) + 1 / 2)) = φ k (dc * (i + 1 / 2) + dc) := by
    unfold px
    split_ifs with hi
    · rw [← hper k (dc * (((0 : Int) : ℝ) + 1 / 2)), hL]
      have : (i : ℝ) = p.nx - 1 := by
        have : i = p.nx - 1 := by omega
        rw [this]; push_cast; ring
      rw [this]; congr 1; push_cast; ring
    · congr 1; push_cast; ring
  have em : φ k (dc * ((mx p.nx i : Int) + 1 / 2)) = φ k (dc * (i + 1 / 2) - dc) := by
    unfold mx
    split_ifs with hi
    · rw [← hper k (dc * (i + 1 / 2) - dc), hL]
      have : (i : ℝ) = 0 := by exact_mod_cast (by omega : i = 0)
      rw [this]; congr 1; push_cast; ring
    · congr 1; push_cast; ring
  rw [hP _ _ hpx.1 hpx.2 (by omega) (by omega) par, hP _ _ hmx.1 hmx.2 (by omega) (by omega) par,
    hP _ _ h0 h1 (by omega) (by omega) par, ep, em]
  have := w_pos
  field_simp
  ring

/-- The spurious vorticity does not shrink with the resolution: for one wave along the rows of
amplitude `a` it grows somewhere at a rate of at least `32 g |a| / (√3 L²)`. -/
theorem C112_vorticity_bound (hv : RunValid p) (hdc : 0 < dc) {prm : Params ℝ}
    (hr : Ready p dc prm m) (hnx : 2 ≤ p.nx) (hodd : p.ny % 2 = 1) {sw : SWModel ℝ} (hn : sw.NoHook)
    (hen : sw.prm.disable_vn = false) (hs : sw.en_ssh = true) (hgr : 0 ≤ sw.prm.grav)
    {split : Bool} {t : ℝ} {m1 : Mem ℝ}
    (he : Exec p.dims (compute_tendency p.dims ⟨defaultKernels p.dims.vl, split⟩ sw .replace .tend
      .state t) m m1)
    (hrest : ∀ e k, 0 ≤ e → e < p.dims.nedges → 0 ≤ k → k < p.dims.nlayers →
      m.real (.vn_edge .state) 0 e k = 0) (H a : ℝ)
    (hh : ∀ c k, 0 ≤ c → c < p.dims.ncells → 0 ≤ k → k < p.dims.nlayers →
      m.real (.h_cell .state) 0 c k =
        H + a * Real.sin (2 * Real.pi * m.real .x_cell 0 c 0 / periodX p.nx dc)) :
    ∃ v, 0 ≤ v ∧ v < p.dims.nvertices ∧ ∀ k, 0 ≤ k → k < p.dims.nlayers →
      32 * sw.prm.grav * |a| / (√3 * periodX p.nx dc ^ 2) ≤
        |Spec.curl m (fun e => m1.real (.vn_edge .tend) 0 e k) v| := by
  have hL : periodX p.nx dc = p.nx * dc := by simp [periodX]
  have hn2 : (2 : ℝ) ≤ p.nx := by exact_mod_cast hnx
  have hLp : 0 < periodX p.nx dc := by rw [hL]; positivity
  set L := periodX p.nx dc with hLd
  have hpi := Real.pi_pos
  obtain ⟨v, v0, v1, hvort⟩ := C112_spurious_vorticity hv hdc hr hodd hn hen hs he hrest
    (fun _ x => H + a * Real.sin (2 * Real.pi * x / L))
    (fun k x => by
      rw [← hLd, mul_add, add_div, mul_div_cancel_right₀ _ hLp.ne', Real.sin_add_two_pi]) hh
    (i := p.nx / 4) (by omega) (by omega)
  refine ⟨v, v0, v1, fun k k0 k1 => ?_⟩
  rw [hvort k k0 k1]
  set i := p.nx / 4 with hi
  set θ := 2 * Real.pi * (dc * (i + 1 / 2)) / L with hθ
  set δ := Real.pi / p.nx with hδ
  have e1 : 2 * Real.pi * (dc * (i + 1 / 2) + dc) / L = θ + 2 * δ := by
    rw [hθ, hδ, hL]; field_simp
  have e2 : 2 * Real.pi * (dc * (i + 1 / 2) - dc) / L = θ - 2 * δ := by
    rw [hθ, hδ, hL]; field_simp
  have hd2 : (H + a * Real.sin (θ + 2 * δ)) - 2 * (H + a * Real.sin θ) + (H + a * Real.sin (θ - 2 * δ))
      = -(4 * a * Real.sin δ ^ 2 * Real.sin θ) := by
    rw [Real.sin_add, Real.sin_sub, Real.cos_two_mul, Real.cos_sq']; ring
  rw [e1, e2, hd2]
  have hsδ : 2 / p.nx ≤ Real.sin δ := by
    have h := Real.mul_le_sin (x := δ) (by positivity) (by
      rw [hδ]; exact div_le_div_of_nonneg_left hpi.le (by norm_num) hn2)
    have e : 2 / Real.pi * δ = 2 / p.nx := by rw [hδ]; field_simp
    rwa [e] at h
  have hsθ : 1 / 2 ≤ Real.sin θ := by
    have hq : Real.sin θ = Real.cos (Real.pi * (4 * i + 2 - p.nx) / (2 * p.nx)) := by
      rw [← Real.cos_sub_pi_div_two]
      congr 1
      rw [hθ, hL]; field_simp; ring
    have hb : |Real.pi * (4 * i + 2 - p.nx) / (2 * p.nx)| ≤ Real.pi / 3 := by
      rw [abs_div, abs_mul, abs_of_pos hpi, abs_of_pos (by positivity : (0 : ℝ) < 2 * p.nx),
        div_le_div_iff₀ (by positivity) (by norm_num)]
      have : |(4 * (i : ℝ) + 2 - p.nx)| * 3 ≤ 2 * p.nx := by
        have h1 : |4 * i + 2 - p.nx| * 3 ≤ 2 * p.nx := by
          rcases abs_cases (4 * i + 2 - p.nx) with h | h <;> omega
        exact_mod_cast h1
      nlinarith
    rw [hq, ← Real.cos_abs, ← Real.cos_pi_div_three]
    exact Real.cos_le_cos_of_nonneg_of_le_pi (abs_nonneg _) (by linarith) hb
  have hs0 : 0 < Real.sin δ := lt_of_lt_of_le (by positivity) hsδ
  have hw := w_pos
  rw [abs_mul, abs_div, abs_neg, abs_mul, abs_mul, abs_mul, abs_mul]
  rw [abs_of_nonneg hgr, abs_of_pos (by positivity : (0 : ℝ) < 4 / √3),
    abs_of_pos (by positivity : (0 : ℝ) < dc ^ 2), abs_of_pos (by positivity : 0 < Real.sin δ ^ 2),
    abs_of_pos (by linarith : 0 < Real.sin θ), abs_of_pos (by norm_num : (0 : ℝ) < 4)]
  have hsq : (2 / (p.nx : ℝ)) ^ 2 ≤ Real.sin δ ^ 2 := pow_le_pow_left₀ (by positivity) hsδ 2
  calc 32 * sw.prm.grav * |a| / (√3 * L ^ 2)
      = 4 / √3 * sw.prm.grav * (4 * |a| * (2 / (p.nx : ℝ)) ^ 2 * (1 / 2) / dc ^ 2) := by
        rw [hL]; field_simp; ring
    _ ≤ _ := by gcongr

/-- The mesh of the double vortex test (29 rows of 25 cells): a layer at rest with a wave in the
thickness, with the parameters of the test. -/
example : ∃ m m1 : Mem ℝ, Ready pVortex 200000 prmVortex m ∧ 2 ≤ pVortex.nx ∧ pVortex.ny % 2 = 1 ∧
    (SWModel.ofParams prmVortex).en_ssh = true ∧
    (SWModel.ofParams prmVortex).prm.disable_vn = false ∧
    Exec pVortex.dims (compute_tendency pVortex.dims ⟨defaultKernels pVortex.dims.vl, false⟩
      (SWModel.ofParams prmVortex) .replace .tend .state 0) m m1 ∧
    (∀ e k, m.real (.vn_edge .state) 0 e k = 0) ∧
    ∀ c k, 0 ≤ c → c < pVortex.dims.ncells → m.real (.h_cell .state) 0 c k =
      1 + 1 / 10 * Real.sin (2 * Real.pi * m.real .x_cell 0 c 0 / periodX pVortex.nx 200000) := by
  have hv := pVortex_valid
  obtain ⟨m, m1, hr, -, -, hx, he⟩ := exists_tendency hv 200000 prmVortex (noHook_ofParams prmVortex)
    false .replace 0 ⟨fun c _ => 1 + 1 / 10 * Real.sin (2 * Real.pi * xC pVortex.nx 200000 c /
      periodX pVortex.nx 200000), fun _ _ => 0, fun _ _ _ => 0⟩
  refine ⟨m, m1, hr, by decide, by decide, rfl, rfl, he, fun e k => ?_, fun c k c0 c1 => ?_⟩
  · exact congrFun (congrFun (congrArg Fld.vn hx) e) k
  · rw [(hr.hex hv.toValid).1.x_cell c ⟨c0, c1⟩]
    exact congrFun (congrFun (congrArg Fld.h hx) c) k

end Props
end
end Omega
