import Verif.Props.Frozen
import Verif.Props.Cases
import Verif.Lib.Spectral

/-!
# C61, C62: explicit steps of tracer diffusion

With the flow prescribed and at rest: a one-stage step below the diffusive limit keeps concentrations
within their bounds, and the steps of every stepper below its limit do not increase the variance.
-/

set_option linter.unusedVariables false
set_option linter.unusedSectionVars false

namespace Omega
noncomputable section

namespace Hex

open Finset Refine

variable {nx ny : Int}

/-- cell on the other side of side `j` -/
def across (nx ny c j : Int) : Int := if j < 3 then inv nx ny (j + 3) c else nb nx ny j c

theorem across_isCell (hnx : 1 ≤ nx) {c : Int} (hc : IsCell nx ny c) (j : Int) :
    IsCell nx ny (across nx ny c j) := by
  unfold across
  split_ifs
  · exact inv_isCell hnx hc
  · exact nb_isCell hnx hc

theorem coe_across_lo {c j : Int} (h0 : 0 ≤ j) (h3 : j < 3) :
    coe nx ny (E nx ny c j) 1 = c ∧ coe nx ny (E nx ny c j) 0 = across nx ny c j := by
  rw [coe_one, coe_zero, E_div_lo h0 h3, E_mod h0 (by omega)]
  refine ⟨rfl, ?_⟩
  unfold across
  rw [if_pos h3, show j % 3 = j by omega]

theorem coe_across_hi (hnx : 1 ≤ nx) {c j : Int} (hc : IsCell nx ny c) (h3 : 3 ≤ j) (h6 : j < 6) :
    coe nx ny (E nx ny c j) 1 = across nx ny c j ∧ coe nx ny (E nx ny c j) 0 = c := by
  rw [coe_one, coe_zero, E_div_hi h3 h6, E_mod (by omega) h6, show j % 3 + 3 = j by omega,
    inv_nb hnx hc]
  refine ⟨?_, rfl⟩
  unfold across
  rw [if_neg (by omega)]

/-- The divergence of a weighted gradient: differences to the six neighbours. -/
theorem Dv_Gr (hnx : 1 ≤ nx) (w φ : Int → ℝ) {c : Int} (hc : IsCell nx ny c) :
    Dv nx ny (fun e => w e * Gr nx ny φ e) c =
      ∑ j ∈ Finset.range 6, w (E nx ny c j) * (φ (across nx ny c j) - φ c) := by
  have lo := fun j a b => coe_across_lo (nx := nx) (ny := ny) (c := c) (j := j) a b
  have hi := fun j a b => coe_across_hi hnx hc (j := j) a b
  simp only [Finset.sum_range_succ, Finset.sum_range_zero, zero_add, Dv, Gr, Nat.cast_zero,
    Nat.cast_one, Nat.cast_ofNat]
  rw [(lo 0 (by omega) (by omega)).1, (lo 0 (by omega) (by omega)).2,
    (lo 1 (by omega) (by omega)).1, (lo 1 (by omega) (by omega)).2,
    (lo 2 (by omega) (by omega)).1, (lo 2 (by omega) (by omega)).2,
    (hi 3 (by omega) (by omega)).1, (hi 3 (by omega) (by omega)).2,
    (hi 4 (by omega) (by omega)).1, (hi 4 (by omega) (by omega)).2,
    (hi 5 (by omega) (by omega)).1, (hi 5 (by omega) (by omega)).2]
  ring

theorem Mn_E (hnx : 1 ≤ nx) (φ : Int → ℝ) {c : Int} (hc : IsCell nx ny c) {j : Int} (h0 : 0 ≤ j)
    (h6 : j < 6) : Mn nx ny φ (E nx ny c j) = (φ c + φ (across nx ny c j)) / 2 := by
  unfold Mn
  rcases lt_or_ge j 3 with h | h
  · rw [(coe_across_lo h0 h).1, (coe_across_lo h0 h).2]; ring
  · rw [(coe_across_hi hnx hc h h6).1, (coe_across_hi hnx hc h h6).2]

/-- every edge ends in two vertices -/
theorem sum_spokes (hnx : 1 ≤ nx) (g : Int → ℝ) :
    ∑ v ∈ upto (2 * (nx * ny)), (g (eov nx ny v 0) + g (eov nx ny v 1) + g (eov nx ny v 2)) =
      2 * ∑ e ∈ upto (3 * (nx * ny)), g e := by
  rw [sum_two, sum_three]
  have e : ∀ c : Int, g (eov nx ny (2 * c) 0) + g (eov nx ny (2 * c) 1) + g (eov nx ny (2 * c) 2) +
      (g (eov nx ny (2 * c + 1) 0) + g (eov nx ny (2 * c + 1) 1) + g (eov nx ny (2 * c + 1) 2)) =
      g (3 * c) + g (3 * inv nx ny 2 c + 2) + g (3 * inv nx ny 2 c + 1) +
      (g (3 * c) + g (3 * inv nx ny 3 c + 2) + g (3 * c + 1)) := fun c => by
    have h4 : (2 * c + 1) / 2 = c := by omega
    simp [eov, h4]
  rw [Finset.sum_congr rfl fun c _ => e c]
  simp only [Finset.sum_add_distrib]
  rw [sum_inv hnx 2 fun c => g (3 * c + 2), sum_inv hnx 2 fun c => g (3 * c + 1),
    sum_inv hnx 3 fun c => g (3 * c + 2)]
  ring

/-- every cell has six vertices -/
theorem sum_corners (hnx : 1 ≤ nx) (g : Int → ℝ) :
    ∑ v ∈ upto (2 * (nx * ny)), (g (cov nx ny v 0) + g (cov nx ny v 1) + g (cov nx ny v 2)) =
      6 * ∑ c ∈ upto (nx * ny), g c := by
  rw [sum_two]
  have e : ∀ c : Int, g (cov nx ny (2 * c) 0) + g (cov nx ny (2 * c) 1) + g (cov nx ny (2 * c) 2) +
      (g (cov nx ny (2 * c + 1) 0) + g (cov nx ny (2 * c + 1) 1) + g (cov nx ny (2 * c + 1) 2)) =
      g c + g (inv nx ny 2 c) + g (inv nx ny 3 c) +
      (g (inv nx ny 3 c) + g (inv nx ny 4 c) + g c) := fun c => by
    have h4 : (2 * c + 1) / 2 = c := by omega
    simp [cov, h4]
  rw [Finset.sum_congr rfl fun c _ => e c]
  simp only [Finset.sum_add_distrib]
  rw [sum_inv hnx 2, sum_inv hnx 3, sum_inv hnx 4]
  ring

/-- The largest eigenvalue of the lattice Laplacian is nine. -/
theorem Gr_sq_le (hnx : 1 ≤ nx) (hny : ny % 2 = 0) (φ : Int → ℝ) :
    ∑ e ∈ upto (3 * (nx * ny)), Gr nx ny φ e ^ 2 ≤ 9 * ∑ c ∈ upto (nx * ny), φ c ^ 2 := by
  have h1 := sum_spokes (ny := ny) hnx fun e => Gr nx ny φ e ^ 2
  have h2 := sum_corners (ny := ny) hnx fun c => φ c ^ 2
  have h3 : ∑ v ∈ upto (2 * (nx * ny)), (Gr nx ny φ (eov nx ny v 0) ^ 2 +
      Gr nx ny φ (eov nx ny v 1) ^ 2 + Gr nx ny φ (eov nx ny v 2) ^ 2) ≤
      3 * ∑ v ∈ upto (2 * (nx * ny)), (φ (cov nx ny v 0) ^ 2 + φ (cov nx ny v 1) ^ 2 +
        φ (cov nx ny v 2) ^ 2) := by
    rw [Finset.mul_sum]
    refine Finset.sum_le_sum fun v hv => ?_
    obtain ⟨a, b⟩ := Finset.mem_Ico.1 hv
    have hv := isCell_vertex a b
    by_cases hp : v % 2 = 0
    · obtain ⟨A, B, C, _, _, _, v0, v1, v2, e0, _, e1, _, e2, _, c0, c1, c2⟩ :=
        even_vertex hnx hny hv hp
      rw [e0, e1, e2, Gr_lo φ (by omega) (by omega), Gr_lo φ (by omega) (by omega),
        Gr_lo φ (by omega) (by omega), c0, c1, c2, v0, v1, v2]
      nlinarith [sq_nonneg (φ A + φ B + φ C)]
    · obtain ⟨A, B, C, _, _, _, v2, v0, v1, e0, _, e1, _, e2, _, c0, c1, c2⟩ :=
        odd_vertex hnx hny hv hp
      rw [e0, e1, e2, Gr_lo φ (by omega) (by omega), Gr_lo φ (by omega) (by omega),
        Gr_lo φ (by omega) (by omega), c0, c1, c2, v0, v1, v2]
      nlinarith [sq_nonneg (φ A + φ B + φ C)]
  linarith

end Hex

namespace Props

open Prog Model Refine Hex Polynomial

variable {p : MeshParams} {dc : ℝ} {m : Mem ℝ}

/-- The squared gradient is bounded by `6 / dc²` times the square. -/
theorem grad_sq_le (h : Geo p.nx p.ny p.dims.nlayers dc m.mesh) (hny : p.ny % 2 = 0) (φ : Int → ℝ) :
    ∑ e ∈ Spec.edges p.dims, Spec.dcE m e * Spec.dvE m e * Spec.grad m φ e ^ 2 ≤
      6 / dc ^ 2 * ∑ c ∈ Spec.cells p.dims, Spec.areaC m c * φ c ^ 2 := by
  have := h.dc_pos
  have l : ∑ e ∈ Spec.edges p.dims, Spec.dcE m e * Spec.dvE m e * Spec.grad m φ e ^ 2 =
      √3 / 3 * ∑ e ∈ upto (3 * (p.nx * p.ny)), Gr p.nx p.ny φ e ^ 2 := by
    rw [Finset.mul_sum]
    refine Finset.sum_congr rfl fun e he => ?_
    obtain ⟨a, b⟩ := Finset.mem_Ico.1 he
    rw [spec_dcE h a b, spec_dvE h a b, spec_grad h φ a b]
    field_simp
  have r : 6 / dc ^ 2 * ∑ c ∈ Spec.cells p.dims, Spec.areaC m c * φ c ^ 2 =
      √3 / 3 * (9 * ∑ c ∈ upto (p.nx * p.ny), φ c ^ 2) := by
    rw [Finset.mul_sum, Finset.mul_sum, Finset.mul_sum]
    refine Finset.sum_congr rfl fun c hc => ?_
    rw [spec_areaC h (Finset.mem_Ico.1 hc)]
    field_simp
    ring
  rw [l, r]
  exact mul_le_mul_of_nonneg_left (Gr_sq_le h.hnx hny φ) (by positivity)

/-! ### C61: bounds -/

theorem stabPoly_euler : stabPoly (.lsrk 1) = 1 + X := by
  simp [stabPoly, lsrkCoef, nth, List.range_succ]

/-- The tracer tendency of a layer at rest. -/
theorem trOp_rest (h : Geo2 p.nx p.ny p.dims.nlayers dc m.mesh) (hc : ConnOK p.dims m)
    (sw : SWModel ℝ) (x u s : Int → ℝ)
    (hu : ∀ e, 0 ≤ e → e < p.dims.nedges → u e = 0) {k c : Int} (k0 : 0 ≤ k)
    (k1 : k < p.dims.nlayers) (c0 : 0 ≤ c) (c1 : c < p.dims.ncells) :
    trOp m sw x u s c = (if sw.en_tdiff then sw.prm.eddy_diff2 else 0) *
        Spec.div m (fun e => Spec.mean m x e * Spec.grad m (fun i => s i / x i) e) c -
      (if sw.en_thyper then sw.prm.eddy_diff4 else 0) * Spec.div m (Spec.grad m
        (Spec.div m fun e => Spec.mean m x e * Spec.grad m (fun i => s i / x i) e)) c := by
  have e1 : Spec.div m (fun e => Spec.mean m x e * Spec.mean m (fun i => s i / x i) e * u e) c =
      0 := by
    rw [← div_zero' (m := m) c]
    exact div_congr hc (fun e a b => by rw [hu e a b, mul_zero]) c0 c1
  have e2 : Spec.div m (fun e => m.real .mesh_scaling_del2 0 e 0 * Spec.mean m x e *
      Spec.grad m (fun i => s i / x i) e) c =
      Spec.div m (fun e => Spec.mean m x e * Spec.grad m (fun i => s i / x i) e) c :=
    div_congr hc (fun e a b => by rw [(mask_one h.toGeo a b k0 k1).2.1, one_mul]) c0 c1
  have e3 : Spec.div m (fun e => m.real .mesh_scaling_del4 0 e 0 * Spec.grad m
        (Spec.div m fun e => Spec.mean m x e * Spec.grad m (fun i => s i / x i) e) e) c =
      Spec.div m (Spec.grad m
        (Spec.div m fun e => Spec.mean m x e * Spec.grad m (fun i => s i / x i) e)) c :=
    div_congr hc (fun e a b => by rw [(mask_one h.toGeo a b k0 k1).2.2, one_mul]) c0 c1
  show Spec.tracerTend m sw x u s c = _
  unfold Spec.tracerTend
  rw [e1, e2, e3]
  split_ifs <;> ring

/-- The tracer tendency of a layer at rest without hyperdiffusion. -/
theorem trOp_diff (h : Geo2 p.nx p.ny p.dims.nlayers dc m.mesh) (hc : ConnOK p.dims m)
    {sw : SWModel ℝ} (h4 : sw.en_thyper = false) (x u s : Int → ℝ)
    (hu : ∀ e, 0 ≤ e → e < p.dims.nedges → u e = 0) {k c : Int} (k0 : 0 ≤ k)
    (k1 : k < p.dims.nlayers) (c0 : 0 ≤ c) (c1 : c < p.dims.ncells) :
    trOp m sw x u s c = (if sw.en_tdiff then sw.prm.eddy_diff2 else 0) *
      Spec.div m (fun e => Spec.mean m x e * Spec.grad m (fun i => s i / x i) e) c := by
  rw [trOp_rest h hc sw x u s hu k0 k1 c0 c1, if_neg (show ¬ sw.en_thyper = true by simp [h4])]
  ring

/-- weights and concentrations of the six neighbours -/
theorem diff_nbrs (h : Geo2 p.nx p.ny p.dims.nlayers dc m.mesh) (x q : Int → ℝ) {c : Int}
    (hc : IsCell p.nx p.ny c) :
    Spec.div m (fun e => Spec.mean m x e * Spec.grad m q e) c = 2 / (3 * dc ^ 2) *
      ∑ j ∈ Finset.range 6, (x c + x (across p.nx p.ny c j)) / 2 *
        (q (across p.nx p.ny c j) - q c) := by
  have hd := h.dc_pos
  have e : EqOn (3 * (p.nx * p.ny)) (fun e => Spec.mean m x e * Spec.grad m q e)
      (fun e => (Mn p.nx p.ny x e / dc) * Gr p.nx p.ny q e) := fun e a b => by
    show Spec.mean m x e * Spec.grad m q e = _
    rw [spec_mean h.toGeo x a b, spec_grad h.toGeo q a b]; ring
  rw [spec_div h _ hc, Dv_congr h.hnx e hc, Dv_Gr h.hnx _ _ hc, Finset.mul_sum, Finset.mul_sum]
  refine Finset.sum_congr rfl fun j hj => ?_
  rw [Mn_E h.hnx x hc (by positivity) (by have := Finset.mem_range.1 hj; omega)]
  field_simp

/-- One Euler step keeps concentrations between their bounds. -/
theorem euler_bounds (h : Geo2 p.nx p.ny p.dims.nlayers dc m.mesh) (hc : ConnOK p.dims m)
    {sw : SWModel ℝ} (h4 : sw.en_thyper = false) (h2 : 0 ≤ sw.prm.eddy_diff2) {x u : Int → ℝ}
    (hu : ∀ e, 0 ≤ e → e < p.dims.nedges → u e = 0) {k : Int} (k0 : 0 ≤ k)
    (k1 : k < p.dims.nlayers) {hlo hhi dt : ℝ} (hl : 0 < hlo)
    (hx : ∀ c, 0 ≤ c → c < p.dims.ncells → hlo ≤ x c ∧ x c ≤ hhi) (hdt : 0 ≤ dt)
    (hcfl : 4 * sw.prm.eddy_diff2 * dt * hhi ≤ hlo * dc ^ 2) {lo hi : ℝ} {f : Int → ℝ}
    (hf : ∀ c, 0 ≤ c → c < p.dims.ncells → lo * x c ≤ f c ∧ f c ≤ hi * x c) {c : Int} (c0 : 0 ≤ c)
    (c1 : c < p.dims.ncells) :
    lo * x c ≤ f c + dt * trOp m sw x u f c ∧ f c + dt * trOp m sw x u f c ≤ hi * x c := by
  have hd := h.dc_pos
  have hcell : IsCell p.nx p.ny c := ⟨c0, c1⟩
  rw [trOp_diff h hc h4 x u f hu k0 k1 c0 c1, diff_nbrs h x _ hcell]
  set κ := if sw.en_tdiff then sw.prm.eddy_diff2 else 0 with hκ
  have κ0 : 0 ≤ κ := by rw [hκ]; split_ifs <;> simp [h2]
  have κ1 : κ ≤ sw.prm.eddy_diff2 := by rw [hκ]; split_ifs <;> simp [h2]
  set α : ℕ → ℝ := fun j => dt * κ * (2 / (3 * dc ^ 2)) * ((x c + x (across p.nx p.ny c j)) / 2)
    with hα
  have hA : ∀ j : ℕ, IsCell p.nx p.ny (across p.nx p.ny c j) := fun j => across_isCell h.hnx hcell j
  have hα0 : ∀ j, 0 ≤ α j := fun j => by
    have a := (hx c c0 c1).1
    have b := (hx _ (hA j).1 (hA j).2).1
    have : 0 ≤ x c + x (across p.nx p.ny c j) := by linarith
    rw [hα]; positivity
  have hαs : ∑ j ∈ Finset.range 6, α j ≤ x c := by
    have hm : ∀ j ∈ Finset.range 6, α j ≤ dt * κ * (2 / (3 * dc ^ 2)) * hhi := fun j _ => by
      have a := (hx c c0 c1).2
      have b := (hx _ (hA j).1 (hA j).2).2
      rw [hα]
      refine mul_le_mul_of_nonneg_left (by linarith) (by positivity)
    have := Finset.sum_le_card_nsmul _ _ _ hm
    rw [Finset.card_range, nsmul_eq_mul] at this
    refine this.trans ((?_ : _ ≤ hlo).trans (hx c c0 c1).1)
    have hh : 0 ≤ hhi := hl.le.trans ((hx c c0 c1).1.trans (hx c c0 c1).2)
    have e : ((6 : ℕ) : ℝ) * (dt * κ * (2 / (3 * dc ^ 2)) * hhi) = 4 * κ * dt * hhi / dc ^ 2 := by
      push_cast; field_simp; ring
    rw [e, div_le_iff₀ (by positivity)]
    refine le_trans ?_ hcfl
    have : 4 * κ ≤ 4 * sw.prm.eddy_diff2 := by linarith
    gcongr
  have hxc : 0 < x c := hl.trans_le (hx c c0 c1).1
  set q := f c / x c with hq
  have hfq : f c = x c * q := by rw [hq]; field_simp
  have q0 : lo ≤ q := by rw [hq, le_div_iff₀ hxc]; exact (hf c c0 c1).1
  have q1 : q ≤ hi := by rw [hq, div_le_iff₀ hxc]; exact (hf c c0 c1).2
  have qn : ∀ j : ℕ, lo ≤ f (across p.nx p.ny c j) / x (across p.nx p.ny c j) ∧
      f (across p.nx p.ny c j) / x (across p.nx p.ny c j) ≤ hi := fun j => by
    have a := hf _ (hA j).1 (hA j).2
    have b := hl.trans_le (hx _ (hA j).1 (hA j).2).1
    exact ⟨by rw [le_div_iff₀ b]; exact a.1, by rw [div_le_iff₀ b]; exact a.2⟩
  have e : f c + dt * (κ * (2 / (3 * dc ^ 2) * ∑ j ∈ Finset.range 6,
      (x c + x (across p.nx p.ny c j)) / 2 * (f (across p.nx p.ny c j) /
        x (across p.nx p.ny c j) - q))) = x c * q + ∑ j ∈ Finset.range 6, α j *
        (f (across p.nx p.ny c j) / x (across p.nx p.ny c j) - q) := by
    rw [hfq]
    congr 1
    rw [Finset.mul_sum, Finset.mul_sum, Finset.mul_sum]
    exact Finset.sum_congr rfl fun j _ => by rw [hα]; ring
  rw [e]
  have up : ∑ j ∈ Finset.range 6, α j * (f (across p.nx p.ny c j) / x (across p.nx p.ny c j) - q) ≤
      (∑ j ∈ Finset.range 6, α j) * (hi - q) := by
    rw [Finset.sum_mul]
    exact Finset.sum_le_sum fun j _ => mul_le_mul_of_nonneg_left (by linarith [(qn j).2]) (hα0 j)
  have dn : (∑ j ∈ Finset.range 6, α j) * (lo - q) ≤
      ∑ j ∈ Finset.range 6, α j * (f (across p.nx p.ny c j) / x (across p.nx p.ny c j) - q) := by
    rw [Finset.sum_mul]
    exact Finset.sum_le_sum fun j _ => mul_le_mul_of_nonneg_left (by linarith [(qn j).1]) (hα0 j)
  have u2 := mul_le_mul_of_nonneg_right hαs (sub_nonneg.2 q1)
  have d2 := mul_le_mul_of_nonneg_right hαs (sub_nonneg.2 q0)
  constructor <;> nlinarith

/-- Explicit Euler steps of tracer diffusion in a prescribed flow at rest: if every step satisfies
`4 κ dt hhi ≤ hlo dc²`, where thickness lies between `hlo` and `hhi`, then a concentration that lies
between two bounds stays between them. -/
theorem C61_maximum_principle (hv : RunValid p) (hx : 2 ≤ p.nx) (hy : 2 ≤ p.ny) (hdc : 0 < dc)
    {prm : Params ℝ} (hr : Ready p dc prm m) {sw : SWModel ℝ} (hn : sw.NoHook)
    (h5 : sw.prm.disable_h = true) (h6 : sw.prm.disable_vn = true) (h4 : sw.en_thyper = false)
    (h2 : 0 ≤ sw.prm.eddy_diff2) {l k : Int} (l0 : 0 ≤ l) (l1 : l < p.dims.ntracers) (k0 : 0 ≤ k)
    (k1 : k < p.dims.nlayers)
    (hu : ∀ e, 0 ≤ e → e < p.dims.nedges → m.real (.vn_edge .state) 0 e k = 0)
    {hlo hhi : ℝ} (hl : 0 < hlo)
    (hh : ∀ c, 0 ≤ c → c < p.dims.ncells →
      hlo ≤ m.real (.h_cell .state) 0 c k ∧ m.real (.h_cell .state) 0 c k ≤ hhi)
    {sched : List (ℝ × ℝ)}
    (hs : ∀ q ∈ sched, 0 ≤ q.2 ∧ 4 * sw.prm.eddy_diff2 * q.2 * hhi ≤ hlo * dc ^ 2)
    {split : Bool} {m1 : Mem ℝ}
    (he : Exec p.dims ((Stepper.lsrk 1).ctor p.dims ++
      (Stepper.lsrk 1).run p.dims ⟨defaultKernels p.dims.vl, split⟩ sw sched) m m1) {lo hi : ℝ}
    (hq : ∀ c, 0 ≤ c → c < p.dims.ncells →
      lo * m.real (.h_cell .state) 0 c k ≤ m.real (.tr_cell .state) l c k ∧
        m.real (.tr_cell .state) l c k ≤ hi * m.real (.h_cell .state) 0 c k) :
    ∀ c, 0 ≤ c → c < p.dims.ncells →
      lo * m1.real (.h_cell .state) 0 c k ≤ m1.real (.tr_cell .state) l c k ∧
        m1.real (.tr_cell .state) l c k ≤ hi * m1.real (.h_cell .state) 0 c k := by
  obtain ⟨hd, hc⟩ := ready_ok hv hr
  have g := Ready.geo2 hr hv.toValid hx hy hdc
  obtain ⟨r1, -, r3⟩ := frozen_exec h5 h6 hd hc hn he
  have key : ∀ (L : List (ℝ × ℝ)) (f : Int → ℝ),
      (∀ q ∈ L, 0 ≤ q.2 ∧ 4 * sw.prm.eddy_diff2 * q.2 * hhi ≤ hlo * dc ^ 2) →
      (∀ c, 0 ≤ c → c < p.dims.ncells → lo * m.real (.h_cell .state) 0 c k ≤ f c ∧
        f c ≤ hi * m.real (.h_cell .state) 0 c k) →
      ∀ c, 0 ≤ c → c < p.dims.ncells → lo * m.real (.h_cell .state) 0 c k ≤
        L.foldl (fun f q => aeval (q.2 • trOp m sw (fun i => m.real (.h_cell .state) 0 i k)
          (fun i => m.real (.vn_edge .state) 0 i k)) (stabPoly (.lsrk 1)) f) f c ∧
        L.foldl (fun f q => aeval (q.2 • trOp m sw (fun i => m.real (.h_cell .state) 0 i k)
          (fun i => m.real (.vn_edge .state) 0 i k)) (stabPoly (.lsrk 1)) f) f c ≤
            hi * m.real (.h_cell .state) 0 c k := by
    intro L
    induction L with
    | nil => exact fun f _ h => h
    | cons a L ih =>
      intro f ha hf
      refine ih _ (fun q hq => ha q (List.mem_cons_of_mem _ hq)) fun c c0 c1 => ?_
      obtain ⟨a0, a1⟩ := ha a List.mem_cons_self
      have := euler_bounds g hc h4 h2 hu k0 k1 hl hh a0 a1 hf c0 c1
      beta_reduce
      rw [stabPoly_euler, map_add, map_one, aeval_X]
      exact this
  intro c c0 c1
  rw [r1 c k c0 c1 k0 k1, r3 l c k l0 l1 c0 c1 k0 k1]
  exact key sched _ hs hq c c0 c1

/-! ### C62: variance -/

/-- The polynomial of the five-stage stepper. -/
theorem lsrk5_eval : ∃ c1 c2 c3 c4 c5 : ℝ, |c1 - 1| ≤ 1 / 10 ^ 20 ∧ |c2 - 1 / 2| ≤ 1 / 10 ^ 20 ∧
    |c3 - 1 / 6| ≤ 1 / 10 ^ 20 ∧ |c4 - 1 / 24| ≤ 1 / 10 ^ 20 ∧ |c5 - 1 / 200| ≤ 1 / 10 ^ 20 ∧
    ∀ z : ℝ, (stabPoly (.lsrk 5)).eval z =
      1 + c1 * z + c2 * z ^ 2 + c3 * z ^ 3 + c4 * z ^ 4 + c5 * z ^ 5 := by
  refine ⟨487008660162107983243531963927794614786124976493756103226773268384381431011868958065256220753577851381438157871 /
      487008660162107983243531945846334722919246035726344620819197335002693327287302773452796424781050286605486137430,
    487008660162107983243531993503716489863005431397535006241563813654818319162462411589212767680715046543072735841 /
      974017320324215966487063891692669445838492071452689241638394670005386654574605546905592849562100573210972274860,
    147578381867305449467736979188946538565303062939970620088702157096431647741727317142919794755740580072310629303 /
      885470291203832696806421719720608587125901883138808401489449700004896958704186860823266226874636884737247522600,
    4187333499810051341156990456230322520752925203242147332055589091053882483020042618180280991894162425410647 /
      100496003995441232187767758452004152437396649998729815173016649643048116979251714995263446473117340226676600,
    30282417945556342437540874462543476290550878604732992350845843 /
      6056483589111268487508174593560869789651430844151537397790523820,
    ?_, ?_, ?_, ?_, ?_, fun z => ?_⟩
  · rw [abs_le]; norm_num
  · rw [abs_le]; norm_num
  · rw [abs_le]; norm_num
  · rw [abs_le]; norm_num
  · rw [abs_le]; norm_num
  · simp only [stabPoly, lsrkCoef, nth, List.range_succ, List.range_zero, List.nil_append,
      List.cons_append, List.foldl_cons, List.foldl_nil, if_true, List.getD_cons_zero,
      List.getD_cons_succ, lit_real, eval_add, eval_mul, eval_C, eval_X, eval_one, eval_zero]
    push_cast
    ring

theorem rk4_eval (z : ℝ) :
    (stabPoly .rk4).eval z = 1 + z + z ^ 2 / 2 + z ^ 3 / 6 + z ^ 4 / 24 := by
  simp [stabPoly, rk4Coef, nth, List.range_succ]
  ring

/-- bound on step size times coefficient times largest eigenvalue -/
def diffusionLimit : Stepper → ℝ
  | .lsrk n => if n = 1 then 2 else if n = 5 then 9 / 2 else 0
  | .rk4 => 11 / 4

theorem stab_le_one (stp : Stepper) {z : ℝ} (h1 : -diffusionLimit stp ≤ z) (h0 : z ≤ 0) :
    |(stabPoly stp).eval z| ≤ 1 := by
  cases stp with
  | rk4 =>
    simp only [diffusionLimit] at h1
    rw [rk4_eval, abs_le]
    constructor
    · nlinarith [sq_nonneg (z ^ 2 + 2 * z), sq_nonneg (z + 1), sq_nonneg (z + 2), sq_nonneg z]
    · have e : 0 ≤ 1 + z / 2 + z ^ 2 / 6 + z ^ 3 / 24 := by
        nlinarith [sq_nonneg (z + 2), mul_nonneg (sub_nonneg.2 h1) (sq_nonneg (z + 1 / 2))]
      nlinarith
  | lsrk n =>
    simp only [diffusionLimit] at h1
    by_cases n1 : n = 1
    · subst n1
      rw [if_pos rfl] at h1
      rw [stabPoly_euler, eval_add, eval_one, eval_X, abs_le]
      constructor <;> linarith
    · rw [if_neg n1] at h1
      by_cases n5 : n = 5
      · subst n5
        rw [if_pos rfl] at h1
        obtain ⟨c1, c2, c3, c4, c5, k1, k2, k3, k4, k5, he⟩ := lsrk5_eval
        rw [abs_le] at k1 k2 k3 k4 k5
        obtain ⟨y, rfl⟩ : ∃ y, z = -y := ⟨-z, by ring⟩
        have y0 : 0 ≤ y := by linarith
        have y1 : y ≤ 9 / 2 := by linarith
        have b2 : y ^ 2 ≤ 21 := by nlinarith
        have b3 : y ^ 3 ≤ 95 := by nlinarith [pow_nonneg y0 2]
        have b4 : y ^ 4 ≤ 428 := by nlinarith [pow_nonneg y0 3]
        have b5 : y ^ 5 ≤ 1926 := by nlinarith [pow_nonneg y0 4]
        have p2 := pow_nonneg y0 2
        have p3 := pow_nonneg y0 3
        have p4 := pow_nonneg y0 4
        have p5 := pow_nonneg y0 5
        have U : (1 : ℝ) / 100 ≤ 1 - y / 2 + y ^ 2 / 6 - y ^ 3 / 24 + y ^ 4 / 200 := by
          nlinarith [sq_nonneg (y ^ 2 - 25 / 6 * y + 5), sq_nonneg (y - 49 / 10)]
        have D : (1 : ℝ) / 10 ≤ 2 - y + y ^ 2 / 2 - y ^ 3 / 6 + y ^ 4 / 24 - y ^ 5 / 200 := by
          have E : 0 ≤ y ^ 4 / 200 - 23 / 1200 * y ^ 3 + 193 / 2400 * y ^ 2 - 221 / 1600 * y +
              1211 / 3200 := by
            nlinarith [sq_nonneg (y ^ 2 - 23 / 12 * y), sq_nonneg (y - 11 / 10)]
          have := mul_nonneg (sub_nonneg.2 y1) E
          nlinarith
        rw [he, abs_le]
        constructor
        · nlinarith
        · have : 0 ≤ c1 - c2 * y + c3 * y ^ 2 - c4 * y ^ 3 + c5 * y ^ 4 := by nlinarith
          nlinarith [mul_nonneg y0 this]
      · rw [if_neg n5] at h1
        have z0 : z = 0 := by linarith
        subst z0
        have : ∀ (L : List ℕ) (q : ℝ[X] × ℝ[X]), q.2.eval 0 = 1 →
            (L.foldl (fun (q : ℝ[X] × ℝ[X]) i => (C ((lsrkCoef n).a i) * q.1 + X * q.2,
              q.2 + C ((lsrkCoef n).b i) * (C ((lsrkCoef n).a i) * q.1 + X * q.2))) q).2.eval 0 =
              1 := by
          intro L
          induction L with
          | nil => exact fun q h => h
          | cons i L ih =>
            intro q h
            refine ih _ ?_
            have hb : (lsrkCoef n : Coef ℝ).b i = 0 := by simp [lsrkCoef, n1, n5]
            simp [h, hb]
        have h := this (List.range n) (0, 1) (by simp)
        simp only [stabPoly]
        rw [h, abs_one]

theorem rest_local (h : Geo2 p.nx p.ny p.dims.nlayers dc m.mesh) (hc : ConnOK p.dims m)
    (sw : SWModel ℝ) {x u : Int → ℝ} (hu : ∀ e, 0 ≤ e → e < p.dims.nedges → u e = 0) {k : Int}
    (k0 : 0 ≤ k) (k1 : k < p.dims.nlayers) {f g : Int → ℝ}
    (hfg : ∀ i ∈ Spec.cells p.dims, f i = g i) {c : Int} (hcc : c ∈ Spec.cells p.dims) :
    trOp m sw x u f c = trOp m sw x u g c := by
  obtain ⟨c0, c1⟩ := Finset.mem_Ico.1 hcc
  have e1 : ∀ e, 0 ≤ e → e < p.dims.nedges →
      Spec.mean m x e * Spec.grad m (fun i => f i / x i) e =
        Spec.mean m x e * Spec.grad m (fun i => g i / x i) e := fun e a b => by
    rw [grad_congr hc (fun c a b => by rw [hfg c (Finset.mem_Ico.2 ⟨a, b⟩)]) a b]
  rw [trOp_rest h hc sw x u f hu k0 k1 c0 c1, trOp_rest h hc sw x u g hu k0 k1 c0 c1,
    div_congr hc e1 c0 c1, div_congr hc (fun e a b => grad_congr hc
      (fun c a b => div_congr hc e1 a b) a b) c0 c1]

/-- Diffusion of a layer at rest as a symmetric operator: local, with the form of the gradients, between `-L` and
zero. -/
theorem diff_form (h : Geo2 p.nx p.ny p.dims.nlayers dc m.mesh) (hc : ConnOK p.dims m)
    (hny : p.ny % 2 = 0) {sw : SWModel ℝ} (h4 : sw.en_thyper = false) (h2 : 0 ≤ sw.prm.eddy_diff2)
    {x u : Int → ℝ} (hu : ∀ e, 0 ≤ e → e < p.dims.nedges → u e = 0) {k : Int} (k0 : 0 ≤ k)
    (k1 : k < p.dims.nlayers) {hlo hhi dt : ℝ} (hl : 0 < hlo)
    (hx : ∀ c, 0 ≤ c → c < p.dims.ncells → hlo ≤ x c ∧ x c ≤ hhi) (hdt : 0 ≤ dt) {L : ℝ}
    (hcfl : 6 * sw.prm.eddy_diff2 * dt * hhi ≤ L * hlo * dc ^ 2) :
    (∀ f g : Int → ℝ, (∀ i ∈ Spec.cells p.dims, f i = g i) → ∀ i ∈ Spec.cells p.dims,
      (dt • trOp m sw x u) f i = (dt • trOp m sw x u) g i) ∧
    (∀ f g : Int → ℝ, ∑ c ∈ Spec.cells p.dims, Spec.areaC m c / x c * ((dt • trOp m sw x u) f c * g c) =
      -(dt * (if sw.en_tdiff then sw.prm.eddy_diff2 else 0) * ∑ e ∈ Spec.edges p.dims, Spec.dcE m e *
        Spec.dvE m e * (Spec.mean m x e * (Spec.grad m (fun i => f i / x i) e *
          Spec.grad m (fun i => g i / x i) e)))) ∧
    (∀ f g : Int → ℝ, ∑ c ∈ Spec.cells p.dims, Spec.areaC m c / x c * ((dt • trOp m sw x u) f c * g c) =
      ∑ c ∈ Spec.cells p.dims, Spec.areaC m c / x c * (f c * (dt • trOp m sw x u) g c)) ∧
    (∀ f : Int → ℝ, ∑ c ∈ Spec.cells p.dims, Spec.areaC m c / x c * (f c * (dt • trOp m sw x u) f c) ≤ 0) ∧
    ∀ f : Int → ℝ, -(L * ∑ c ∈ Spec.cells p.dims, Spec.areaC m c / x c * f c ^ 2) ≤
      ∑ c ∈ Spec.cells p.dims, Spec.areaC m c / x c * (f c * (dt • trOp m sw x u) f c) := by
  have hd := h.dc_pos
  have hA : ∀ c ∈ Spec.cells p.dims, 0 < Spec.areaC m c := fun c hcc =>
    areaC_pos h.toGeo (Finset.mem_Ico.1 hcc).1 (Finset.mem_Ico.1 hcc).2
  have hx' : ∀ c ∈ Spec.cells p.dims, hlo ≤ x c ∧ x c ≤ hhi := fun c hcc =>
    hx c (Finset.mem_Ico.1 hcc).1 (Finset.mem_Ico.1 hcc).2
  set κ := if sw.en_tdiff then sw.prm.eddy_diff2 else 0 with hκ
  have κ0 : 0 ≤ κ := by rw [hκ]; split_ifs <;> simp [h2]
  have κ1 : κ ≤ sw.prm.eddy_diff2 := by rw [hκ]; split_ifs <;> simp [h2]
  have bil : ∀ f g : Int → ℝ, ∑ c ∈ Spec.cells p.dims, Spec.areaC m c / x c *
      ((dt • trOp m sw x u) f c * g c) = -(dt * κ * ∑ e ∈ Spec.edges p.dims, Spec.dcE m e *
        Spec.dvE m e * (Spec.mean m x e * (Spec.grad m (fun i => f i / x i) e *
          Spec.grad m (fun i => g i / x i) e))) := fun f g => by
    have a := adjoint h (fun i => g i / x i) (fun e => Spec.mean m x e *
      Spec.grad m (fun i => f i / x i) e)
    have e : ∑ e ∈ Spec.edges p.dims, Spec.dcE m e *
        Spec.dvE m e * (Spec.mean m x e * (Spec.grad m (fun i => f i / x i) e *
          Spec.grad m (fun i => g i / x i) e)) = -∑ c ∈ Spec.cells p.dims, Spec.areaC m c *
          (g c / x c * Spec.div m (fun e => Spec.mean m x e *
            Spec.grad m (fun i => f i / x i) e) c) := by
      rw [a, neg_neg]
      exact Finset.sum_congr rfl fun e _ => by ring
    rw [e, mul_neg, neg_neg, Finset.mul_sum]
    refine Finset.sum_congr rfl fun c hcc => ?_
    obtain ⟨c0, c1⟩ := Finset.mem_Ico.1 hcc
    show _ * (dt * trOp m sw x u f c * g c) = _
    rw [trOp_diff h hc h4 x u f hu k0 k1 c0 c1]
    ring
  have mean0 : ∀ e ∈ Spec.edges p.dims, 0 ≤ Spec.mean m x e ∧ Spec.mean m x e ≤ hhi :=
    fun e he => by
      obtain ⟨a, b⟩ := Finset.mem_Ico.1 he
      obtain ⟨a0, a1⟩ := hc.coe e a b 0 (by norm_num) (by norm_num)
      obtain ⟨b0, b1⟩ := hc.coe e a b 1 (by norm_num) (by norm_num)
      have ha := hx _ a0 a1
      have hb := hx _ b0 b1
      unfold Spec.mean Spec.cellOf
      constructor <;> linarith
  have hl' : ∀ e ∈ Spec.edges p.dims, 0 ≤ Spec.dcE m e * Spec.dvE m e := fun e he =>
    (dcdv_pos h.toGeo (Finset.mem_Ico.1 he).1 (Finset.mem_Ico.1 he).2).le
  have com : ∀ f g : Int → ℝ, ∑ c ∈ Spec.cells p.dims, Spec.areaC m c / x c *
      (f c * (dt • trOp m sw x u) g c) = ∑ c ∈ Spec.cells p.dims, Spec.areaC m c / x c *
      ((dt • trOp m sw x u) g c * f c) := fun f g =>
    Finset.sum_congr rfl fun c _ => by ring
  refine ⟨?_, bil, ?_, ?_, ?_⟩
  · intro f g hfg c hcc
    show dt * trOp m sw x u f c = dt * trOp m sw x u g c
    rw [rest_local h hc sw hu k0 k1 hfg hcc]
  · intro f g
    rw [com, bil, bil]
    congr 2
    exact Finset.sum_congr rfl fun e _ => by ring
  · intro f
    rw [com, bil, neg_nonpos]
    refine mul_nonneg (mul_nonneg hdt κ0) (Finset.sum_nonneg fun e he => ?_)
    exact mul_nonneg (hl' e he) (mul_nonneg (mean0 e he).1 (mul_self_nonneg _))
  · intro f
    rw [com, bil, neg_le_neg_iff]
    have s1 : ∑ e ∈ Spec.edges p.dims, Spec.dcE m e * Spec.dvE m e * (Spec.mean m x e *
        (Spec.grad m (fun i => f i / x i) e * Spec.grad m (fun i => f i / x i) e)) ≤
        hhi * ∑ e ∈ Spec.edges p.dims, Spec.dcE m e * Spec.dvE m e *
          Spec.grad m (fun i => f i / x i) e ^ 2 := by
      rw [Finset.mul_sum]
      refine Finset.sum_le_sum fun e he => ?_
      have := mul_le_mul_of_nonneg_right (mean0 e he).2
        (mul_nonneg (hl' e he) (sq_nonneg (Spec.grad m (fun i => f i / x i) e)))
      nlinarith
    have s2 := grad_sq_le h.toGeo hny fun i => f i / x i
    have s3 : ∑ c ∈ Spec.cells p.dims, Spec.areaC m c * (f c / x c) ^ 2 ≤
        1 / hlo * ∑ c ∈ Spec.cells p.dims, Spec.areaC m c / x c * f c ^ 2 := by
      rw [Finset.mul_sum]
      refine Finset.sum_le_sum fun c hcc => ?_
      have hxc := hl.trans_le (hx' c hcc).1
      have e : Spec.areaC m c * (f c / x c) ^ 2 =
          1 / x c * (Spec.areaC m c / x c * f c ^ 2) := by field_simp
      rw [e]
      have := (hA c hcc).le
      exact mul_le_mul_of_nonneg_right (one_div_le_one_div_of_le hl (hx' c hcc).1) (by positivity)
    set W := ∑ c ∈ Spec.cells p.dims, Spec.areaC m c / x c * f c ^ 2 with hW
    have W0 : 0 ≤ W := Finset.sum_nonneg fun c hcc => by
      have := (hA c hcc).le
      have := hl.trans_le (hx' c hcc).1
      positivity
    rcases (Spec.cells p.dims).eq_empty_or_nonempty with he | ⟨c, hcc⟩
    · have nc : p.dims.ncells ≤ 0 := by
        by_contra hcon
        have := Finset.eq_empty_iff_forall_notMem.1 he 0
        exact this (Finset.mem_Ico.2 ⟨le_refl _, by omega⟩)
      have : 1 ≤ p.nx * p.ny := by
        have h1 := h.hnx2
        have h2 := h.hny2
        nlinarith
      exact absurd nc (by show ¬ p.nx * p.ny ≤ 0; omega)
    · have hh : 0 ≤ hhi := hl.le.trans ((hx' c hcc).1.trans (hx' c hcc).2)
      calc _ ≤ dt * κ * (hhi * (6 / dc ^ 2 * (1 / hlo * W))) := by
            refine mul_le_mul_of_nonneg_left (s1.trans ?_) (mul_nonneg hdt κ0)
            refine mul_le_mul_of_nonneg_left (s2.trans ?_) hh
            exact mul_le_mul_of_nonneg_left s3 (by positivity)
        _ = (6 * κ * dt * hhi) / (hlo * dc ^ 2) * W := by field_simp
        _ ≤ L * W := by
            refine mul_le_mul_of_nonneg_right ?_ W0
            rw [div_le_iff₀ (by positivity)]
            refine le_trans ?_ (hcfl.trans (le_of_eq (by ring)))
            have : 6 * κ ≤ 6 * sw.prm.eddy_diff2 := by linarith
            gcongr

/-- A polynomial that is at most one on the range of the operator does not increase the variance of a
layer at rest. -/
theorem diff_spectral (h : Geo2 p.nx p.ny p.dims.nlayers dc m.mesh) (hc : ConnOK p.dims m)
    (hny : p.ny % 2 = 0) {sw : SWModel ℝ} (h4 : sw.en_thyper = false) (h2 : 0 ≤ sw.prm.eddy_diff2)
    {x u : Int → ℝ} (hu : ∀ e, 0 ≤ e → e < p.dims.nedges → u e = 0) {k : Int} (k0 : 0 ≤ k)
    (k1 : k < p.dims.nlayers) {hlo hhi dt : ℝ} (hl : 0 < hlo)
    (hx : ∀ c, 0 ≤ c → c < p.dims.ncells → hlo ≤ x c ∧ x c ≤ hhi) (hdt : 0 ≤ dt) {L : ℝ}
    (hcfl : 6 * sw.prm.eddy_diff2 * dt * hhi ≤ L * hlo * dc ^ 2) {r : ℝ[X]}
    (hr : ∀ z, -L ≤ z → z ≤ 0 → |r.eval z| ≤ 1) (f : Int → ℝ) :
    ∑ c ∈ Spec.cells p.dims, Spec.areaC m c / x c *
        aeval (dt • trOp m sw x u) r f c ^ 2 ≤
      ∑ c ∈ Spec.cells p.dims, Spec.areaC m c / x c * f c ^ 2 := by
  obtain ⟨loc, -, sym, neg, low⟩ := diff_form h hc hny h4 h2 hu k0 k1 hl hx hdt hcfl
  exact Spectral.contract (fun c hcc => by
    obtain ⟨a, b⟩ := Finset.mem_Ico.1 hcc
    exact div_pos (areaC_pos h.toGeo a b) (hl.trans_le (hx c a b).1)) loc sym neg low hr f

/-- One step of any stepper does not increase the variance of a layer at rest. -/
theorem diff_contract (h : Geo2 p.nx p.ny p.dims.nlayers dc m.mesh) (hc : ConnOK p.dims m)
    (hny : p.ny % 2 = 0) {sw : SWModel ℝ} (h4 : sw.en_thyper = false) (h2 : 0 ≤ sw.prm.eddy_diff2)
    {x u : Int → ℝ} (hu : ∀ e, 0 ≤ e → e < p.dims.nedges → u e = 0) {k : Int} (k0 : 0 ≤ k)
    (k1 : k < p.dims.nlayers) {hlo hhi dt : ℝ} (hl : 0 < hlo)
    (hx : ∀ c, 0 ≤ c → c < p.dims.ncells → hlo ≤ x c ∧ x c ≤ hhi) (hdt : 0 ≤ dt) {stp : Stepper}
    (hcfl : 6 * sw.prm.eddy_diff2 * dt * hhi ≤ diffusionLimit stp * hlo * dc ^ 2) (f : Int → ℝ) :
    ∑ c ∈ Spec.cells p.dims, Spec.areaC m c / x c *
        aeval (dt • trOp m sw x u) (stabPoly stp) f c ^ 2 ≤
      ∑ c ∈ Spec.cells p.dims, Spec.areaC m c / x c * f c ^ 2 :=
  diff_spectral h hc hny h4 h2 hu k0 k1 hl hx hdt hcfl (fun z => stab_le_one stp) f

/-- folding steps that do not increase a quantity -/
theorem fold_le {Q : (Int → ℝ) → ℝ} {A : ℝ × ℝ → Module.End ℝ (Int → ℝ)} (L : List (ℝ × ℝ))
    (h : ∀ q ∈ L, ∀ f, Q (A q f) ≤ Q f) (f : Int → ℝ) :
    Q (L.foldl (fun f q => A q f) f) ≤ Q f := by
  induction L generalizing f with
  | nil => exact le_refl _
  | cons a L ih =>
    exact (ih (fun q hq => h q (List.mem_cons_of_mem _ hq)) _).trans (h a List.mem_cons_self f)

/-- Steps of tracer diffusion in a prescribed flow at rest, with thickness between `hlo` and `hhi`: if
every step satisfies `6 κ dt hhi ≤ limit hlo dc²`, with limit 2 for the one-stage, 9/2 for the
five-stage and 11/4 for the classical stepper, then the variance of the concentration does not
grow. -/
theorem C62_diffusion_stable (hv : RunValid p) (hx : 2 ≤ p.nx) (hy : 2 ≤ p.ny) (hny : p.ny % 2 = 0)
    (hdc : 0 < dc) {prm : Params ℝ} (hr : Ready p dc prm m) {sw : SWModel ℝ} (hn : sw.NoHook)
    (h5 : sw.prm.disable_h = true) (h6 : sw.prm.disable_vn = true) (h4 : sw.en_thyper = false)
    (h2 : 0 ≤ sw.prm.eddy_diff2) {l k : Int} (l0 : 0 ≤ l) (l1 : l < p.dims.ntracers) (k0 : 0 ≤ k)
    (k1 : k < p.dims.nlayers)
    (hu : ∀ e, 0 ≤ e → e < p.dims.nedges → m.real (.vn_edge .state) 0 e k = 0)
    {hlo hhi : ℝ} (hl : 0 < hlo)
    (hh : ∀ c, 0 ≤ c → c < p.dims.ncells →
      hlo ≤ m.real (.h_cell .state) 0 c k ∧ m.real (.h_cell .state) 0 c k ≤ hhi)
    {stp : Stepper} {sched : List (ℝ × ℝ)}
    (hs : ∀ q ∈ sched, 0 ≤ q.2 ∧
      6 * sw.prm.eddy_diff2 * q.2 * hhi ≤ diffusionLimit stp * hlo * dc ^ 2)
    {split : Bool} {m1 : Mem ℝ}
    (he : Exec p.dims (stp.ctor p.dims ++
      stp.run p.dims ⟨defaultKernels p.dims.vl, split⟩ sw sched) m m1) :
    ∑ c ∈ Spec.cells p.dims, Spec.areaC m c * (m1.real (.tr_cell .state) l c k ^ 2 /
        m1.real (.h_cell .state) 0 c k) ≤
      ∑ c ∈ Spec.cells p.dims, Spec.areaC m c * (m.real (.tr_cell .state) l c k ^ 2 /
        m.real (.h_cell .state) 0 c k) := by
  obtain ⟨hd, hc⟩ := ready_ok hv hr
  have g := Ready.geo2 hr hv.toValid hx hy hdc
  obtain ⟨r1, -, r3⟩ := frozen_exec h5 h6 hd hc hn he
  have key := fold_le (Q := fun f => ∑ c ∈ Spec.cells p.dims, Spec.areaC m c /
      m.real (.h_cell .state) 0 c k * f c ^ 2)
    (A := fun q => aeval (q.2 • trOp m sw (fun i => m.real (.h_cell .state) 0 i k)
          (fun i => m.real (.vn_edge .state) 0 i k)) (stabPoly stp)) sched
    (fun q hq f => diff_contract g hc hny h4 h2 hu k0 k1 hl hh (hs q hq).1 (hs q hq).2 f)
    (fun c => m.real (.tr_cell .state) l c k)
  refine le_trans (le_of_eq ?_) (key.trans (le_of_eq ?_))
  · refine Finset.sum_congr rfl fun c hcc => ?_
    obtain ⟨c0, c1⟩ := Finset.mem_Ico.1 hcc
    rw [r1 c k c0 c1 k0 k1, r3 l c k l0 l1 c0 c1 k0 k1]
    ring
  · exact Finset.sum_congr rfl fun c hcc => by ring

end Props
end
end Omega
