import Verif.Refine.HexSum
import Verif.Refine.Invariant

/-!
# The kernels on the hexagonal mesh, in exact arithmetic

On a mesh built by `PlanarHexagonalMesh` with at least two columns and two rows every kernel is a
lattice operator of `HexSum` times a constant.
-/

set_option linter.unusedSectionVars false
set_option linter.unusedVariables false

namespace Omega
noncomputable section

namespace Refine

open Model Hex

/-- mesh data of the hexagonal mesh -/
structure Geo (nx ny L : Int) (dc : ℝ) (M : Mesh ℝ) : Prop where
  hnx : 1 ≤ nx
  dc_pos : 0 < dc
  neoc : ∀ c, IsCell nx ny c → M.neoc c = 6
  eoc : ∀ c, IsCell nx ny c → ∀ j, 0 ≤ j → j < 6 → M.eoc c j = E nx ny c j
  coe : ∀ e, 0 ≤ e → e < 3 * (nx * ny) → ∀ s, 0 ≤ s → s < 2 → M.coe e s = Hex.coe nx ny e s
  voe : ∀ e, 0 ≤ e → e < 3 * (nx * ny) → ∀ s, 0 ≤ s → s < 2 → M.voe e s = Hex.voe nx ny e s
  cov : ∀ v, 0 ≤ v → v < 2 * (nx * ny) → ∀ s, 0 ≤ s → s < 3 → M.cov v s = Hex.cov nx ny v s
  eov : ∀ v, 0 ≤ v → v < 2 * (nx * ny) → ∀ s, 0 ≤ s → s < 3 → M.eov v s = Hex.eov nx ny v s
  neoe : ∀ e, 0 ≤ e → e < 3 * (nx * ny) → M.neoe e = 10
  eoe : ∀ e, 0 ≤ e → e < 3 * (nx * ny) → ∀ s, 0 ≤ s → s < 10 → M.eoe e s = Hex.eoe nx ny e s
  woe : ∀ e, 0 ≤ e → e < 3 * (nx * ny) → ∀ s, 0 ≤ s → s < 10 →
    M.woe e s = wRaw (e % 3) (s % 5) * (1 / √3)
  areaCell : ∀ c, IsCell nx ny c → M.areaCell c = dc * dc * √3 / 2
  areaTri : ∀ v, 0 ≤ v → v < 2 * (nx * ny) → M.areaTri v = dc * dc * √3 / 4
  kite : ∀ v, 0 ≤ v → v < 2 * (nx * ny) → ∀ s, 0 ≤ s → s < 3 → M.kite v s = dc * dc * √3 / 12
  dcE : ∀ e, 0 ≤ e → e < 3 * (nx * ny) → M.dc e = dc
  dv : ∀ e, 0 ≤ e → e < 3 * (nx * ny) → M.dv e = dc * √3 / 3
  signV : ∀ v, 0 ≤ v → v < 2 * (nx * ny) → ∀ s, 0 ≤ s → s < 3 →
    M.signV v s = if eovEnd v s = 0 then -1 else 1
  sdel2 : ∀ e, 0 ≤ e → e < 3 * (nx * ny) → M.sdel2 e = 1
  sdel4 : ∀ e, 0 ≤ e → e < 3 * (nx * ny) → M.sdel4 e = 1
  mask : ∀ e, 0 ≤ e → e < 3 * (nx * ny) → ∀ k, 0 ≤ k → k < L → M.mask e k = 1

/-- the sign convention, which needs two columns and two rows -/
structure Geo2 (nx ny L : Int) (dc : ℝ) (M : Mesh ℝ) : Prop extends Geo nx ny L dc M where
  hnx2 : 2 ≤ nx
  hny2 : 2 ≤ ny
  signC : ∀ c, IsCell nx ny c → ∀ j, 0 ≤ j → j < 6 → M.signC c j = if j < 3 then -1 else 1

theorem geo_of_hex {p : MeshParams} (hv : MeshParams.Valid p) {dc : ℝ} (hdc : 0 < dc) {m : Mem ℝ}
    (h : IsHexMesh p dc m) : Geo p.nx p.ny p.dims.nlayers dc m.mesh where
  hnx := hv.nx_pos
  dc_pos := hdc
  neoc := h.neoc
  eoc := h.eoc
  coe := h.coe
  voe := h.voe
  cov := h.cov
  eov := h.eov
  neoe := h.neoe
  eoe := h.eoe
  woe e h0 h1 s h2 h3 := by simpa [Mem.mesh] using h.woe e h0 h1 s h2 h3
  areaCell c hc := by simpa [Mem.mesh] using h.area_cell c hc
  areaTri v h0 h1 := by simpa [Mem.mesh] using h.area_triangle v h0 h1
  kite v h0 h1 s h2 h3 := by simpa [Mem.mesh] using h.kitearea v h0 h1 s h2 h3
  dcE := h.dc_edge
  dv e h0 h1 := by simpa [Mem.mesh] using h.dv_edge e h0 h1
  signV v h0 h1 s h2 h3 := by
    have := h.sign_vertex v h0 h1 s h2 h3
    simp only [voe_eov_zero hv.nx_pos (isCell_vertex h0 h1) h2 h3] at this
    simpa [Mem.mesh] using this
  sdel2 e h0 h1 := by simpa [Mem.mesh] using h.del2 e h0 h1
  sdel4 e h0 h1 := by simpa [Mem.mesh] using h.del4 e h0 h1
  mask e h0 h1 k h2 h3 := by simpa [Mem.mesh] using h.mask e h0 h1 k h2 h3

theorem geo2_of_hex {p : MeshParams} (hv : MeshParams.Valid p) (h2x : 2 ≤ p.nx) (h2y : 2 ≤ p.ny) {dc : ℝ}
    (hdc : 0 < dc) {m : Mem ℝ} (h : IsHexMesh p dc m) :
    Geo2 p.nx p.ny p.dims.nlayers dc m.mesh where
  toGeo := geo_of_hex hv hdc h
  hnx2 := h2x
  hny2 := h2y
  signC c hc j h0 h6 := by
    have := h.sign_cell c hc j h0 h6
    by_cases h3 : j < 3
    · have e : coe p.nx p.ny (E p.nx p.ny c j) 0 ≠ c := by
        rw [coe_zero, E_div_lo h0 h3, E_mod h0 h6]
        exact inv_ne h2x h2y hc _
      rw [if_neg e] at this
      rw [if_pos h3]; simpa [Mem.mesh] using this
    · rw [if_pos (coe_E_hi hv.nx_pos hc (by omega) h6)] at this
      rw [if_neg h3]; simpa [Mem.mesh] using this

variable {nx ny L : Int} {dc : ℝ} {M : Mesh ℝ}

theorem Geo.w3 (h : Geo nx ny L dc M) : √3 * √3 = (3 : ℝ) := Real.mul_self_sqrt (by norm_num)
theorem w_pos : (0 : ℝ) < √3 := Real.sqrt_pos.mpr (by norm_num)
theorem w_sq : √3 * √3 = (3 : ℝ) := Real.mul_self_sqrt (by norm_num)
theorem w_inv : 1 / √3 = √3 / (3 : ℝ) := by
  have := w_pos; rw [div_eq_div_iff this.ne' (by norm_num), one_mul, w_sq]

section

variable (h : Geo nx ny L dc M)
include h

theorem Geo.er {c : Int} (hc : IsCell nx ny c) (j : Int) (h0 : 0 ≤ j) (h6 : j < 6) :
    0 ≤ E nx ny c j ∧ E nx ny c j < 3 * (nx * ny) := E_range h.hnx hc j h0 h6

/-- mean over the two cells of an edge -/
def Mn (nx ny : Int) (φ : Int → ℝ) (e : Int) : ℝ := (φ (Hex.coe nx ny e 0) + φ (Hex.coe nx ny e 1)) / 2

theorem Geo.hmean (φ : Int → ℝ) {e : Int} (h0 : 0 ≤ e) (h1 : e < 3 * (nx * ny)) :
    Fn.hmean M φ e = Mn nx ny φ e := by
  unfold Fn.hmean Mn
  rw [h.coe e h0 h1 0 (by omega) (by omega), h.coe e h0 h1 1 (by omega) (by omega), half_real]
  ring

theorem Geo.keG (φ : Int → ℝ) {e : Int} (h0 : 0 ≤ e) (h1 : e < 3 * (nx * ny)) :
    Fn.keG M φ e = Gr nx ny φ e / dc := by
  unfold Fn.keG Gr
  rw [h.coe e h0 h1 0 (by omega) (by omega), h.coe e h0 h1 1 (by omega) (by omega), h.dcE e h0 h1,
    lit_real]
  push_cast; ring

theorem Geo.sshG (g : ℝ) (φ : Int → ℝ) {e : Int} (h0 : 0 ≤ e) (h1 : e < 3 * (nx * ny)) :
    Fn.sshG M g φ e = g * (Gr nx ny φ e / dc) := by
  unfold Fn.sshG Gr
  rw [h.coe e h0 h1 0 (by omega) (by omega), h.coe e h0 h1 1 (by omega) (by omega), h.dcE e h0 h1,
    lit_real]
  push_cast; ring

/-- the vector Laplacian -/
def Lap (nx ny : Int) (dc : ℝ) (φ ψ : Int → ℝ) (e : Int) : ℝ :=
  Gr nx ny φ e / dc - Gv nx ny ψ e * (√3 / dc)

theorem Geo.dv_inv : 1 / (dc * √3 / 3) = √3 / dc := by
  have := w_pos; have := h.dc_pos
  rw [div_eq_div_iff (by positivity) (by positivity)]
  linear_combination (-dc / 3) * w_sq

theorem Geo.lap (φ ψ : Int → ℝ) {e : Int} (h0 : 0 ≤ e) (h1 : e < 3 * (nx * ny)) :
    (φ (M.coe e 1) - φ (M.coe e 0)) * (lit 1 / M.dc e) -
      (ψ (M.voe e 1) - ψ (M.voe e 0)) * (lit 1 / M.dv e) = Lap nx ny dc φ ψ e := by
  rw [h.coe e h0 h1 0 (by omega) (by omega), h.coe e h0 h1 1 (by omega) (by omega), h.dcE e h0 h1,
    h.voe e h0 h1 0 (by omega) (by omega), h.voe e h0 h1 1 (by omega) (by omega), h.dv e h0 h1,
    lit_real]
  push_cast
  rw [h.dv_inv]
  unfold Lap Gr Gv
  ring

theorem Geo.vdiff (visc : ℝ) {k : Int} (hk : 0 ≤ k) (hk' : k < L) (φ ψ : Int → ℝ) {e : Int}
    (h0 : 0 ≤ e) (h1 : e < 3 * (nx * ny)) :
    Fn.vdiff M visc k φ ψ e = visc * Lap nx ny dc φ ψ e := by
  unfold Fn.vdiff
  rw [h.lap φ ψ h0 h1, h.mask e h0 h1 k hk hk', h.sdel2 e h0 h1]; ring

theorem Geo.vhyper (visc : ℝ) {k : Int} (hk : 0 ≤ k) (hk' : k < L) (φ ψ : Int → ℝ) {e : Int}
    (h0 : 0 ≤ e) (h1 : e < 3 * (nx * ny)) :
    Fn.vhyper M visc k φ ψ e = visc * Lap nx ny dc φ ψ e := by
  unfold Fn.vhyper
  rw [h.lap φ ψ h0 h1, h.mask e h0 h1 k hk hk', h.sdel4 e h0 h1]; ring

theorem Geo.del2 (φ ψ : Int → ℝ) {e : Int} (h0 : 0 ≤ e) (h1 : e < 3 * (nx * ny)) :
    Fn.del2 M φ ψ e = Lap nx ny dc φ ψ e := by
  unfold Fn.del2
  rw [← h.lap φ ψ h0 h1, maxS_real]
  have : max (M.dv e) (quarter * M.dc e) = M.dv e := by
    apply max_eq_left
    rw [h.dv e h0 h1, h.dcE e h0 h1, quarter_real]
    have := w_pos; have := h.dc_pos
    have w1 : (1 : ℝ) ≤ √3 := by rw [Real.one_le_sqrt]; norm_num
    nlinarith
  rw [this]

theorem Geo.rvort (u : Int → ℝ) {v : Int} (h0 : 0 ≤ v) (h1 : v < 2 * (nx * ny)) :
    Fn.rvort M u v = 4 / (dc * √3) * Cu nx ny u v := by
  unfold Fn.rvort
  rw [foldI_sum]
  have hv := isCell_vertex h0 h1
  have hr : ∀ s, 0 ≤ Hex.eov nx ny v s ∧ Hex.eov nx ny v s < 3 * (nx * ny) := by
    intro s
    have := eov_isCell h.hnx h0 h1 (s := s)
    unfold IsCell at this; omega
  have ht : ∀ s, 0 ≤ s → s < 3 → M.dc (M.eov v s) * (lit 1 / M.areaTri v) * M.signV v s *
      u (M.eov v s) = 4 / (dc * √3) * ((if eovEnd v s = 0 then -1 else 1) * u (Hex.eov nx ny v s)) := by
    intro s a b
    rw [h.eov v h0 h1 s a b, h.dcE _ (hr s).1 (hr s).2, h.areaTri v h0 h1, h.signV v h0 h1 s a b,
      lit_real]
    have := w_pos; have := h.dc_pos
    push_cast
    field_simp
  simp only [show (3 : ℤ).toNat = 3 from rfl, Finset.sum_range_succ, Finset.sum_range_zero,
    Nat.cast_zero, Nat.cast_one, Nat.cast_ofNat, zero_add]
  rw [ht 0 (by omega) (by omega), ht 1 (by omega) (by omega), ht 2 (by omega) (by omega)]
  unfold Cu eovEnd
  by_cases hp : v % 2 = 0
  · simp [hp]; ring
  · simp [hp]; ring

/-- mean over the three cells of a vertex -/
def Mv (nx ny : Int) (φ : Int → ℝ) (v : Int) : ℝ :=
  (φ (Hex.cov nx ny v 0) + φ (Hex.cov nx ny v 1) + φ (Hex.cov nx ny v 2)) / 3

theorem Geo.hvert (φ : Int → ℝ) {v : Int} (h0 : 0 ≤ v) (h1 : v < 2 * (nx * ny)) :
    Fn.hvert M φ v = Mv nx ny φ v := by
  unfold Fn.hvert Mv
  rw [foldI_sum]
  have ht : ∀ s, 0 ≤ s → s < 3 → M.kite v s * (lit 1 / M.areaTri v) * φ (M.cov v s) =
      φ (Hex.cov nx ny v s) / 3 := by
    intro s a b
    rw [h.cov v h0 h1 s a b, h.areaTri v h0 h1, h.kite v h0 h1 s a b, lit_real]
    have := w_pos; have := h.dc_pos
    push_cast
    field_simp
    ring
  simp only [show (3 : ℤ).toNat = 3 from rfl, Finset.sum_range_succ, Finset.sum_range_zero,
    Nat.cast_zero, Nat.cast_one, Nat.cast_ofNat, zero_add]
  rw [ht 0 (by omega) (by omega), ht 1 (by omega) (by omega), ht 2 (by omega) (by omega)]
  ring

theorem Geo.vedge (ψ : Int → ℝ) {e : Int} (h0 : 0 ≤ e) (h1 : e < 3 * (nx * ny)) :
    Fn.vedge M ψ e = (ψ (Hex.voe nx ny e 0) + ψ (Hex.voe nx ny e 1)) / 2 := by
  unfold Fn.vedge
  rw [h.voe e h0 h1 0 (by omega) (by omega), h.voe e h0 h1 1 (by omega) (by omega), half_real]
  ring

theorem Geo.pv (q f hf u : Int → ℝ) {e : Int} (h0 : 0 ≤ e) (h1 : e < 3 * (nx * ny)) :
    Fn.pv M q f hf u e = 1 / √3 * Tw nx ny
      (fun e e' => hf e' * u e' * ((q e + f e + (q e' + f e')) / 2)) e := by
  unfold Fn.pv
  rw [foldI_sum, h.neoe e h0 h1]
  unfold Tw
  rw [Finset.mul_sum]
  refine Finset.sum_congr rfl fun s hs => ?_
  simp only [Finset.mem_range] at hs
  rw [h.woe e h0 h1 s (by omega) (by omega), h.eoe e h0 h1 s (by omega) (by omega), half_real]
  ring

/-- A sum over the sides of a cell. -/
theorem Geo.sum6 {c : Int} (hc : IsCell nx ny c) (g G : Int → ℝ)
    (hg : ∀ j, 0 ≤ j → j < 6 → g j = G j) :
    foldI (M.neoc c) (lit 0) (fun j s => s + g j) = G 0 + G 1 + G 2 + G 3 + G 4 + G 5 := by
  rw [foldI_sum, h.neoc c hc]
  simp only [show (6 : ℤ).toNat = 6 from rfl, Finset.sum_range_succ, Finset.sum_range_zero,
    Nat.cast_zero, Nat.cast_one, Nat.cast_ofNat, zero_add]
  rw [hg 0 (by omega) (by omega), hg 1 (by omega) (by omega), hg 2 (by omega) (by omega),
    hg 3 (by omega) (by omega), hg 4 (by omega) (by omega), hg 5 (by omega) (by omega)]

/-- sum over the sides of a cell -/
def Sd (nx ny : Int) (u : Int → ℝ) (c : Int) : ℝ :=
  u (E nx ny c 0) + u (E nx ny c 1) + u (E nx ny c 2) + u (E nx ny c 3) + u (E nx ny c 4) +
    u (E nx ny c 5)

theorem Geo.ke (u : Int → ℝ) {c : Int} (hc : IsCell nx ny c) :
    Fn.ke M u c = 1 / 6 * Sd nx ny (fun e => u e * u e) c := by
  unfold Fn.ke
  rw [h.sum6 hc _ (fun j => 1 / 6 * (u (E nx ny c j) * u (E nx ny c j)))]
  · unfold Sd; ring
  · intro j a b
    have he := h.er hc j a b
    rw [h.eoc c hc j a b, h.areaCell c hc, h.dv _ he.1 he.2, h.dcE _ he.1 he.2, lit_real, quarter_real]
    have := w_pos; have := h.dc_pos
    push_cast
    field_simp
    ring

end

section

variable (h : Geo2 nx ny L dc M)
include h

theorem Geo2.sumDv {c : Int} (hc : IsCell nx ny c) (g : Int → ℝ) (a : ℝ) (u : Int → ℝ)
    (hg : ∀ j, 0 ≤ j → j < 6 → g j = a * ((if j < 3 then -1 else 1) * u (E nx ny c j))) :
    foldI (M.neoc c) (lit 0) (fun j s => s + g j) = a * Dv nx ny u c := by
  rw [h.toGeo.sum6 hc _ _ hg]
  unfold Dv
  norm_num
  ring

theorem Geo2.sumDv' {c : Int} (hc : IsCell nx ny c) (g : Int → ℝ) (a : ℝ) (u : Int → ℝ)
    (hg : ∀ j, 0 ≤ j → j < 6 → g j = a * ((if j < 3 then -1 else 1) * u (E nx ny c j))) :
    foldI (M.neoc c) (lit 0) (fun j s => s - g j) = -(a * Dv nx ny u c) := by
  rw [foldI_diff, ← h.sumDv hc g a u hg, foldI_sum]

theorem Geo2.coef (a b : ℝ) : dc * √3 / 3 * (1 / (dc * dc * √3 / 2)) * a * b =
    2 / (3 * dc) * (a * b) := by
  have := w_pos; have := h.dc_pos
  field_simp

theorem Geo2.div (u : Int → ℝ) {c : Int} (hc : IsCell nx ny c) :
    Fn.div M u c = 2 / (3 * dc) * Dv nx ny u c := by
  unfold Fn.div
  refine h.sumDv hc _ _ _ fun j a b => ?_
  have he := h.er hc j a b
  rw [h.eoc c hc j a b, h.areaCell c hc, h.dv _ he.1 he.2, h.signC c hc j a b, lit_real]
  have := w_pos; have := h.dc_pos
  push_cast
  field_simp

theorem Geo2.del2div (u : Int → ℝ) {c : Int} (hc : IsCell nx ny c) :
    Fn.del2div M u c = 2 / (3 * dc) * Dv nx ny u c := by
  unfold Fn.del2div
  refine h.sumDv hc _ _ _ fun j a b => ?_
  have he := h.er hc j a b
  rw [h.eoc c hc j a b, h.areaCell c hc, h.dv _ he.1 he.2, h.signC c hc j a b, lit_real]
  push_cast
  exact h.coef _ _

theorem Geo2.hadv (u hf : Int → ℝ) {c : Int} (hc : IsCell nx ny c) :
    Fn.hadv M u hf c = -(2 / (3 * dc) * Dv nx ny (fun e => hf e * u e) c) := by
  unfold Fn.hadv
  refine h.sumDv' hc _ _ _ fun j a b => ?_
  have he := h.er hc j a b
  rw [h.eoc c hc j a b, h.areaCell c hc, h.dv _ he.1 he.2, h.signC c hc j a b, lit_real]
  push_cast
  rw [← h.coef]; ring

theorem Geo2.thadv (u q hf : Int → ℝ) {c : Int} (hc : IsCell nx ny c) :
    Fn.thadv M u q hf c = -(2 / (3 * dc) * Dv nx ny (fun e => hf e * Mn nx ny q e * u e) c) := by
  unfold Fn.thadv
  refine h.sumDv' hc _ _ _ fun j a b => ?_
  have he := h.er hc j a b
  rw [h.eoc c hc j a b, h.areaCell c hc, h.dv _ he.1 he.2, h.signC c hc j a b, lit_real,
    h.coe _ he.1 he.2 0 (by omega) (by omega), h.coe _ he.1 he.2 1 (by omega) (by omega), half_real]
  push_cast
  rw [← h.coef]; unfold Mn; ring

theorem Geo2.tdiff (eddy : ℝ) (q hm : Int → ℝ) {c : Int} (hc : IsCell nx ny c) :
    Fn.tdiff M eddy q hm c =
      eddy * (2 / (3 * dc) * Dv nx ny (fun e => hm e * (Gr nx ny q e / dc)) c) := by
  unfold Fn.tdiff
  rw [← mul_assoc]
  refine h.sumDv hc _ _ _ fun j a b => ?_
  have he := h.er hc j a b
  rw [h.eoc c hc j a b, h.areaCell c hc, h.dv _ he.1 he.2, h.signC c hc j a b, lit_real,
    h.coe _ he.1 he.2 0 (by omega) (by omega), h.coe _ he.1 he.2 1 (by omega) (by omega),
    h.dcE _ he.1 he.2, h.sdel2 _ he.1 he.2]
  push_cast
  rw [mul_assoc eddy (2 / (3 * dc)), ← h.coef]; unfold Gr; ring

theorem Geo2.tdel2 (q hm : Int → ℝ) {c : Int} (hc : IsCell nx ny c) :
    Fn.tdel2 M q hm c = 2 / (3 * dc) * Dv nx ny (fun e => hm e * (Gr nx ny q e / dc)) c := by
  unfold Fn.tdel2
  refine h.sumDv hc _ _ _ fun j a b => ?_
  have he := h.er hc j a b
  rw [h.eoc c hc j a b, h.areaCell c hc, h.dv _ he.1 he.2, h.signC c hc j a b, lit_real,
    h.coe _ he.1 he.2 0 (by omega) (by omega), h.coe _ he.1 he.2 1 (by omega) (by omega),
    h.dcE _ he.1 he.2]
  push_cast
  rw [← h.coef]; unfold Gr; ring

theorem Geo2.thyper (eddy : ℝ) (q : Int → ℝ) {c : Int} (hc : IsCell nx ny c) :
    Fn.thyper M eddy q c = -(eddy * (2 / (3 * dc) * Dv nx ny (fun e => Gr nx ny q e / dc) c)) := by
  unfold Fn.thyper
  rw [← mul_assoc]
  refine h.sumDv' hc _ _ _ fun j a b => ?_
  have he := h.er hc j a b
  rw [h.eoc c hc j a b, h.areaCell c hc, h.dv _ he.1 he.2, h.signC c hc j a b, lit_real,
    h.coe _ he.1 he.2 0 (by omega) (by omega), h.coe _ he.1 he.2 1 (by omega) (by omega),
    h.dcE _ he.1 he.2, h.sdel4 _ he.1 he.2]
  push_cast
  rw [mul_assoc eddy (2 / (3 * dc)), ← h.coef]; unfold Gr; ring

end

/-! ### Sums -/

theorem sum_Dv (hnx : 1 ≤ nx) (u : Int → ℝ) : ∑ c ∈ upto (nx * ny), Dv nx ny u c = 0 := by
  have := adjoint_cell (ny := ny) hnx (fun _ => 1) u
  simpa [Gr] using this

theorem sum_Cu (hnx : 1 ≤ nx) (u : Int → ℝ) : ∑ v ∈ upto (2 * (nx * ny)), Cu nx ny u v = 0 := by
  have := adjoint_vertex (ny := ny) hnx (fun _ => 1) u
  simpa [Gv] using this

/-- each edge is a side of two cells -/
theorem sum_Sd (hnx : 1 ≤ nx) (φ u : Int → ℝ) :
    ∑ c ∈ upto (nx * ny), φ c * Sd nx ny u c =
      ∑ e ∈ upto (3 * (nx * ny)), (φ (Hex.coe nx ny e 0) + φ (Hex.coe nx ny e 1)) * u e := by
  have := sum_sides (ny := ny) hnx fun c a => φ c * u (E nx ny c a)
  rw [Finset.sum_congr rfl fun c _ => show φ c * Sd nx ny u c = φ c * u (E nx ny c 0) +
    φ c * u (E nx ny c 1) + φ c * u (E nx ny c 2) + φ c * u (E nx ny c 3) + φ c * u (E nx ny c 4) +
    φ c * u (E nx ny c 5) by unfold Sd; ring, ← this]
  refine Finset.sum_congr rfl fun e he => ?_
  simp only [Finset.mem_Ico] at he
  rw [← eq_E_hi hnx (isCell_edge he.1 he.2), ← eq_E_lo, coe_one]; ring

end Refine
end
end Omega
