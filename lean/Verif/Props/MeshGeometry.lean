import Verif.Props.MeshTopology
import Mathlib.Algebra.BigOperators.Intervals
import Mathlib.Analysis.SpecialFunctions.Trigonometric.Basic
import Mathlib.Order.Interval.Finset.Basic
import Mathlib.Data.Int.Interval

/-!
# C09, C10: geometry of the mesh, over the reals
-/

set_option linter.unusedVariables false
set_option linter.unusedSectionVars false

namespace Omega
namespace Props

open Prog Model Refine

/-! ### C09 -/

/-- Areas tile the periodic domain. -/
theorem C09_areas {p : MeshParams} (hv : MeshParams.Valid p) {dc : ℝ} {m : Mem ℝ}
    (hb : Built p dc m) :
    (∑ c ∈ Finset.Ico 0 p.dims.ncells, m.real .area_cell 0 c 0
      = periodX p.nx dc * periodY p.ny dc) ∧
    (∑ v ∈ Finset.Ico 0 p.dims.nvertices, m.real .area_triangle 0 v 0
      = periodX p.nx dc * periodY p.ny dc) ∧
    (∀ v, 0 ≤ v → v < p.dims.nvertices →
      ∑ s ∈ Finset.Ico (0 : Int) 3, m.real .kiteareas_on_vertex 0 v s
        = m.real .area_triangle 0 v 0) ∧
    (∀ c, 0 ≤ c → c < p.dims.ncells →
      ∑ j ∈ Finset.Ico (0 : Int) 6, m.real .kiteareas_on_vertex 0 (m.int .vertices_on_cell c j)
        (m.int .kite_index_on_cell c j) = m.real .area_cell 0 c 0) ∧
    (∀ c, 0 ≤ c → c < p.dims.ncells →
      ∑ j ∈ Finset.Ico (0 : Int) 6, 1 / 4 * m.real .dc_edge 0 (m.int .edges_on_cell c j) 0 *
        m.real .dv_edge 0 (m.int .edges_on_cell c j) 0 = m.real .area_cell 0 c 0) := by
  have hm := hb.hex hv
  have hnx := hv.nx_pos
  have hs3 : Real.sqrt 3 * Real.sqrt 3 = 3 := Real.mul_self_sqrt (by norm_num)
  have hpos : 0 ≤ p.nx * p.ny := mul_nonneg (by linarith [hv.nx_pos]) (by linarith [hv.ny_pos])
  have hcard : ((p.nx * p.ny).toNat : ℝ) = (p.nx : ℝ) * p.ny := by
    have : (((p.nx * p.ny).toNat : Int) : ℝ) = ((p.nx * p.ny : Int) : ℝ) := by
      rw [Int.toNat_of_nonneg hpos]
    push_cast at this
    exact_mod_cast this
  have hcard2 : ((2 * (p.nx * p.ny)).toNat : ℝ) = 2 * ((p.nx : ℝ) * p.ny) := by
    have : (((2 * (p.nx * p.ny)).toNat : Int) : ℝ) = ((2 * (p.nx * p.ny) : Int) : ℝ) := by
      rw [Int.toNat_of_nonneg (by omega)]
    rw [Int.cast_natCast] at this
    rw [this]; push_cast; ring
  refine ⟨?_, ?_, ?_, ?_, ?_⟩
  · rw [Finset.sum_congr rfl (g := fun _ => dc * dc * Real.sqrt 3 / 2)]
    · rw [Finset.sum_const, Int.card_Ico, nsmul_eq_mul]
      simp only [MeshParams.dims, sub_zero, hcard, periodX, periodY, lit_real, sqrt_real]
      push_cast
      ring
    · intro c hc
      rw [Finset.mem_Ico] at hc
      rw [hm.area_cell c hc]
      simp
  · rw [Finset.sum_congr rfl (g := fun _ => dc * dc * Real.sqrt 3 / 4)]
    · rw [Finset.sum_const, Int.card_Ico, nsmul_eq_mul]
      simp only [MeshParams.dims, sub_zero, hcard2, periodX, periodY, lit_real, sqrt_real]
      push_cast
      ring
    · intro c hc
      rw [Finset.mem_Ico] at hc
      rw [hm.area_triangle c hc.1 hc.2]
      simp
  · intro v h0 h1
    rw [Finset.sum_congr rfl (g := fun _ => dc * dc * Real.sqrt 3 / 12)]
    · rw [hm.area_triangle v h0 h1]
      simp
      ring
    · intro s hs
      rw [Finset.mem_Ico] at hs
      rw [hm.kitearea v h0 h1 s hs.1 hs.2]
      simp
  · intro c hc hc'
    rw [Finset.sum_congr rfl (g := fun _ => dc * dc * Real.sqrt 3 / 12)]
    · rw [hm.area_cell c ⟨hc, hc'⟩]
      simp
      ring
    · intro j hj
      rw [Finset.mem_Ico] at hj
      have hr := Hex.V_range hnx (ny := p.ny) (c := c) ⟨hc, hc'⟩ j
      have hk := (C08_kite_index hv hb c hc hc' j hj.1 hj.2).1
      rw [hm.voc c ⟨hc, hc'⟩ j hj.1 hj.2, hm.kitearea _ hr.1 hr.2 _ hk.1 hk.2]
      simp
  · intro c hc hc'
    rw [Finset.sum_congr rfl (g := fun _ => dc * dc * Real.sqrt 3 / 12)]
    · rw [hm.area_cell c ⟨hc, hc'⟩]
      simp
      ring
    · intro j hj
      rw [Finset.mem_Ico] at hj
      have hr := Hex.E_range hnx (ny := p.ny) (c := c) ⟨hc, hc'⟩ j hj.1 hj.2
      rw [hm.eoc c ⟨hc, hc'⟩ j hj.1 hj.2, hm.dc_edge _ hr.1 hr.2, hm.dv_edge _ hr.1 hr.2]
      simp
      ring

/-- The example mesh with spacing 1/4 has periods 1 and 3√3/4. -/
example : periodX p46.nx (1 / 4 : ℝ) = 1 ∧ periodY p46.ny (1 / 4 : ℝ) = 3 * Real.sqrt 3 / 4 := by
  simp [periodX, periodY, p46]
  ring

/-! ### C10 -/

/-- Equal modulo a whole number of periods. -/
def ModP (P a b : ℝ) : Prop := ∃ k : Int, a = b + k * P

theorem ModP.refl (P a : ℝ) : ModP P a a := ⟨0, by simp⟩
theorem ModP.of_eq {P a b : ℝ} (h : a = b) : ModP P a b := ⟨0, by simp [h]⟩
theorem ModP.trans {P a b c : ℝ} (h : ModP P a b) (h' : ModP P b c) : ModP P a c := by
  obtain ⟨k, rfl⟩ := h
  obtain ⟨l, rfl⟩ := h'
  exact ⟨k + l, by push_cast; ring⟩
theorem ModP.symm {P a b : ℝ} (h : ModP P a b) : ModP P b a := by
  obtain ⟨k, rfl⟩ := h
  exact ⟨-k, by push_cast; ring⟩
theorem ModP.add {P a b : ℝ} (h : ModP P a b) (c : ℝ) : ModP P (a + c) (b + c) := by
  obtain ⟨k, rfl⟩ := h
  exact ⟨k, by ring⟩

/-- Displacement to neighbour `j`, in units of the spacing. -/
noncomputable def DX (j : Int) : ℝ :=
  if j = 0 then -1 else if j = 1 then -1 / 2 else if j = 2 then 1 / 2 else if j = 3 then 1
  else if j = 4 then 1 / 2 else -1 / 2
/-- Displacement to neighbour `j`, in units of the row spacing. -/
noncomputable def DY (j : Int) : ℝ :=
  if j = 0 ∨ j = 3 then 0 else if j = 1 ∨ j = 2 then -1 else 1

theorem mx_mod (n i : Int) : ∃ k : Int, Hex.mx n i = i - 1 + k * n := by
  unfold Hex.mx
  split_ifs with h
  · exact ⟨1, by omega⟩
  · exact ⟨0, by ring⟩
theorem px_mod (n i : Int) : ∃ k : Int, Hex.px n i = i + 1 + k * n := by
  unfold Hex.px
  split_ifs with h
  · exact ⟨-1, by omega⟩
  · exact ⟨0, by ring⟩

theorem nbI_mod {nx j i r : Int} (h0 : 0 ≤ j) (h6 : j < 6) : ∃ k : Int,
    (Hex.nbI nx j i r : ℝ) = i + DX j +
      (if j = 0 ∨ j = 3 then 0 else if r % 2 = 0 then -1 / 2 else 1 / 2) + k * nx := by
  obtain ⟨a, ha⟩ := mx_mod nx i
  obtain ⟨b, hb⟩ := px_mod nx i
  have ha' : (Hex.mx nx i : ℝ) = i - 1 + a * nx := by exact_mod_cast ha
  have hb' : (Hex.px nx i : ℝ) = i + 1 + b * nx := by exact_mod_cast hb
  obtain rfl | rfl | rfl | rfl | rfl | rfl : j = 0 ∨ j = 1 ∨ j = 2 ∨ j = 3 ∨ j = 4 ∨ j = 5 := by
    omega
  all_goals by_cases hr : r % 2 = 0
  all_goals simp only [Hex.nbI, DX, hr]
  all_goals norm_num
  all_goals first
    | exact ⟨a, by rw [ha']; ring⟩
    | exact ⟨b, by rw [hb']; ring⟩
    | exact ⟨b, by rw [hb']⟩

/-- The neighbour table agrees with the coordinates, for an even number of rows. -/
theorem xC_nb {nx ny : Int} (hnx : 1 ≤ nx) (hny : ny % 2 = 0) (dc : ℝ) {c : Int}
    (hc : Hex.IsCell nx ny c) {j : Int} (h0 : 0 ≤ j) (h6 : j < 6) :
    ModP (periodX nx dc) (xC nx dc (Hex.nb nx ny j c)) (xC nx dc c + dc * DX j) := by
  obtain ⟨i, r, hi, hi', hr, hr', rfl⟩ := Hex.exists_coords hnx hc
  have hI := Hex.nbI_range (j := j) (r := r) hi hi'
  obtain ⟨k, hk⟩ := nbI_mod (nx := nx) (i := i) (r := r) h0 h6
  refine ⟨k, ?_⟩
  rw [Hex.nb_cid hi hi']
  unfold xC
  rw [Hex.row_cid hI.1 hI.2, Hex.col_cid hI.1 hI.2, Hex.row_cid hi hi', Hex.col_cid hi hi']
  simp only [lit_real, periodX]
  push_cast
  rw [hk]
  have hp : Hex.px ny r % 2 = 0 ↔ ¬ r % 2 = 0 := by unfold Hex.px; split_ifs <;> omega
  have hm : Hex.mx ny r % 2 = 0 ↔ ¬ r % 2 = 0 := by unfold Hex.mx; split_ifs <;> omega
  obtain rfl | rfl | rfl | rfl | rfl | rfl : j = 0 ∨ j = 1 ∨ j = 2 ∨ j = 3 ∨ j = 4 ∨ j = 5 := by
    omega
  all_goals simp only [Hex.nbR]
  all_goals norm_num
  all_goals
    by_cases h : r % 2 = 0 <;> simp [hp, hm, h] <;> ring

theorem yC_nb {nx ny : Int} (hnx : 1 ≤ nx) (dc : ℝ) {c : Int}
    (hc : Hex.IsCell nx ny c) {j : Int} (h0 : 0 ≤ j) (h6 : j < 6) :
    ModP (periodY ny dc) (yC nx dc (Hex.nb nx ny j c))
      (yC nx dc c + dc * (DY j * Real.sqrt 3 / 2)) := by
  obtain ⟨i, r, hi, hi', hr, hr', rfl⟩ := Hex.exists_coords hnx hc
  have hI := Hex.nbI_range (j := j) (r := r) hi hi'
  rw [Hex.nb_cid hi hi']
  unfold yC
  rw [Hex.row_cid hI.1 hI.2, Hex.row_cid hi hi']
  have key : ∃ k : Int, (Hex.nbR ny j r : ℝ) = r + DY j + k * ny := by
    obtain ⟨a, ha⟩ := mx_mod ny r
    obtain ⟨b, hb⟩ := px_mod ny r
    have ha' : (Hex.mx ny r : ℝ) = r - 1 + a * ny := by exact_mod_cast ha
    have hb' : (Hex.px ny r : ℝ) = r + 1 + b * ny := by exact_mod_cast hb
    unfold Hex.nbR DY
    split_ifs
    · exact ⟨0, by simp⟩
    · exact ⟨a, by rw [ha']; ring⟩
    · exact ⟨b, by rw [hb']⟩
  obtain ⟨k, hk⟩ := key
  refine ⟨k, ?_⟩
  simp only [lit_real, periodY, sqrt_real]
  push_cast
  rw [hk]
  ring

/-- Corner `a` relative to the cell centre, in units of the spacing. -/
noncomputable def VX (a : Int) : ℝ :=
  if a = 0 then -1 / 2 else if a = 1 then -1 / 2 else if a = 2 then 0 else 1 / 2
/-- Corner `a` relative to the cell centre, north, in units of spacing times √3/6. -/
noncomputable def VY (a : Int) : ℝ :=
  if a = 0 then 1 else if a = 1 then -1 else if a = 2 then -2 else -1

theorem xV_V {nx ny : Int} (hnx : 1 ≤ nx) (hny : ny % 2 = 0) (dc : ℝ) {c : Int}
    (hc : Hex.IsCell nx ny c) {a : Int} (h0 : 0 ≤ a) (h4 : a < 4) :
    ModP (periodX nx dc) (xV nx dc (Hex.V nx ny c a)) (xC nx dc c + dc * VX a) := by
  obtain rfl | rfl | rfl | rfl : a = 0 ∨ a = 1 ∨ a = 2 ∨ a = 3 := by omega
  · apply ModP.of_eq; simp [xV, Hex.V, VX]; ring
  · apply ModP.of_eq
    have : (2 * c + 1) / 2 = c := by omega
    simp [xV, Hex.V, VX, this]; ring
  · have h := (xC_nb hnx hny dc hc (j := 2) (by omega) (by omega)).add (-(dc / 2))
    simp only [xV, Hex.V]
    norm_num
    rw [sub_eq_add_neg]
    refine h.trans (ModP.of_eq ?_)
    simp [DX, VX]; ring
  · have h := (xC_nb hnx hny dc hc (j := 3) (by omega) (by omega)).add (-(dc / 2))
    have e : (2 * Hex.nb nx ny 3 c + 1) / 2 = Hex.nb nx ny 3 c := by omega
    simp only [xV, Hex.V]
    norm_num
    rw [sub_eq_add_neg, e]
    refine h.trans (ModP.of_eq ?_)
    simp [DX, VX]; ring

theorem yV_V {nx ny : Int} (hnx : 1 ≤ nx) (dc : ℝ) {c : Int}
    (hc : Hex.IsCell nx ny c) {a : Int} (h0 : 0 ≤ a) (h4 : a < 4) :
    ModP (periodY ny dc) (yV nx dc (Hex.V nx ny c a))
      (yC nx dc c + dc * (VY a * Real.sqrt 3 / 6)) := by
  obtain rfl | rfl | rfl | rfl : a = 0 ∨ a = 1 ∨ a = 2 ∨ a = 3 := by omega
  · apply ModP.of_eq; simp [yV, Hex.V, VY]; ring
  · apply ModP.of_eq
    have : (2 * c + 1) / 2 = c := by omega
    simp [yV, Hex.V, VY, this]; ring
  · have h := (yC_nb hnx dc hc (j := 2) (by omega) (by omega)).add (dc * Real.sqrt 3 / 6)
    simp only [yV, Hex.V]
    norm_num
    refine h.trans (ModP.of_eq ?_)
    simp [DY, VY]; ring
  · have h := (yC_nb hnx dc hc (j := 3) (by omega) (by omega)).add (-(dc * Real.sqrt 3 / 6))
    have e : (2 * Hex.nb nx ny 3 c + 1) / 2 = Hex.nb nx ny 3 c := by omega
    simp only [yV, Hex.V]
    norm_num
    rw [sub_eq_add_neg, e]
    refine h.trans (ModP.of_eq ?_)
    simp [DY, VY]; ring

theorem cos_two_pi_three : Real.cos (2 * Real.pi / 3) = -1 / 2 := by
  rw [show 2 * Real.pi / 3 = Real.pi - Real.pi / 3 by ring, Real.cos_pi_sub, Real.cos_pi_div_three]
  ring
theorem sin_two_pi_three : Real.sin (2 * Real.pi / 3) = Real.sqrt 3 / 2 := by
  rw [show 2 * Real.pi / 3 = Real.pi - Real.pi / 3 by ring, Real.sin_pi_sub, Real.sin_pi_div_three]

/-- direction of the edge normal -/
theorem cos_angE (e : Int) : Real.cos (angE e : ℝ) = - DX (e % 3) := by
  obtain h | h | h : e % 3 = 0 ∨ e % 3 = 1 ∨ e % 3 = 2 := by omega
  all_goals simp [angE, h, DX]
  · norm_num
  · rw [cos_two_pi_three]; norm_num
theorem sin_angE (e : Int) : Real.sin (angE e : ℝ) = - (DY (e % 3) * Real.sqrt 3 / 2) := by
  obtain h | h | h : e % 3 = 0 ∨ e % 3 = 1 ∨ e % 3 = 2 := by omega
  all_goals simp [angE, h, DY]
  · ring
  · rw [sin_two_pi_three]; ring

/-- For an even number of rows the stored coordinates agree with the connectivity: centre to centre
along the edge normal, edge at the midpoint, vertices along the left-hand tangent, and both vertices at
distance `dc/√3` from both cells; all modulo the two periods. -/
theorem C10_coordinates {p : MeshParams} (hv : MeshParams.Valid p) (hny : p.ny % 2 = 0) {dc : ℝ}
    {m : Mem ℝ} (hb : Built p dc m) (e : Int) (he : 0 ≤ e) (he' : e < p.dims.nedges) :
    let PX := periodX p.nx dc
    let PY := periodY p.ny dc
    let θ := m.real .angle_edge 0 e 0
    let c0 := m.int .cells_on_edge e 0
    let c1 := m.int .cells_on_edge e 1
    let v0 := m.int .vertices_on_edge e 0
    let v1 := m.int .vertices_on_edge e 1
    (ModP PX (m.real .x_cell 0 c1 0) (m.real .x_cell 0 c0 0 + m.real .dc_edge 0 e 0 * Real.cos θ) ∧
     ModP PY (m.real .y_cell 0 c1 0) (m.real .y_cell 0 c0 0 + m.real .dc_edge 0 e 0 * Real.sin θ)) ∧
    (ModP PX (m.real .x_edge 0 e 0)
        (m.real .x_cell 0 c0 0 + m.real .dc_edge 0 e 0 / 2 * Real.cos θ) ∧
     ModP PY (m.real .y_edge 0 e 0)
        (m.real .y_cell 0 c0 0 + m.real .dc_edge 0 e 0 / 2 * Real.sin θ)) ∧
    (ModP PX (m.real .x_vertex 0 v1 0)
        (m.real .x_vertex 0 v0 0 + m.real .dv_edge 0 e 0 * (- Real.sin θ)) ∧
     ModP PY (m.real .y_vertex 0 v1 0)
        (m.real .y_vertex 0 v0 0 + m.real .dv_edge 0 e 0 * Real.cos θ)) ∧
    (∀ v ∈ [v0, v1], ∀ c ∈ [c0, c1], ∃ dx dy : ℝ,
      ModP PX (m.real .x_vertex 0 v 0) (m.real .x_cell 0 c 0 + dx) ∧
      ModP PY (m.real .y_vertex 0 v 0) (m.real .y_cell 0 c 0 + dy) ∧
      dx ^ 2 + dy ^ 2 = (dc / Real.sqrt 3) ^ 2) := by
  have hm := hb.hex hv
  have hnx := hv.nx_pos
  simp only [MeshParams.dims] at he'
  have hC := Hex.isCell_edge he he'
  have r0 := Hex.voe_isVertex hnx hC (Or.inl rfl : (0 : Int) = 0 ∨ (0 : Int) = 1)
  have r1 := Hex.voe_isVertex hnx hC (Or.inr rfl : (1 : Int) = 0 ∨ (1 : Int) = 1)
  have hcC := Hex.coe_isCell hnx he he' (s := 0)
  have hc0 : Hex.coe p.nx p.ny e 0 = Hex.nb p.nx p.ny (e % 3) (e / 3) := by
    show Hex.inv _ _ _ _ = _
    rw [Hex.inv_eq_nb hnx hny hC (by omega) (by omega)]
    congr 1; omega
  have hc1 : Hex.coe p.nx p.ny e 1 = e / 3 := rfl
  have ht0 := Hex.voe_E (nx := p.nx) (ny := p.ny) (c := e / 3) (a := e % 3) (s := 0) (by omega)
    (by omega) (by omega)
  have ht1 := Hex.voe_E (nx := p.nx) (ny := p.ny) (c := e / 3) (a := e % 3) (s := 1) (by omega)
    (by omega) (by omega)
  rw [← Hex.eq_E_lo] at ht0 ht1
  have hcC' : Hex.IsCell p.nx p.ny (Hex.nb p.nx p.ny (e % 3) (e / 3)) := by rw [← hc0]; exact hcC
  have hr3 : 0 ≤ e % 3 ∧ e % 3 < 3 := by omega
  -- positions relative to the second cell
  have X0 := (xC_nb hnx hny dc hC (j := e % 3) (by omega) (by omega))
  have Y0 := (yC_nb hnx dc hC (j := e % 3) (by omega) (by omega))
  have XV0 := xV_V hnx hny dc hC (a := e % 3 + 1 - 0) (by omega) (by omega)
  have XV1 := xV_V hnx hny dc hC (a := e % 3 + 1 - 1) (by omega) (by omega)
  have YV0 := yV_V hnx dc hC (a := e % 3 + 1 - 0) (by omega) (by omega)
  have YV1 := yV_V hnx dc hC (a := e % 3 + 1 - 1) (by omega) (by omega)
  rw [← ht0] at XV0 YV0
  rw [← ht1] at XV1 YV1
  have hs3 : Real.sqrt 3 * Real.sqrt 3 = 3 := Real.mul_self_sqrt (by norm_num)
  have hs3' : (Real.sqrt 3)⁻¹ = Real.sqrt 3 / 3 := by
    rw [inv_eq_one_div, div_eq_div_iff (by positivity) (by norm_num)]; linarith
  intro PX PY θ c0 c1 v0 v1
  have e0 : c0 = Hex.nb p.nx p.ny (e % 3) (e / 3) := by
    rw [← hc0]; exact hm.coe e he he' 0 (by omega) (by omega)
  have e1 : c1 = e / 3 := hm.coe e he he' 1 (by omega) (by omega)
  have f0 : v0 = Hex.voe p.nx p.ny e 0 := hm.voe e he he' 0 (by omega) (by omega)
  have f1 : v1 = Hex.voe p.nx p.ny e 1 := hm.voe e he he' 1 (by omega) (by omega)
  have hth : θ = angE e := hm.angle_edge e he he'
  have hdv : m.real .dv_edge 0 e 0 = dc * Real.sqrt 3 / 3 := by
    rw [hm.dv_edge e he he']; simp
  rw [e0, e1, f0, f1, hth, hm.dc_edge e he he', hdv, hm.x_cell _ hC, hm.y_cell _ hC,
    hm.x_cell _ hcC', hm.y_cell _ hcC', hm.x_edge e he he', hm.y_edge e he he',
    hm.x_vertex _ r0.1 r0.2, hm.x_vertex _ r1.1 r1.2, hm.y_vertex _ r0.1 r0.2,
    hm.y_vertex _ r1.1 r1.2, cos_angE, sin_angE]
  refine ⟨⟨?_, ?_⟩, ⟨?_, ?_⟩, ⟨?_, ?_⟩, ?_⟩
  · exact ((X0.add (dc * -DX (e % 3))).trans (ModP.of_eq (by ring))).symm
  · exact ((Y0.add (dc * -(DY (e % 3) * Real.sqrt 3 / 2))).trans (ModP.of_eq (by ring))).symm
  · refine ((X0.add (dc / 2 * -DX (e % 3))).trans (ModP.of_eq ?_)).symm
    obtain h | h | h : e % 3 = 0 ∨ e % 3 = 1 ∨ e % 3 = 2 := by omega
    all_goals simp [xE, h, DX]; ring
  · refine ((Y0.add (dc / 2 * -(DY (e % 3) * Real.sqrt 3 / 2))).trans (ModP.of_eq ?_)).symm
    obtain h | h | h : e % 3 = 0 ∨ e % 3 = 1 ∨ e % 3 = 2 := by omega
    all_goals simp [yE, h, DY]; try ring
  · refine XV1.trans ((XV0.add _).trans (ModP.of_eq ?_)).symm
    obtain h | h | h : e % 3 = 0 ∨ e % 3 = 1 ∨ e % 3 = 2 := by omega
    all_goals rw [h]; simp [VX, DY]
    all_goals first | ring1 | linear_combination (-dc / 6) * hs3
  · refine YV1.trans ((YV0.add _).trans (ModP.of_eq ?_)).symm
    obtain h | h | h : e % 3 = 0 ∨ e % 3 = 1 ∨ e % 3 = 2 := by omega
    all_goals rw [h]; simp [VY, DX]; ring
  · intro v hv' c hc'
    simp only [List.mem_cons, List.not_mem_nil, or_false] at hv' hc'
    have hA : ∀ a : Int, 0 ≤ a → a < 4 → (dc * VX a) ^ 2 + (dc * (VY a * Real.sqrt 3 / 6)) ^ 2
        = (dc / Real.sqrt 3) ^ 2 := by
      intro a h0 h4
      rw [div_eq_mul_inv dc, hs3']
      obtain rfl | rfl | rfl | rfl : a = 0 ∨ a = 1 ∨ a = 2 ∨ a = 3 := by omega
      all_goals simp [VX, VY]
      · linear_combination (-dc ^ 2 / 12) * hs3
      · linear_combination (-dc ^ 2 / 12) * hs3
      · ring
      · linear_combination (-dc ^ 2 / 12) * hs3
    have hB : ∀ a : Int, a = e % 3 ∨ a = e % 3 + 1 →
        (dc * (VX a - DX (e % 3))) ^ 2 +
          (dc * (VY a * Real.sqrt 3 / 6 - DY (e % 3) * Real.sqrt 3 / 2)) ^ 2
        = (dc / Real.sqrt 3) ^ 2 := by
      intro a ha
      rw [div_eq_mul_inv dc, hs3']
      obtain h | h | h : e % 3 = 0 ∨ e % 3 = 1 ∨ e % 3 = 2 := by omega
      all_goals rw [h] at ha ⊢
      all_goals rcases ha with rfl | rfl
      all_goals simp [VX, VY, DX, DY]
      all_goals first
        | ring1
        | linear_combination (-dc ^ 2 / 12) * hs3
    rcases hv' with h1 | h1 <;> rcases hc' with h2 | h2 <;> rw [h1, h2]
    · rw [hm.x_vertex _ r0.1 r0.2, hm.y_vertex _ r0.1 r0.2, hm.x_cell _ hcC',
        hm.y_cell _ hcC']
      refine ⟨_, _, XV0.trans ((X0.add _).trans (ModP.of_eq ?_)).symm,
        YV0.trans ((Y0.add _).trans (ModP.of_eq ?_)).symm, hB (e % 3 + 1 - 0) (Or.inr (by ring))⟩
      · ring
      · ring
    · rw [hm.x_vertex _ r0.1 r0.2, hm.y_vertex _ r0.1 r0.2, hm.x_cell _ hC, hm.y_cell _ hC]
      exact ⟨_, _, XV0, YV0, hA _ (by omega) (by omega)⟩
    · rw [hm.x_vertex _ r1.1 r1.2, hm.y_vertex _ r1.1 r1.2, hm.x_cell _ hcC',
        hm.y_cell _ hcC']
      refine ⟨_, _, XV1.trans ((X0.add _).trans (ModP.of_eq ?_)).symm,
        YV1.trans ((Y0.add _).trans (ModP.of_eq ?_)).symm, hB (e % 3 + 1 - 1) (Or.inl (by ring))⟩
      · ring
      · ring
    · rw [hm.x_vertex _ r1.1 r1.2, hm.y_vertex _ r1.1 r1.2, hm.x_cell _ hC, hm.y_cell _ hC]
      exact ⟨_, _, XV1, YV1, hA _ (by omega) (by omega)⟩

example : p46.ny % 2 = 0 ∧ (∃ m : Mem ℝ, Built p46 (1 / 4) m) ∧ (71 : Int) < p46.dims.nedges :=
  ⟨rfl, ⟨_, built_meshMem p46_valid _ ⟨fun _ _ _ => 0, fun _ _ _ _ => 0⟩⟩, by
    simp [MeshParams.dims, p46]⟩

end Props
end Omega
