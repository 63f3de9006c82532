import Verif.Refine.HexReal

/-!
# Identities of the lattice operators
-/

set_option linter.unusedSectionVars false
set_option linter.unusedVariables false

namespace Omega
noncomputable section

namespace Hex

open Finset Refine

variable {nx ny : Int}

/-- With an even number of rows, two turns around a corner. -/
theorem nb_turn (hnx : 1 ≤ nx) (hny : ny % 2 = 0) {a : Int} (ha : IsCell nx ny a) {j : Int}
    (h0 : 0 ≤ j) (h6 : j < 6) :
    nb nx ny ((j + 2) % 6) (nb nx ny j a) = nb nx ny ((j + 1) % 6) a := by
  obtain ⟨i, r, hi, hi', hr, hr', rfl⟩ := exists_coords hnx ha
  have hI := nbI_range (j := j) (r := r) hi hi'
  rw [nb_cid hi hi', nb_cid hi hi', nb_cid hI.1 hI.2]
  have hp : px ny r % 2 = 0 ↔ ¬ r % 2 = 0 := by unfold px; split_ifs <;> omega
  have hm : mx ny r % 2 = 0 ↔ ¬ r % 2 = 0 := by unfold mx; split_ifs <;> omega
  have e1 := mx_px hi hi'
  have e2 := px_mx hi hi'
  have e3 := mx_px hr hr'
  have e4 := px_mx hr hr'
  obtain rfl | rfl | rfl | rfl | rfl | rfl : j = 0 ∨ j = 1 ∨ j = 2 ∨ j = 3 ∨ j = 4 ∨ j = 5 := by
    omega
  all_goals simp only [nbI, nbR]
  all_goals norm_num
  all_goals by_cases h : r % 2 = 0 <;> simp [hp, hm, h, e1, e2, e3, e4]

/-- The same turn the other way. -/
theorem nb_turn' (hnx : 1 ≤ nx) (hny : ny % 2 = 0) {a : Int} (ha : IsCell nx ny a) {j : Int}
    (h0 : 0 ≤ j) (h6 : j < 6) :
    nb nx ny ((j + 4) % 6) (nb nx ny j a) = nb nx ny ((j + 5) % 6) a := by
  obtain ⟨i, r, hi, hi', hr, hr', rfl⟩ := exists_coords hnx ha
  have hI := nbI_range (j := j) (r := r) hi hi'
  rw [nb_cid hi hi', nb_cid hi hi', nb_cid hI.1 hI.2]
  have hp : px ny r % 2 = 0 ↔ ¬ r % 2 = 0 := by unfold px; split_ifs <;> omega
  have hm : mx ny r % 2 = 0 ↔ ¬ r % 2 = 0 := by unfold mx; split_ifs <;> omega
  have e1 := mx_px hi hi'
  have e2 := px_mx hi hi'
  have e3 := mx_px hr hr'
  have e4 := px_mx hr hr'
  obtain rfl | rfl | rfl | rfl | rfl | rfl : j = 0 ∨ j = 1 ∨ j = 2 ∨ j = 3 ∨ j = 4 ∨ j = 5 := by
    omega
  all_goals simp only [nbI, nbR]
  all_goals norm_num
  all_goals by_cases h : r % 2 = 0 <;> simp [hp, hm, h, e1, e2, e3, e4]

theorem divmod3 (c r : Int) (h0 : 0 ≤ r) (h3 : r < 3) : (3 * c + r) / 3 = c ∧ (3 * c + r) % 3 = r := by
  omega

/-- Edges of an even vertex `2A`, as sides of the three cells `A`, `B`, `C` around it. -/
theorem even_vertex (hnx : 1 ≤ nx) (hny : ny % 2 = 0) {v : Int} (hv : IsCell nx ny (v / 2))
    (hp : v % 2 = 0) : ∃ A B C, IsCell nx ny A ∧ IsCell nx ny B ∧ IsCell nx ny C ∧
      cov nx ny v 0 = A ∧ cov nx ny v 1 = B ∧ cov nx ny v 2 = C ∧
      eov nx ny v 0 = E nx ny A 0 ∧ E nx ny C 3 = E nx ny A 0 ∧
      eov nx ny v 1 = E nx ny B 2 ∧ E nx ny A 5 = E nx ny B 2 ∧
      eov nx ny v 2 = E nx ny B 1 ∧ E nx ny C 4 = E nx ny B 1 ∧
      coe nx ny (E nx ny A 0) 0 = C ∧ coe nx ny (E nx ny B 2) 0 = A ∧
      coe nx ny (E nx ny B 1) 0 = C := by
  set A := v / 2 with hA
  have i2 : inv nx ny 2 A = nb nx ny 5 A := inv_eq_nb hnx hny hv (by omega) (by omega)
  have i3 : inv nx ny 3 A = nb nx ny 0 A := inv_three A
  have hB : IsCell nx ny (nb nx ny 5 A) := nb_isCell hnx hv
  have hC : IsCell nx ny (nb nx ny 0 A) := nb_isCell hnx hv
  have t1 : nb nx ny 3 (nb nx ny 0 A) = A := nb_nb hnx hny hv (j := 0) (by omega) (by omega)
  have t2 : nb nx ny 4 (nb nx ny 0 A) = nb nx ny 5 A := by
    simpa using nb_turn' hnx hny hv (j := 0) (by omega) (by omega)
  have t3 : nb nx ny 1 (nb nx ny 5 A) = nb nx ny 0 A := by
    simpa using nb_turn hnx hny hv (j := 5) (by omega) (by omega)
  have t4 : nb nx ny 2 (nb nx ny 5 A) = A := by
    simpa using nb_nb hnx hny hv (j := 5) (by omega) (by omega)
  refine ⟨A, nb nx ny 5 A, nb nx ny 0 A, hv, hB, hC, ?_, ?_, ?_, ?_, ?_, ?_, ?_, ?_, ?_, ?_, ?_, ?_⟩
  · simp [cov, hp, hA]
  · simp [cov, hp, ← hA, i2]
  · simp [cov, hp, ← hA, i3]
  · simp [eov, E, hp, ← hA]
  · simp [E, t1]
  · simp [eov, E, hp, ← hA, i2]
  · simp [E]
  · simp [eov, E, hp, ← hA, i2]
  · simp [E, t2]
  · rw [coe_zero, E_div_lo (by omega) (by omega), E_mod (by omega) (by omega)]
    norm_num; rw [i3]
  · rw [coe_zero, E_div_lo (by omega) (by omega), E_mod (by omega) (by omega)]
    norm_num
    rw [inv_eq_nb hnx hny hB (by omega) (by omega)]; norm_num; exact t4
  · rw [coe_zero, E_div_lo (by omega) (by omega), E_mod (by omega) (by omega)]
    norm_num
    rw [inv_eq_nb hnx hny hB (by omega) (by omega)]; norm_num; exact t3

/-- Edges of an odd vertex `2A + 1`. -/
theorem odd_vertex (hnx : 1 ≤ nx) (hny : ny % 2 = 0) {v : Int} (hv : IsCell nx ny (v / 2))
    (hp : ¬ v % 2 = 0) : ∃ A B C, IsCell nx ny A ∧ IsCell nx ny B ∧ IsCell nx ny C ∧
      cov nx ny v 2 = A ∧ cov nx ny v 0 = B ∧ cov nx ny v 1 = C ∧
      eov nx ny v 0 = E nx ny A 0 ∧ E nx ny B 3 = E nx ny A 0 ∧
      eov nx ny v 1 = E nx ny B 2 ∧ E nx ny C 5 = E nx ny B 2 ∧
      eov nx ny v 2 = E nx ny A 1 ∧ E nx ny C 4 = E nx ny A 1 ∧
      coe nx ny (E nx ny A 0) 0 = B ∧ coe nx ny (E nx ny B 2) 0 = C ∧
      coe nx ny (E nx ny A 1) 0 = C := by
  set A := v / 2 with hA
  have i4 : inv nx ny 4 A = nb nx ny 1 A := inv_eq_nb hnx hny hv (by omega) (by omega)
  have i3 : inv nx ny 3 A = nb nx ny 0 A := inv_three A
  have hB : IsCell nx ny (nb nx ny 0 A) := nb_isCell hnx hv
  have hC : IsCell nx ny (nb nx ny 1 A) := nb_isCell hnx hv
  have t1 : nb nx ny 3 (nb nx ny 0 A) = A := nb_nb hnx hny hv (j := 0) (by omega) (by omega)
  have t2 : nb nx ny 5 (nb nx ny 1 A) = nb nx ny 0 A := by
    simpa using nb_turn' hnx hny hv (j := 1) (by omega) (by omega)
  have t3 : nb nx ny 2 (nb nx ny 0 A) = nb nx ny 1 A := by
    simpa using nb_turn hnx hny hv (j := 0) (by omega) (by omega)
  have t4 : nb nx ny 4 (nb nx ny 1 A) = A := by
    simpa using nb_nb hnx hny hv (j := 1) (by omega) (by omega)
  refine ⟨A, nb nx ny 0 A, nb nx ny 1 A, hv, hB, hC, ?_, ?_, ?_, ?_, ?_, ?_, ?_, ?_, ?_, ?_, ?_, ?_⟩
  · simp [cov, hp, hA]
  · simp [cov, hp, ← hA, i3]
  · simp [cov, hp, ← hA, i4]
  · simp [eov, E, hp, ← hA]
  · simp [E, t1]
  · simp [eov, E, hp, ← hA, i3]
  · simp [E, t2]
  · simp [eov, E, hp, ← hA]
  · simp [E, t4]
  · rw [coe_zero, E_div_lo (by omega) (by omega), E_mod (by omega) (by omega)]
    norm_num; rw [i3]
  · rw [coe_zero, E_div_lo (by omega) (by omega), E_mod (by omega) (by omega)]
    norm_num
    rw [inv_eq_nb hnx hny hB (by omega) (by omega)]; norm_num; exact t3
  · rw [coe_zero, E_div_lo (by omega) (by omega), E_mod (by omega) (by omega)]
    norm_num
    exact i4

theorem Gr_lo (φ : Int → ℝ) {c j : Int} (h0 : 0 ≤ j) (h3 : j < 3) :
    Gr nx ny φ (E nx ny c j) = φ c - φ (coe nx ny (E nx ny c j) 0) := by
  unfold Gr; rw [coe_one, E_div_lo h0 h3]

/-- The curl of a gradient. -/
theorem Cu_Gr (hnx : 1 ≤ nx) (hny : ny % 2 = 0) (φ : Int → ℝ) {v : Int} (h0 : 0 ≤ v)
    (h1 : v < 2 * (nx * ny)) : Cu nx ny (Gr nx ny φ) v = 0 := by
  have hv := isCell_vertex h0 h1
  unfold Cu
  by_cases hp : v % 2 = 0
  · obtain ⟨A, B, C, _, _, _, _, _, _, e0, _, e1, _, e2, _, c0, c1, c2⟩ := even_vertex hnx hny hv hp
    rw [if_pos hp, e0, e1, e2, Gr_lo φ (by omega) (by omega), Gr_lo φ (by omega) (by omega),
      Gr_lo φ (by omega) (by omega), c0, c1, c2]
    ring
  · obtain ⟨A, B, C, _, _, _, _, _, _, e0, _, e1, _, e2, _, c0, c1, c2⟩ := odd_vertex hnx hny hv hp
    rw [if_neg hp, e0, e1, e2, Gr_lo φ (by omega) (by omega), Gr_lo φ (by omega) (by omega),
      Gr_lo φ (by omega) (by omega), c0, c1, c2]
    ring

/-- weighted sum of an edge field -/
def Tn (nx ny : Int) (u : Int → ℝ) (e : Int) : ℝ := Tw nx ny (fun _ e' => u e') e

theorem Tn_lo (hnx : 1 ≤ nx) (u : Int → ℝ) {c j : Int} (hc : IsCell nx ny c) (h0 : 0 ≤ j)
    (h3 : j < 3) : Tn nx ny u (E nx ny c j) =
      Tq nx ny (fun _ e' => u e') (coe nx ny (E nx ny c j) 0) (j + 3) +
      Tq nx ny (fun _ e' => u e') c j := by
  unfold Tn
  rw [Tw_eq hnx _ (by rw [E_div_lo h0 h3]; exact hc), E_div_lo h0 h3, E_mod h0 (by omega),
    show j % 3 = j by omega]

/-- The curl of the reconstruction. -/
theorem Cu_Tn (hnx : 1 ≤ nx) (hny : ny % 2 = 0) (u : Int → ℝ) {v : Int} (h0 : 0 ≤ v)
    (h1 : v < 2 * (nx * ny)) :
    Cu nx ny (Tn nx ny u) v = -(1 / 2) * Mv nx ny (Dv nx ny u) v := by
  have hv := isCell_vertex h0 h1
  unfold Cu Mv
  by_cases hp : v % 2 = 0
  · obtain ⟨A, B, C, hA, hB, hC, v0, v1, v2, e0, s0, e1, s1, e2, s2, c0, c1, c2⟩ :=
      even_vertex hnx hny hv hp
    rw [if_pos hp, e0, e1, e2, Tn_lo hnx u hA (by omega) (by omega),
      Tn_lo hnx u hB (by omega) (by omega), Tn_lo hnx u hB (by omega) (by omega), c0, c1, c2,
      v0, v1, v2]
    unfold Tq Dv
    norm_num
    simp [wRaw]
    rw [s0, s1, s2]
    ring
  · obtain ⟨A, B, C, hA, hB, hC, v0, v1, v2, e0, s0, e1, s1, e2, s2, c0, c1, c2⟩ :=
      odd_vertex hnx hny hv hp
    rw [if_neg hp, e0, e1, e2, Tn_lo hnx u hA (by omega) (by omega),
      Tn_lo hnx u hB (by omega) (by omega), Tn_lo hnx u hA (by omega) (by omega), c0, c1, c2,
      v0, v1, v2]
    unfold Tq Dv
    norm_num
    simp [wRaw]
    rw [s0, s1, s2]
    ring

/-- A field that depends only on the direction of the edge, with the three directions summing as the
directions of a hexagon do. -/
theorem Tn_uniform (hnx : 1 ≤ nx) (u : Int → ℝ) (f : Int → ℝ)
    (hu : ∀ e, 0 ≤ e → e < 3 * (nx * ny) → u e = f (e % 3)) {e : Int} (h0 : 0 ≤ e)
    (h1 : e < 3 * (nx * ny)) :
    Tn nx ny u e = if e % 3 = 0 then f 1 + f 2 else if e % 3 = 1 then f 2 - f 0 else -(f 0) - f 1 := by
  have hc := isCell_edge h0 h1
  have hc0 : IsCell nx ny (coe nx ny e 0) := coe_isCell hnx h0 h1
  have ht : ∀ c, IsCell nx ny c → ∀ j, 0 ≤ j → j < 6 → u (E nx ny c j) = f (j % 3) := by
    intro c hc j a b
    have := E_range hnx hc j a b
    rw [hu _ this.1 this.2, E_mod a b]
  unfold Tn
  rw [Tw_eq hnx _ hc]
  unfold Tq
  obtain h | h | h : e % 3 = 0 ∨ e % 3 = 1 ∨ e % 3 = 2 := by omega
  all_goals
    rw [h]
    norm_num
    simp only [ht _ hc, ht _ hc0, Int.reduceLE, Int.reduceLT, Int.reduceMod]
    norm_num [wRaw]
    ring

end Hex
end
end Omega
