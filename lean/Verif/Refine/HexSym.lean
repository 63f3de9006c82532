import Verif.Refine.HexSpec

/-!
# Half turn and mirror image of the hexagonal lattice

A symmetry of the lattice renames cells, edges and vertices, may turn the normal of an edge around
(`eps`) and may reverse the sense of rotation (`kap`).  `LatSym` says what it does to the lattice
operators; the half turn and the mirror image in a vertical line are symmetries, the period being
any number of columns and an even number of rows.
-/

set_option linter.unusedSectionVars false
set_option linter.unusedVariables false

namespace Omega
noncomputable section

namespace Hex

open Refine

/-- A symmetry of the lattice, by its effect on the lattice operators. -/
structure LatSym (nx ny : Int) where
  /-- cells -/
  c : Int → Int
  /-- edges -/
  e : Int → Int
  /-- vertices -/
  v : Int → Int
  /-- `-1` where the normal of the edge is turned around -/
  eps : Int → ℝ
  /-- `-1` if the sense of rotation is reversed -/
  kap : ℝ
  eps_sq : ∀ i, eps i * eps i = 1
  kap_sq : kap * kap = 1
  cell : ∀ {i}, IsCell nx ny i → IsCell nx ny (c i)
  edge : ∀ {i}, 0 ≤ i → i < 3 * (nx * ny) → 0 ≤ e i ∧ e i < 3 * (nx * ny)
  vert : ∀ {i}, 0 ≤ i → i < 2 * (nx * ny) → 0 ≤ v i ∧ v i < 2 * (nx * ny)
  gr : ∀ (φ : Int → ℝ) {i}, 0 ≤ i → i < 3 * (nx * ny) →
    Gr nx ny (fun j => φ (c j)) i = eps i * Gr nx ny φ (e i)
  mn : ∀ (φ : Int → ℝ) {i}, 0 ≤ i → i < 3 * (nx * ny) →
    Mn nx ny (fun j => φ (c j)) i = Mn nx ny φ (e i)
  gv : ∀ (ψ : Int → ℝ) {i}, 0 ≤ i → i < 3 * (nx * ny) →
    Gv nx ny (fun j => ψ (v j)) i = kap * eps i * Gv nx ny ψ (e i)
  vm : ∀ (ψ : Int → ℝ) {i}, 0 ≤ i → i < 3 * (nx * ny) →
    ψ (v (voe nx ny i 0)) + ψ (v (voe nx ny i 1)) = ψ (voe nx ny (e i) 0) + ψ (voe nx ny (e i) 1)
  dv : ∀ (u : Int → ℝ) {i}, IsCell nx ny i →
    Dv nx ny (fun j => eps j * u (e j)) i = Dv nx ny u (c i)
  sd : ∀ (u : Int → ℝ) {i}, IsCell nx ny i → Sd nx ny (fun j => u (e j)) i = Sd nx ny u (c i)
  mv : ∀ (φ : Int → ℝ) {i}, 0 ≤ i → i < 2 * (nx * ny) →
    Mv nx ny (fun j => φ (c j)) i = Mv nx ny φ (v i)
  cu : ∀ (u : Int → ℝ) {i}, 0 ≤ i → i < 2 * (nx * ny) →
    Cu nx ny (fun j => eps j * u (e j)) i = kap * Cu nx ny u (v i)
  tw : ∀ (F : Int → Int → ℝ) {i}, 0 ≤ i → i < 3 * (nx * ny) →
    Tw nx ny (fun i j => eps j * F (e i) (e j)) i = kap * eps i * Tw nx ny F (e i)

/-- nothing moves -/
def LatSym.id (nx ny : Int) : LatSym nx ny where
  c i := i
  e i := i
  v i := i
  eps _ := 1
  kap := 1
  eps_sq _ := one_mul 1
  kap_sq := one_mul 1
  cell h := h
  edge h h' := ⟨h, h'⟩
  vert h h' := ⟨h, h'⟩
  gr _ _ _ _ := (one_mul _).symm
  mn _ _ _ _ := rfl
  gv _ _ _ _ := by simp
  vm _ _ _ _ := rfl
  dv _ _ _ := by simp
  sd _ _ _ := rfl
  mv _ _ _ _ := rfl
  cu _ _ _ _ := by simp
  tw _ _ _ _ := by simp

section

variable {nx ny : Int} (hnx : 1 ≤ nx) (hny : ny % 2 = 0)

/-! ### Sides and corners of a cell -/

theorem cases6 {j : Int} (h0 : 0 ≤ j) (h6 : j < 6) :
    j = 0 ∨ j = 1 ∨ j = 2 ∨ j = 3 ∨ j = 4 ∨ j = 5 := by omega

/-- which way the normal of side `j` points, out of the cell or into it -/
def sg (j : Int) : ℝ := if j < 3 then -1 else 1

include hnx hny

theorem E_opp {a : Int} (ha : IsCell nx ny a) {j : Int} (h0 : 0 ≤ j) (h6 : j < 6) :
    E nx ny (nb nx ny j a) ((j + 3) % 6) = E nx ny a j := by
  have h := nb_nb hnx hny ha h0 h6
  unfold E
  split_ifs <;> (try rw [h]) <;> omega

theorem coe0_E {a : Int} (ha : IsCell nx ny a) {j : Int} (h0 : 0 ≤ j) (h3 : j < 3) :
    coe nx ny (E nx ny a j) 0 = nb nx ny j a := by
  rw [← E_opp hnx hny ha h0 (by omega), show (j + 3) % 6 = j + 3 by omega]
  exact coe_E_hi hnx (nb_isCell hnx ha) (by omega) (by omega)

theorem Gr_side (φ : Int → ℝ) {a : Int} (ha : IsCell nx ny a) {j : Int} (h0 : 0 ≤ j) (h6 : j < 6) :
    Gr nx ny φ (E nx ny a j) = sg j * (φ (nb nx ny j a) - φ a) := by
  unfold Gr sg
  split_ifs with h
  · rw [coe_E_lo h0 h, coe0_E hnx hny ha h0 h]; ring
  · rw [coe_E_hi hnx ha (by omega) h6, coe_one, E_div_hi (by omega) h6]; ring

theorem Mn_side (φ : Int → ℝ) {a : Int} (ha : IsCell nx ny a) {j : Int} (h0 : 0 ≤ j) (h6 : j < 6) :
    Mn nx ny φ (E nx ny a j) = (φ a + φ (nb nx ny j a)) / 2 := by
  unfold Mn
  by_cases h : j < 3
  · rw [coe_E_lo h0 h, coe0_E hnx hny ha h0 h]; ring
  · rw [coe_E_hi hnx ha (by omega) h6, coe_one, E_div_hi (by omega) h6]

theorem Tw_side (F : Int → Int → ℝ) {a : Int} (ha : IsCell nx ny a) {j : Int} (h0 : 0 ≤ j)
    (h6 : j < 6) : Tw nx ny F (E nx ny a j) =
      Tq nx ny F a j + Tq nx ny F (nb nx ny j a) ((j + 3) % 6) := by
  have hE := E_range hnx ha j h0 h6
  rw [Tw_eq hnx F (isCell_edge hE.1 hE.2), E_mod h0 h6]
  by_cases h : j < 3
  · rw [coe0_E hnx hny ha h0 h, E_div_lo h0 h, show j % 3 = j by omega,
      show (j + 3) % 6 = j + 3 by omega]; ring
  · rw [coe_E_hi hnx ha (by omega) h6, E_div_hi (by omega) h6, show j % 3 + 3 = j by omega,
      show (j + 3) % 6 = j % 3 by omega]

/-- corner `j` as a corner of neighbour `j` -/
theorem V_nb {a : Int} (ha : IsCell nx ny a) {j : Int} (h0 : 0 ≤ j) (h6 : j < 6) :
    V nx ny (nb nx ny j a) ((j + 4) % 6) = V nx ny a j := by
  have h := nb_nb hnx hny ha h0 h6
  have t := nb_turn hnx hny ha h0 h6
  have t' := nb_turn' hnx hny ha h0 h6
  rcases cases6 h0 h6 with rfl | rfl | rfl | rfl | rfl | rfl <;>
    norm_num at h t t' ⊢ <;> simp [V, h, t']

/-- corner `j + 1` as a corner of neighbour `j` -/
theorem V_nb' {a : Int} (ha : IsCell nx ny a) {j : Int} (h0 : 0 ≤ j) (h6 : j < 6) :
    V nx ny (nb nx ny j a) ((j + 3) % 6) = V nx ny a ((j + 1) % 6) := by
  have h := nb_nb hnx hny ha h0 h6
  have t := nb_turn hnx hny ha h0 h6
  have t' := nb_turn' hnx hny ha h0 h6
  rcases cases6 h0 h6 with rfl | rfl | rfl | rfl | rfl | rfl <;>
    norm_num at h t t' ⊢ <;> simp [V, h, t]

/-- end points of side `j` -/
theorem voe_side {a : Int} (ha : IsCell nx ny a) {j : Int} (h0 : 0 ≤ j) (h6 : j < 6) :
    (j < 3 → voe nx ny (E nx ny a j) 0 = V nx ny a ((j + 1) % 6) ∧
      voe nx ny (E nx ny a j) 1 = V nx ny a j) ∧
    (3 ≤ j → voe nx ny (E nx ny a j) 0 = V nx ny a j ∧
      voe nx ny (E nx ny a j) 1 = V nx ny a ((j + 1) % 6)) := by
  refine ⟨fun h => ?_, fun h => ?_⟩
  · rw [voe_E h0 h (.inl rfl), voe_E h0 h (.inr rfl)]
    exact ⟨by congr 1; omega, by congr 1; omega⟩
  · have e := E_opp hnx hny ha h0 h6
    rw [show (j + 3) % 6 = j - 3 by omega] at e
    rw [← e, voe_E (by omega) (by omega) (.inl rfl), voe_E (by omega) (by omega) (.inr rfl),
      ← V_nb hnx hny ha h0 h6, ← V_nb' hnx hny ha h0 h6]
    exact ⟨by congr 1; omega, by congr 1; omega⟩

theorem Gv_side (ψ : Int → ℝ) {a : Int} (ha : IsCell nx ny a) {j : Int} (h0 : 0 ≤ j) (h6 : j < 6) :
    Gv nx ny ψ (E nx ny a j) = sg j * (ψ (V nx ny a ((j + 1) % 6)) - ψ (V nx ny a j)) := by
  have h := voe_side hnx hny ha h0 h6
  unfold Gv sg
  split_ifs with hj
  · rw [(h.1 hj).1, (h.1 hj).2]; ring
  · rw [(h.2 (by omega)).1, (h.2 (by omega)).2]; ring

theorem vm_side (ψ : Int → ℝ) {a : Int} (ha : IsCell nx ny a) {j : Int} (h0 : 0 ≤ j) (h6 : j < 6) :
    ψ (voe nx ny (E nx ny a j) 0) + ψ (voe nx ny (E nx ny a j) 1) =
      ψ (V nx ny a j) + ψ (V nx ny a ((j + 1) % 6)) := by
  have h := voe_side hnx hny ha h0 h6
  by_cases hj : j < 3
  · rw [(h.1 hj).1, (h.1 hj).2]; ring
  · rw [(h.2 (by omega)).1, (h.2 (by omega)).2]

theorem Cu_even (u : Int → ℝ) {a : Int} (ha : IsCell nx ny a) :
    Cu nx ny u (2 * a) = u (E nx ny a 0) + u (E nx ny a 5) - u (E nx ny (nb nx ny 5 a) 1) := by
  have i2 : inv nx ny 2 a = nb nx ny 5 a := inv_eq_nb hnx hny ha (by omega) (by omega)
  unfold Cu eov
  rw [show 2 * a / 2 = a by omega, i2, if_pos (by omega)]
  simp [E]

theorem Cu_odd (u : Int → ℝ) {a : Int} (ha : IsCell nx ny a) :
    Cu nx ny u (2 * a + 1) = u (E nx ny a 1) - u (E nx ny a 0) - u (E nx ny (nb nx ny 0 a) 2) := by
  have i3 : inv nx ny 3 a = nb nx ny 0 a := inv_three a
  unfold Cu eov
  rw [show (2 * a + 1) / 2 = a by omega, i3, if_neg (by omega)]
  simp [E]

theorem Mv_even (φ : Int → ℝ) {a : Int} (ha : IsCell nx ny a) :
    Mv nx ny φ (2 * a) = (φ a + φ (nb nx ny 5 a) + φ (nb nx ny 0 a)) / 3 := by
  have i2 : inv nx ny 2 a = nb nx ny 5 a := inv_eq_nb hnx hny ha (by omega) (by omega)
  have i3 : inv nx ny 3 a = nb nx ny 0 a := inv_three a
  unfold Mv cov
  rw [show 2 * a / 2 = a by omega, i2, i3]
  simp

theorem Mv_odd (φ : Int → ℝ) {a : Int} (ha : IsCell nx ny a) :
    Mv nx ny φ (2 * a + 1) = (φ a + φ (nb nx ny 0 a) + φ (nb nx ny 1 a)) / 3 := by
  have i3 : inv nx ny 3 a = nb nx ny 0 a := inv_three a
  have i4 : inv nx ny 4 a = nb nx ny 1 a := inv_eq_nb hnx hny ha (by omega) (by omega)
  unfold Mv cov
  rw [show (2 * a + 1) / 2 = a by omega, i3, i4]
  simp
  ring

theorem Cu_V3 (u : Int → ℝ) {a : Int} (ha : IsCell nx ny a) : Cu nx ny u (V nx ny a 3) =
    u (E nx ny (nb nx ny 3 a) 1) - u (E nx ny a 3) - u (E nx ny a 2) := by
  have h : nb nx ny 0 (nb nx ny 3 a) = a := nb_nb hnx hny ha (j := 3) (by omega) (by omega)
  have e : E nx ny (nb nx ny 3 a) 0 = E nx ny a 3 := E_opp hnx hny ha (j := 3) (by omega) (by omega)
  have := Cu_odd hnx hny u (nb_isCell hnx ha (j := 3))
  rw [h, e] at this
  exact this

theorem Cu_V4 (u : Int → ℝ) {a : Int} (ha : IsCell nx ny a) : Cu nx ny u (V nx ny a 4) =
    u (E nx ny a 3) + u (E nx ny (nb nx ny 3 a) 5) - u (E nx ny a 4) := by
  have h : nb nx ny 5 (nb nx ny 3 a) = nb nx ny 4 a := nb_turn hnx hny ha (j := 3) (by omega) (by omega)
  have e : E nx ny (nb nx ny 3 a) 0 = E nx ny a 3 := E_opp hnx hny ha (j := 3) (by omega) (by omega)
  have e' : E nx ny (nb nx ny 4 a) 1 = E nx ny a 4 := E_opp hnx hny ha (j := 4) (by omega) (by omega)
  have := Cu_even hnx hny u (nb_isCell hnx ha (j := 3))
  rw [h, e, e'] at this
  exact this

theorem Mv_V3 (φ : Int → ℝ) {a : Int} (ha : IsCell nx ny a) :
    Mv nx ny φ (V nx ny a 3) = (φ (nb nx ny 3 a) + φ a + φ (nb nx ny 2 a)) / 3 := by
  have h : nb nx ny 0 (nb nx ny 3 a) = a := nb_nb hnx hny ha (j := 3) (by omega) (by omega)
  have t : nb nx ny 1 (nb nx ny 3 a) = nb nx ny 2 a := nb_turn' hnx hny ha (j := 3) (by omega) (by omega)
  have := Mv_odd hnx hny φ (nb_isCell hnx ha (j := 3))
  rw [h, t] at this
  exact this

theorem Mv_V4 (φ : Int → ℝ) {a : Int} (ha : IsCell nx ny a) :
    Mv nx ny φ (V nx ny a 4) = (φ (nb nx ny 3 a) + φ (nb nx ny 4 a) + φ a) / 3 := by
  have h : nb nx ny 0 (nb nx ny 3 a) = a := nb_nb hnx hny ha (j := 3) (by omega) (by omega)
  have t : nb nx ny 5 (nb nx ny 3 a) = nb nx ny 4 a := nb_turn hnx hny ha (j := 3) (by omega) (by omega)
  have := Mv_even hnx hny φ (nb_isCell hnx ha (j := 3))
  rw [h, t] at this
  exact this

omit hnx hny

/-! ### The two symmetries -/

/-- direction of neighbour `j` after the half turn, or in the mirror -/
def turnJ (mir : Bool) (j : Int) : Int := if mir then (3 - j) % 6 else (j + 3) % 6
/-- corner `j` after the half turn, or in the mirror -/
def turnV (mir : Bool) (j : Int) : Int := if mir then (4 - j) % 6 else (j + 3) % 6

theorem turnJ_range (mir : Bool) (j : Int) : 0 ≤ turnJ mir j ∧ turnJ mir j < 6 := by
  unfold turnJ; split_ifs <;> omega

/-- a map of cells that takes neighbour `j` to neighbour `turnJ j` -/
structure IsTurn (nx ny : Int) (mir : Bool) (σ : Int → Int) : Prop where
  cell : ∀ {a}, IsCell nx ny a → IsCell nx ny (σ a)
  nb : ∀ {a}, IsCell nx ny a → ∀ {j}, 0 ≤ j → j < 6 → nb nx ny (turnJ mir j) (σ a) = σ (nb nx ny j a)

/-- the edge an edge is taken to -/
def turnE (nx ny : Int) (mir : Bool) (σ : Int → Int) (e : Int) : Int :=
  E nx ny (σ (e / 3)) (turnJ mir (e % 3))
/-- the vertex a vertex is taken to -/
def turnVx (nx ny : Int) (mir : Bool) (σ : Int → Int) (v : Int) : Int :=
  V nx ny (σ (v / 2)) (turnV mir (v % 2))
/-- the half turn turns all normals around, the mirror those along the mirrored direction -/
def turnEps (mir : Bool) (e : Int) : ℝ := if mir then (if e % 3 = 0 then -1 else 1) else -1

variable {mir : Bool} {σ : Int → Int} (h : IsTurn nx ny mir σ)
include hnx hny h

theorem turnE_E {a : Int} (ha : IsCell nx ny a) {j : Int} (h0 : 0 ≤ j) (h6 : j < 6) :
    turnE nx ny mir σ (E nx ny a j) = E nx ny (σ a) (turnJ mir j) := by
  unfold turnE
  rw [E_mod h0 h6]
  by_cases hj : j < 3
  · rw [E_div_lo h0 hj, show j % 3 = j by omega]
  · have r := turnJ_range mir j
    rw [E_div_hi (by omega) h6, ← h.nb ha h0 h6, ← E_opp hnx hny (h.cell ha) r.1 r.2]
    congr 1
    unfold turnJ; split_ifs <;> omega

theorem turnV_V {a : Int} (ha : IsCell nx ny a) {j : Int} (h0 : 0 ≤ j) (h6 : j < 6) :
    turnVx nx ny mir σ (V nx ny a j) = V nx ny (σ a) (turnV mir j) := by
  have d0 : ∀ c : Int, 2 * c / 2 = c ∧ 2 * c % 2 = 0 := fun c => by omega
  have d1 : ∀ c : Int, (2 * c + 1) / 2 = c ∧ (2 * c + 1) % 2 = 1 := fun c => by omega
  have n2 := h.nb ha (j := 2) (by omega) (by omega)
  have n3 := h.nb ha (j := 3) (by omega) (by omega)
  have n4 := h.nb ha (j := 4) (by omega) (by omega)
  have v := fun j => V_nb hnx hny (h.cell ha) (j := j)
  have v' := fun j => V_nb' hnx hny (h.cell ha) (j := j)
  have e0 : V nx ny a 0 = 2 * a := by simp [V]
  have e1 : V nx ny a 1 = 2 * a + 1 := by simp [V]
  have e2 : V nx ny a 2 = 2 * nb nx ny 2 a := by simp [V]
  have e3 : V nx ny a 3 = 2 * nb nx ny 3 a + 1 := by simp [V]
  have e4 : V nx ny a 4 = 2 * nb nx ny 3 a := by simp [V]
  have e5 : V nx ny a 5 = 2 * nb nx ny 4 a + 1 := by simp [V]
  rcases cases6 h0 h6 with rfl | rfl | rfl | rfl | rfl | rfl
  · rw [e0]; unfold turnVx; rw [(d0 _).1, (d0 _).2]
  · rw [e1]; unfold turnVx; rw [(d1 _).1, (d1 _).2]
  · rw [e2]; unfold turnVx; rw [(d0 _).1, (d0 _).2, ← n2]
    cases mir
    · exact v 5 (by omega) (by omega)
    · exact v' 1 (by omega) (by omega)
  · rw [e3]; unfold turnVx; rw [(d1 _).1, (d1 _).2, ← n3]
    cases mir
    · exact v 0 (by omega) (by omega)
    · exact v' 0 (by omega) (by omega)
  · rw [e4]; unfold turnVx; rw [(d0 _).1, (d0 _).2, ← n3]
    cases mir
    · exact v' 0 (by omega) (by omega)
    · exact v 0 (by omega) (by omega)
  · rw [e5]; unfold turnVx; rw [(d1 _).1, (d1 _).2, ← n4]
    cases mir
    · exact v' 1 (by omega) (by omega)
    · exact v 5 (by omega) (by omega)

omit h in
theorem eps_E {a : Int} {j : Int} (h0 : 0 ≤ j) (h6 : j < 6) :
    turnEps mir (E nx ny a j) = sg j * sg (turnJ mir j) := by
  unfold turnEps
  rw [E_mod h0 h6]
  cases mir <;> rcases cases6 h0 h6 with rfl | rfl | rfl | rfl | rfl | rfl <;> simp [sg, turnJ]

theorem turn_Tq (F : Int → Int → ℝ) {a : Int} (ha : IsCell nx ny a) {j : Int} (h0 : 0 ≤ j)
    (h6 : j < 6) :
    Tq nx ny (fun x y => turnEps mir y * F (turnE nx ny mir σ x) (turnE nx ny mir σ y)) a j =
      (if mir then -1 else 1) * (sg j * sg (turnJ mir j)) * Tq nx ny F (σ a) (turnJ mir j) := by
  have te := fun j a0 a6 => turnE_E hnx hny h ha (j := j) a0 a6
  have ee := fun j a0 a6 => eps_E (mir := mir) hnx hny (a := a) (j := j) a0 a6
  unfold Tq
  beta_reduce
  rw [te j h0 h6, te ((j + 1) % 6) (by omega) (by omega), te ((j + 2) % 6) (by omega) (by omega),
    te ((j + 3) % 6) (by omega) (by omega), te ((j + 4) % 6) (by omega) (by omega),
    te ((j + 5) % 6) (by omega) (by omega), ee ((j + 1) % 6) (by omega) (by omega),
    ee ((j + 2) % 6) (by omega) (by omega), ee ((j + 3) % 6) (by omega) (by omega),
    ee ((j + 4) % 6) (by omega) (by omega), ee ((j + 5) % 6) (by omega) (by omega)]
  clear te ee
  cases mir <;> rcases cases6 h0 h6 with rfl | rfl | rfl | rfl | rfl | rfl <;>
    simp [sg, turnJ, wRaw] <;> ring

/-- The half turn and the mirror image are symmetries of the lattice. -/
def IsTurn.lat : LatSym nx ny where
  c := σ
  e := turnE nx ny mir σ
  v := turnVx nx ny mir σ
  eps := turnEps mir
  kap := if mir then -1 else 1
  eps_sq i := by unfold turnEps; split_ifs <;> norm_num
  kap_sq := by split_ifs <;> norm_num
  cell := h.cell
  edge {i} h0 h1 := by
    have r := turnJ_range mir (i % 3)
    exact E_range hnx (h.cell (isCell_edge h0 h1)) _ r.1 r.2
  vert {i} h0 h1 := V_range hnx (h.cell (isCell_vertex h0 h1)) _
  gr φ i h0 h1 := by
    have hc := isCell_edge h0 h1
    have r := turnJ_range mir (i % 3)
    rw [eq_E_lo (nx := nx) (ny := ny) i, Gr_side hnx hny _ hc (by omega) (by omega),
      turnE_E hnx hny h hc (by omega) (by omega), eps_E hnx hny (by omega) (by omega),
      Gr_side hnx hny _ (h.cell hc) r.1 r.2, h.nb hc (by omega) (by omega)]
    have : sg (turnJ mir (i % 3)) * sg (turnJ mir (i % 3)) = 1 := by unfold sg; split_ifs <;> norm_num
    linear_combination (-sg (i % 3) * (φ (σ (Hex.nb nx ny (i % 3) (i / 3))) - φ (σ (i / 3)))) * this
  mn φ i h0 h1 := by
    have hc := isCell_edge h0 h1
    have r := turnJ_range mir (i % 3)
    rw [eq_E_lo (nx := nx) (ny := ny) i, Mn_side hnx hny _ hc (by omega) (by omega),
      turnE_E hnx hny h hc (by omega) (by omega),
      Mn_side hnx hny _ (h.cell hc) r.1 r.2, h.nb hc (by omega) (by omega)]
  gv ψ i h0 h1 := by
    have hc := isCell_edge h0 h1
    have r := turnJ_range mir (i % 3)
    rw [eq_E_lo (nx := nx) (ny := ny) i, Gv_side hnx hny _ hc (by omega) (by omega),
      turnE_E hnx hny h hc (by omega) (by omega), eps_E hnx hny (by omega) (by omega),
      Gv_side hnx hny _ (h.cell hc) r.1 r.2, turnV_V hnx hny h hc (by omega) (by omega),
      turnV_V hnx hny h hc (by omega) (by omega)]
    have j0 : 0 ≤ i % 3 := by omega
    have j3 : i % 3 < 6 := by omega
    clear r
    generalize i % 3 = j at *
    cases mir <;> rcases cases6 j0 j3 with rfl | rfl | rfl | rfl | rfl | rfl <;>
      simp [sg, turnJ, turnV]
  vm ψ i h0 h1 := by
    have hc := isCell_edge h0 h1
    have r := turnJ_range mir (i % 3)
    have := vm_side hnx hny (fun v => ψ (turnVx nx ny mir σ v)) hc (j := i % 3) (by omega) (by omega)
    rw [← eq_E_lo] at this
    rw [this]
    conv_rhs => rw [eq_E_lo (nx := nx) (ny := ny) i]
    rw [turnE_E hnx hny h hc (by omega) (by omega), vm_side hnx hny _ (h.cell hc) r.1 r.2,
      turnV_V hnx hny h hc (by omega) (by omega), turnV_V hnx hny h hc (by omega) (by omega)]
    have j0 : 0 ≤ i % 3 := by omega
    have j3 : i % 3 < 6 := by omega
    clear r this
    generalize i % 3 = j at *
    cases mir <;> rcases cases6 j0 j3 with rfl | rfl | rfl | rfl | rfl | rfl <;>
      simp [turnJ, turnV, add_comm]
  dv u i hc := by
    have te := fun j a0 a6 => turnE_E hnx hny h hc (j := j) a0 a6
    have ee := fun j a0 a6 => eps_E (mir := mir) hnx hny (a := i) (j := j) a0 a6
    unfold Dv
    beta_reduce
    rw [te 0, te 1, te 2, te 3, te 4, te 5, ee 0, ee 1, ee 2, ee 3, ee 4, ee 5] <;> try omega
    clear te ee
    cases mir <;> simp [sg, turnJ] <;> ring
  sd u i hc := by
    have te := fun j a0 a6 => turnE_E hnx hny h hc (j := j) a0 a6
    unfold Sd
    beta_reduce
    rw [te 0, te 1, te 2, te 3, te 4, te 5] <;> try omega
    clear te
    cases mir <;> simp [turnJ] <;> ring
  mv φ i h0 h1 := by
    have hc := isCell_vertex h0 h1
    have n := fun j a0 a6 => (h.nb hc (j := j) a0 a6).symm
    by_cases hp : i % 2 = 0
    · have e : i = 2 * (i / 2) := by omega
      have e2 : turnVx nx ny mir σ i = V nx ny (σ (i / 2)) (turnV mir 0) := by
        unfold turnVx; rw [hp]
      rw [e2, e, Mv_even hnx hny _ hc, show 2 * (i / 2) / 2 = i / 2 by omega]
      beta_reduce
      rw [n 5, n 0] <;> try omega
      cases mir
      · exact (Mv_V3 hnx hny φ (h.cell hc)).symm ▸ (by simp [turnJ]; ring)
      · exact (Mv_V4 hnx hny φ (h.cell hc)).symm ▸ (by simp [turnJ]; ring)
    · have e : i = 2 * (i / 2) + 1 := by omega
      have e2 : turnVx nx ny mir σ i = V nx ny (σ (i / 2)) (turnV mir 1) := by
        unfold turnVx; rw [show i % 2 = 1 by omega]
      rw [e2, e, Mv_odd hnx hny _ hc, show (2 * (i / 2) + 1) / 2 = i / 2 by omega]
      beta_reduce
      rw [n 0, n 1] <;> try omega
      cases mir
      · exact (Mv_V4 hnx hny φ (h.cell hc)).symm ▸ (by simp [turnJ]; ring)
      · exact (Mv_V3 hnx hny φ (h.cell hc)).symm ▸ (by simp [turnJ]; ring)
  cu u i h0 h1 := by
    have hc := isCell_vertex h0 h1
    have n := fun j a0 a6 => (h.nb hc (j := j) a0 a6).symm
    have te := fun a ha j a0 a6 => turnE_E hnx hny h (a := a) ha (j := j) a0 a6
    have ee := fun a j a0 a6 => eps_E (mir := mir) hnx hny (a := a) (j := j) a0 a6
    have hs := h.cell hc
    by_cases hp : i % 2 = 0
    · have e : i = 2 * (i / 2) := by omega
      have e2 : turnVx nx ny mir σ i = V nx ny (σ (i / 2)) (turnV mir 0) := by
        unfold turnVx; rw [hp]
      have h5 := nb_isCell hnx hc (j := 5)
      rw [e2, e, Cu_even hnx hny _ hc, show 2 * (i / 2) / 2 = i / 2 by omega]
      beta_reduce
      rw [te _ hc 0, te _ hc 5, te _ h5 1, ee _ 0, ee _ 5, ee _ 1, n 5] <;> try omega
      cases mir
      · have t : Hex.nb nx ny 4 (Hex.nb nx ny 2 (σ (i / 2))) = Hex.nb nx ny 3 (σ (i / 2)) :=
          nb_turn hnx hny hs (j := 2) (by omega) (by omega)
        have E1 : E nx ny (Hex.nb nx ny 2 (σ (i / 2))) 4 = E nx ny (Hex.nb nx ny 3 (σ (i / 2))) 1 := by
          simp [E, t]
        have := Cu_V3 hnx hny u hs
        simp [sg, turnJ, turnV, this, E1]; ring
      · have t : Hex.nb nx ny 5 (Hex.nb nx ny 3 (σ (i / 2))) = Hex.nb nx ny 4 (σ (i / 2)) :=
          nb_turn hnx hny hs (j := 3) (by omega) (by omega)
        have E1 : E nx ny (Hex.nb nx ny 4 (σ (i / 2))) 2 = E nx ny (Hex.nb nx ny 3 (σ (i / 2))) 5 := by
          simp [E, t]
        have := Cu_V4 hnx hny u hs
        simp [sg, turnJ, turnV, this, E1]; ring
    · have e : i = 2 * (i / 2) + 1 := by omega
      have e2 : turnVx nx ny mir σ i = V nx ny (σ (i / 2)) (turnV mir 1) := by
        unfold turnVx; rw [show i % 2 = 1 by omega]
      have h5 := nb_isCell hnx hc (j := 0)
      rw [e2, e, Cu_odd hnx hny _ hc, show (2 * (i / 2) + 1) / 2 = i / 2 by omega]
      beta_reduce
      rw [te _ hc 1, te _ hc 0, te _ h5 2, ee _ 1, ee _ 0, ee _ 2, n 0] <;> try omega
      cases mir
      · have := Cu_V4 hnx hny u hs
        simp [sg, turnJ, turnV, this]; ring
      · have := Cu_V3 hnx hny u hs
        simp [sg, turnJ, turnV, this]; ring
  tw F i h0 h1 := by
    have hc := isCell_edge h0 h1
    have r := turnJ_range mir (i % 3)
    have hn := nb_isCell hnx hc (j := i % 3)
    rw [eq_E_lo (nx := nx) (ny := ny) i, Tw_side hnx hny _ hc (by omega) (by omega),
      turnE_E hnx hny h hc (by omega) (by omega), eps_E hnx hny (by omega) (by omega),
      Tw_side hnx hny _ (h.cell hc) r.1 r.2, turn_Tq hnx hny h F hc (by omega) (by omega),
      turn_Tq hnx hny h F hn (by omega) (by omega), h.nb hc (by omega) (by omega)]
    have e1 : turnJ mir ((i % 3 + 3) % 6) = (turnJ mir (i % 3) + 3) % 6 := by
      unfold turnJ; split_ifs <;> omega
    have e2 : ∀ j, 0 ≤ j → j < 6 → sg ((j + 3) % 6) = -sg j := fun j a b => by
      rcases cases6 a b with rfl | rfl | rfl | rfl | rfl | rfl <;> simp [sg]
    rw [e1, e2 _ (by omega) (by omega), e2 _ r.1 r.2]
    ring

end

/-! ### Coordinates -/

section

variable {nx ny : Int}

/-- the opposite index on a ring of `n` -/
def ng (n i : Int) : Int := if i = 0 then 0 else n - i

/-- column of the mirror image: odd rows are drawn half a cell to the right -/
def mirI (nx i r : Int) : Int := if r % 2 = 0 then ng nx i else nx - 1 - i

/-- half turn about the center of cell 0 -/
def halfTurn (nx ny a : Int) : Int := cid nx (mirI nx (col nx a) (row nx a)) (ng ny (row nx a))
/-- mirror image in the vertical line through the center of cell 0 -/
def mirror (nx a : Int) : Int := cid nx (mirI nx (col nx a) (row nx a)) (row nx a)

theorem mirI_range {i r : Int} (h0 : 0 ≤ i) (h1 : i < nx) : 0 ≤ mirI nx i r ∧ mirI nx i r < nx := by
  unfold mirI ng; split_ifs <;> omega
theorem ng_range {n i : Int} (h0 : 0 ≤ i) (h1 : i < n) : 0 ≤ ng n i ∧ ng n i < n := by
  unfold ng; split_ifs <;> omega

theorem halfTurn_turn (hnx : 1 ≤ nx) (hny : ny % 2 = 0) : IsTurn nx ny false (halfTurn nx ny) := by
  refine ⟨fun {a} ha => ?_, fun {a} ha {j} h0 h6 => ?_⟩
  · obtain ⟨i, r, i0, i1, r0, r1, rfl⟩ := exists_coords hnx ha
    unfold halfTurn
    rw [col_cid i0 i1, row_cid i0 i1]
    have a := mirI_range (r := r) i0 i1
    have b := ng_range r0 r1
    exact cid_range a.1 a.2 b.1 b.2
  · obtain ⟨i, r, i0, i1, r0, r1, rfl⟩ := exists_coords hnx ha
    have a := mirI_range (r := r) i0 i1
    have n := nbI_range (j := j) (r := r) i0 i1
    rw [nb_cid i0 i1]
    unfold halfTurn
    rw [col_cid i0 i1, row_cid i0 i1, col_cid n.1 n.2, row_cid n.1 n.2, nb_cid a.1 a.2]
    have hg : ng ny r % 2 = r % 2 := by unfold ng; split_ifs <;> omega
    have hp : px ny r % 2 = 0 ↔ ¬ r % 2 = 0 := by unfold px; split_ifs <;> omega
    have hm : mx ny r % 2 = 0 ↔ ¬ r % 2 = 0 := by unfold mx; split_ifs <;> omega
    congr 1
    · rcases cases6 h0 h6 with rfl | rfl | rfl | rfl | rfl | rfl <;> by_cases hr : r % 2 = 0 <;>
        simp [turnJ, nbI, nbR, mirI, hg, hp, hm, hr] <;> simp only [ng, px, mx] <;> split_ifs <;> omega
    · rcases cases6 h0 h6 with rfl | rfl | rfl | rfl | rfl | rfl <;>
        simp [turnJ, nbR] <;> simp only [ng, px, mx] <;> split_ifs <;> omega

theorem mirror_turn (hnx : 1 ≤ nx) (hny : ny % 2 = 0) : IsTurn nx ny true (mirror nx) := by
  refine ⟨fun {a} ha => ?_, fun {a} ha {j} h0 h6 => ?_⟩
  · obtain ⟨i, r, i0, i1, r0, r1, rfl⟩ := exists_coords hnx ha
    unfold mirror
    rw [col_cid i0 i1, row_cid i0 i1]
    have a := mirI_range (r := r) i0 i1
    exact cid_range a.1 a.2 r0 r1
  · obtain ⟨i, r, i0, i1, r0, r1, rfl⟩ := exists_coords hnx ha
    have a := mirI_range (r := r) i0 i1
    have n := nbI_range (j := j) (r := r) i0 i1
    rw [nb_cid i0 i1]
    unfold mirror
    rw [col_cid i0 i1, row_cid i0 i1, col_cid n.1 n.2, row_cid n.1 n.2, nb_cid a.1 a.2]
    have hp : px ny r % 2 = 0 ↔ ¬ r % 2 = 0 := by unfold px; split_ifs <;> omega
    have hm : mx ny r % 2 = 0 ↔ ¬ r % 2 = 0 := by unfold mx; split_ifs <;> omega
    congr 1
    · rcases cases6 h0 h6 with rfl | rfl | rfl | rfl | rfl | rfl <;> by_cases hr : r % 2 = 0 <;>
        simp [turnJ, nbI, nbR, mirI, hp, hm, hr] <;> simp only [ng, px, mx] <;> split_ifs <;> omega
    · rcases cases6 h0 h6 with rfl | rfl | rfl | rfl | rfl | rfl <;> simp [turnJ, nbR]

end

end Hex
end
end Omega
