import Verif.Refine.Region
import Verif.Refine.HexSym
import Verif.Props.Programs

/-!
# C91: finite domain of dependence

A run reaches two rings of cells per tendency evaluation, in any arithmetic.  Consequences: data further
away do not matter, and a run on a part of the domain with a halo gives the run on the whole domain.
-/

set_option linter.unusedVariables false
set_option linter.unusedSectionVars false

namespace Omega
namespace Props

open Prog Refine Hex
open Model hiding cov eov voe eoe

variable {R : Type} [Scalar R]

/-- The cells of `G` all of whose cells within `n` steps along `cells_on_cell` are in `G`. -/
def Inner (m : Mem R) (G : Int → Prop) : Nat → Int → Prop
  | 0, c => G c
  | n + 1, c => Inner m G n c ∧ ∀ j, 0 ≤ j → j < 6 → Inner m G n (m.int .cells_on_cell c j)

/-- `place` puts the cells `G` of the mesh in `m'` into the mesh in `m`, neighbours next to each other. -/
structure Placed (d d' : Dims) (m m' : Mem R) (G : Int → Prop) (place : Int → Int) : Prop where
  cell' : ∀ {c}, G c → 0 ≤ c ∧ c < d'.ncells
  cell : ∀ {c}, G c → 0 ≤ place c ∧ place c < d.ncells
  nb : ∀ {c}, G c → ∀ j, 0 ≤ j → j < 6 → G (m'.int .cells_on_cell c j) →
    m.int .cells_on_cell (place c) j = place (m'.int .cells_on_cell c j)

/-- The two memories have the same state on the cells `A` and their sides. -/
structure StateAt (d : Dims) (m m' : Mem R) (A : Int → Prop) (place : Int → Int) : Prop where
  h : ∀ {c k}, A c → 0 ≤ k → k < d.nlayers →
    m.real (.h_cell .state) 0 (place c) k = m'.real (.h_cell .state) 0 c k
  vn : ∀ {c j k}, A c → 0 ≤ j → j < 6 → 0 ≤ k → k < d.nlayers →
    m.real (.vn_edge .state) 0 (m.int .edges_on_cell (place c) j) k =
      m'.real (.vn_edge .state) 0 (m'.int .edges_on_cell c j) k
  tr : ∀ {l c k}, A c → 0 ≤ l → l < d.ntracers → 0 ≤ k → k < d.nlayers →
    m.real (.tr_cell .state) l (place c) k = m'.real (.tr_cell .state) l c k

/-! ### Tables of a region -/

section

variable {nx ny : Int} (hnx : 1 ≤ nx) (hny : ny % 2 = 0)

/-- a cell itself (`j = 6`) or its neighbour `j` -/
def mv (nx ny j a : Int) : Int := if j = 6 then a else nb nx ny j a

/-- where cell `s` at corner `j` lies -/
def tabC (j s : Int) : Int :=
  if j = 0 then (if s = 0 then 6 else if s = 1 then 5 else 0)
  else if j = 1 then (if s = 0 then 0 else if s = 1 then 1 else 6)
  else if j = 2 then (if s = 0 then 2 else if s = 1 then 6 else 1)
  else if j = 3 then (if s = 0 then 6 else if s = 1 then 2 else 3)
  else if j = 4 then (if s = 0 then 3 else if s = 1 then 4 else 6)
  else (if s = 0 then 5 else if s = 1 then 6 else 4)

/-- a cell that has edge `s` at corner `j` -/
def tabE (j s : Int) : Int :=
  if j = 0 then (if s = 0 then 6 else if s = 1 then 6 else 5)
  else if j = 1 then (if s = 0 then 6 else if s = 1 then 0 else 6)
  else if j = 2 then (if s = 0 then 2 else if s = 1 then 2 else 6)
  else if j = 3 then (if s = 0 then 3 else if s = 1 then 6 else 3)
  else if j = 4 then (if s = 0 then 3 else if s = 1 then 3 else 4)
  else (if s = 0 then 4 else if s = 1 then 5 else 4)

/-- which side of that cell the edge is -/
def tabS (j s : Int) : Int :=
  if j % 2 = 0 then (if s = 0 then 0 else if s = 1 then 5 else 1)
  else (if s = 0 then 0 else if s = 1 then 2 else 1)

include hnx hny

theorem cov_even {b : Int} (hb : IsCell nx ny b) (s : Int) :
    cov nx ny (2 * b) s = if s = 0 then b else if s = 1 then nb nx ny 5 b else nb nx ny 0 b := by
  have i2 : inv nx ny 2 b = nb nx ny 5 b := inv_eq_nb hnx hny hb (by omega) (by omega)
  unfold cov
  rw [show 2 * b / 2 = b by omega, i2, inv_three, if_pos (by omega)]

theorem cov_odd {b : Int} (hb : IsCell nx ny b) (s : Int) :
    cov nx ny (2 * b + 1) s = if s = 0 then nb nx ny 0 b else if s = 1 then nb nx ny 1 b else b := by
  have i4 : inv nx ny 4 b = nb nx ny 1 b := inv_eq_nb hnx hny hb (by omega) (by omega)
  unfold cov
  rw [show (2 * b + 1) / 2 = b by omega, i4, inv_three, if_neg (by omega)]

theorem eov_even {b : Int} (hb : IsCell nx ny b) (s : Int) :
    eov nx ny (2 * b) s = if s = 0 then E nx ny b 0 else if s = 1 then E nx ny b 5
      else E nx ny (nb nx ny 5 b) 1 := by
  have i2 : inv nx ny 2 b = nb nx ny 5 b := inv_eq_nb hnx hny hb (by omega) (by omega)
  unfold eov
  rw [show 2 * b / 2 = b by omega, i2, if_pos (by omega)]
  simp [E]

theorem eov_odd {b : Int} (hb : IsCell nx ny b) (s : Int) :
    eov nx ny (2 * b + 1) s = if s = 0 then E nx ny b 0 else if s = 1 then E nx ny (nb nx ny 0 b) 2
      else E nx ny b 1 := by
  unfold eov
  rw [show (2 * b + 1) / 2 = b by omega, inv_three, if_neg (by omega)]
  simp [E]

theorem cov_corner {a : Int} (ha : IsCell nx ny a) {j s : Int} (h0 : 0 ≤ j) (h6 : j < 6) (s0 : 0 ≤ s)
    (s3 : s < 3) : cov nx ny (V nx ny a j) s = mv nx ny (tabC j s) a := by
  have c := fun k => nb_isCell hnx (j := k) ha
  have e2 : nb nx ny 5 (nb nx ny 2 a) = a := nb_nb hnx hny ha (j := 2) (by omega) (by omega)
  have e2' : nb nx ny 0 (nb nx ny 2 a) = nb nx ny 1 a := nb_turn' hnx hny ha (j := 2) (by omega) (by omega)
  have e3 : nb nx ny 0 (nb nx ny 3 a) = a := nb_nb hnx hny ha (j := 3) (by omega) (by omega)
  have e3' : nb nx ny 1 (nb nx ny 3 a) = nb nx ny 2 a := nb_turn' hnx hny ha (j := 3) (by omega) (by omega)
  have e3t : nb nx ny 5 (nb nx ny 3 a) = nb nx ny 4 a := nb_turn hnx hny ha (j := 3) (by omega) (by omega)
  have e4 : nb nx ny 1 (nb nx ny 4 a) = a := nb_nb hnx hny ha (j := 4) (by omega) (by omega)
  have e4t : nb nx ny 0 (nb nx ny 4 a) = nb nx ny 5 a := nb_turn hnx hny ha (j := 4) (by omega) (by omega)
  rcases cases6 h0 h6 with rfl | rfl | rfl | rfl | rfl | rfl <;>
    (obtain rfl | rfl | rfl : s = 0 ∨ s = 1 ∨ s = 2 := by omega) <;>
    simp [V, cov_even hnx hny ha, cov_odd hnx hny ha, cov_even hnx hny (c _), cov_odd hnx hny (c _), mv,
      tabC, e2, e2', e3, e3', e3t, e4, e4t]

theorem eov_corner {a : Int} (ha : IsCell nx ny a) {j s : Int} (h0 : 0 ≤ j) (h6 : j < 6) (s0 : 0 ≤ s)
    (s3 : s < 3) : eov nx ny (V nx ny a j) s = E nx ny (mv nx ny (tabE j s) a) (tabS j s) := by
  have c := fun k => nb_isCell hnx (j := k) ha
  have e2 : nb nx ny 5 (nb nx ny 2 a) = a := nb_nb hnx hny ha (j := 2) (by omega) (by omega)
  have e3 : nb nx ny 0 (nb nx ny 3 a) = a := nb_nb hnx hny ha (j := 3) (by omega) (by omega)
  have e3t : nb nx ny 5 (nb nx ny 3 a) = nb nx ny 4 a := nb_turn hnx hny ha (j := 3) (by omega) (by omega)
  have e4t : nb nx ny 0 (nb nx ny 4 a) = nb nx ny 5 a := nb_turn hnx hny ha (j := 4) (by omega) (by omega)
  rcases cases6 h0 h6 with rfl | rfl | rfl | rfl | rfl | rfl <;>
    (obtain rfl | rfl | rfl : s = 0 ∨ s = 1 ∨ s = 2 := by omega) <;>
    simp [V, eov_even hnx hny ha, eov_odd hnx hny ha, eov_even hnx hny (c _), eov_odd hnx hny (c _), mv,
      tabE, tabS, e2, e3, e3t, e4t]

theorem coe_side {a : Int} (ha : IsCell nx ny a) {j s : Int} (h0 : 0 ≤ j) (h6 : j < 6)
    (hs : s = 0 ∨ s = 1) :
    coe nx ny (E nx ny a j) s = mv nx ny (if (s = 1 ↔ j < 3) then 6 else j) a := by
  by_cases h : j < 3
  · rcases hs with rfl | rfl
    · rw [coe0_E hnx hny ha h0 h]; simp [h, mv]; omega
    · rw [coe_E_lo h0 h]; simp [h, mv]
  · rcases hs with rfl | rfl
    · rw [coe_E_hi hnx ha (by omega) h6]; simp [h, mv]
    · rw [coe_one, E_div_hi (by omega) h6]; simp [h, mv]; omega

theorem voe_corner {a : Int} (ha : IsCell nx ny a) {j s : Int} (h0 : 0 ≤ j) (h6 : j < 6)
    (hs : s = 0 ∨ s = 1) :
    voe nx ny (E nx ny a j) s = V nx ny a (if (s = 1 ↔ j < 3) then j else (j + 1) % 6) := by
  have v := voe_side hnx hny ha h0 h6
  by_cases h : j < 3
  · rcases hs with rfl | rfl
    · rw [(v.1 h).1]; simp [h]
    · rw [(v.1 h).2]; simp [h]
  · rcases hs with rfl | rfl
    · rw [(v.2 (by omega)).1]; simp [h]
    · rw [(v.2 (by omega)).2]; simp [h]

theorem eoe_side {a : Int} (ha : IsCell nx ny a) {j s : Int} (h0 : 0 ≤ j) (h6 : j < 6) :
    eoe nx ny (E nx ny a j) s =
      if s < 5 then E nx ny (mv nx ny (if j < 3 then j else 6) a) ((j % 3 + 3 + 1 + s) % 6)
      else E nx ny (mv nx ny (if j < 3 then 6 else j) a) ((j % 3 + 1 + (s - 5)) % 6) := by
  unfold eoe
  rw [E_mod h0 h6, coe_side hnx hny ha h0 h6 (.inl rfl), ← coe_one (nx := nx) (ny := ny),
    coe_side hnx hny ha h0 h6 (.inr rfl)]
  by_cases h : j < 3 <;> simp [h]

end

section

variable {p p' : MeshParams} {m m' : Mem R} {dc : R} {G : Int → Prop} {place : Int → Int}

/-- related cells -/
def CellOf (m' : Mem R) (G : Int → Prop) (place : Int → Int) (n : Nat) (c c' : Int) : Prop :=
  Inner m' G n c' ∧ c = place c'
/-- related edges: the same side of related cells -/
def EdgeOf (p p' : MeshParams) (m' : Mem R) (G : Int → Prop) (place : Int → Int) (n : Nat)
    (e e' : Int) : Prop :=
  ∃ a j, Inner m' G n a ∧ 0 ≤ j ∧ j < 6 ∧ e = E p.nx p.ny (place a) j ∧ e' = E p'.nx p'.ny a j
/-- related vertices: the same corner of related cells -/
def VertOf (p p' : MeshParams) (m' : Mem R) (G : Int → Prop) (place : Int → Int) (n : Nat)
    (v v' : Int) : Prop :=
  ∃ a j, Inner m' G n a ∧ 0 ≤ j ∧ j < 6 ∧ v = V p.nx p.ny (place a) j ∧ v' = V p'.nx p'.ny a j

theorem Inner.sub {n : Nat} {c : Int} (h : Inner m' G n c) : G c := by
  induction n with
  | zero => exact h
  | succ n ih => exact ih h.1

theorem tabC_range {j s : Int} : 0 ≤ tabC j s ∧ tabC j s ≤ 6 := by
  unfold tabC; split_ifs <;> omega
theorem tabE_range {j s : Int} : 0 ≤ tabE j s ∧ tabE j s ≤ 6 := by
  unfold tabE; split_ifs <;> omega
theorem tabS_range {j s : Int} : 0 ≤ tabS j s ∧ tabS j s < 6 := by
  unfold tabS; split_ifs <;> omega

theorem V_mod {nx ny c j : Int} (h0 : 0 ≤ j) (h6 : j < 6) : V nx ny c j % 2 = j % 2 := by
  unfold V; split_ifs <;> omega

theorem region (hv : RunValid p) (hv' : RunValid p') (h2x : 2 ≤ p.nx) (h2y : 2 ≤ p.ny)
    (h2x' : 2 ≤ p'.nx) (h2y' : 2 ≤ p'.ny) (hny : p.ny % 2 = 0) (hny' : p'.ny % 2 = 0)
    (hl : p.dims.nlayers = p'.dims.nlayers) (hm : IsHexMesh p dc m) (hm' : IsHexMesh p' dc m')
    (hp : Placed p.dims p'.dims m m' G place) :
    RegionRel p'.dims.nlayers (CellOf m' G place) (EdgeOf p p' m' G place) (VertOf p p' m' G place)
      m.mesh m'.mesh := by
  have hnx := hv.nx_pos
  have hnx' := hv'.nx_pos
  have cl : ∀ {n a}, Inner m' G n a → IsCell p.nx p.ny (place a) := fun h => hp.cell h.sub
  have cl' : ∀ {n a}, Inner m' G n a → IsCell p'.nx p'.ny a := fun h => hp.cell' h.sub
  have er : ∀ {n e e'}, EdgeOf p p' m' G place n e e' → (0 ≤ e ∧ e < 3 * (p.nx * p.ny)) ∧
      0 ≤ e' ∧ e' < 3 * (p'.nx * p'.ny) := by
    rintro n _ _ ⟨a, j, ha, j0, j6, rfl, rfl⟩
    exact ⟨E_range hnx (cl ha) j j0 j6, E_range hnx' (cl' ha) j j0 j6⟩
  have vr : ∀ {n v v'}, VertOf p p' m' G place n v v' → (0 ≤ v ∧ v < 2 * (p.nx * p.ny)) ∧
      0 ≤ v' ∧ v' < 2 * (p'.nx * p'.ny) := by
    rintro n _ _ ⟨a, j, ha, j0, j6, rfl, rfl⟩
    exact ⟨V_range hnx (cl ha) j, V_range hnx' (cl' ha) j⟩
  have mvI : ∀ {n a j}, Inner m' G (n + 1) a → 0 ≤ j → j ≤ 6 →
      Inner m' G n (mv p'.nx p'.ny j a) ∧ mv p.nx p.ny j (place a) = place (mv p'.nx p'.ny j a) := by
    intro n a j ha j0 j6
    unfold mv
    split_ifs with h
    · exact ⟨ha.1, rfl⟩
    · have hj := ha.2 j j0 (by omega)
      rw [hm'.coc a (cl' ha) j j0 (by omega)] at hj
      have := hp.nb ha.sub j j0 (by omega) (by rw [hm'.coc a (cl' ha) j j0 (by omega)]; exact hj.sub)
      rw [hm'.coc a (cl' ha) j j0 (by omega), hm.coc _ (cl ha) j j0 (by omega)] at this
      exact ⟨hj, this⟩
  have j6 : ∀ {n c c' j}, CellOf m' G place n c c' → j < m'.mesh.neoc c' → j < 6 := by
    intro n c c' j hc hj
    have : m'.int .nedges_on_cell c' 0 = 6 := hm'.neoc c' (cl' hc.1)
    change j < m'.int .nedges_on_cell c' 0 at hj
    omega
  have j10 : ∀ {n e e' j}, EdgeOf p p' m' G place n e e' → j < m'.mesh.neoe e' → j < 10 := by
    intro n e e' j he hj
    have : m'.int .nedges_on_edge e' 0 = 10 := hm'.neoe e' (er he).2.1 (er he).2.2
    change j < m'.int .nedges_on_edge e' 0 at hj
    omega
  constructor
  · exact fun h => ⟨h.1.1, h.2⟩
  · rintro n _ _ ⟨a, j, ha, h⟩
    exact ⟨a, j, ha.1, h⟩
  · rintro n c c' ⟨h, rfl⟩
    exact (hm.neoc _ (cl h)).trans (hm'.neoc _ (cl' h)).symm
  · intro n c c' hc j j0 j1
    have := j6 hc j1
    obtain ⟨h, rfl⟩ := hc
    exact ⟨c', j, h, j0, this, hm.eoc _ (cl h) j j0 this, hm'.eoc _ (cl' h) j j0 this⟩
  · intro n e e' he s hs
    have r := er he
    have s2 : 0 ≤ s ∧ s < 2 := by omega
    show CellOf m' G place n (m.int .cells_on_edge e s) (m'.int .cells_on_edge e' s)
    rw [hm.coe e r.1.1 r.1.2 s s2.1 s2.2, hm'.coe e' r.2.1 r.2.2 s s2.1 s2.2]
    obtain ⟨a, j, ha, h0, h6, rfl, rfl⟩ := he
    rw [coe_side hnx hny (cl ha) h0 h6 hs, coe_side hnx' hny' (cl' ha) h0 h6 hs]
    exact mvI ha (by split_ifs <;> omega) (by split_ifs <;> omega)
  · intro n e e' he s hs
    have r := er he
    have s2 : 0 ≤ s ∧ s < 2 := by omega
    show VertOf p p' m' G place n (m.int .vertices_on_edge e s) (m'.int .vertices_on_edge e' s)
    rw [hm.voe e r.1.1 r.1.2 s s2.1 s2.2, hm'.voe e' r.2.1 r.2.2 s s2.1 s2.2]
    obtain ⟨a, j, ha, h0, h6, rfl, rfl⟩ := he
    rw [voe_corner hnx hny (cl ha) h0 h6 hs, voe_corner hnx' hny' (cl' ha) h0 h6 hs]
    exact ⟨a, _, ha, by split_ifs <;> omega, by split_ifs <;> omega, rfl, rfl⟩
  · intro n v v' hvv s s0 s3
    have r := vr hvv
    show EdgeOf p p' m' G place n (m.int .edges_on_vertex v s) (m'.int .edges_on_vertex v' s)
    rw [hm.eov v r.1.1 r.1.2 s s0 s3, hm'.eov v' r.2.1 r.2.2 s s0 s3]
    obtain ⟨a, j, ha, h0, h6, rfl, rfl⟩ := hvv
    rw [eov_corner hnx hny (cl ha) h0 h6 s0 s3, eov_corner hnx' hny' (cl' ha) h0 h6 s0 s3]
    have q := mvI ha (tabE_range (j := j) (s := s)).1 tabE_range.2
    exact ⟨_, _, q.1, tabS_range.1, tabS_range.2, by rw [q.2], rfl⟩
  · intro n v v' hvv s s0 s3
    have r := vr hvv
    show CellOf m' G place n (m.int .cells_on_vertex v s) (m'.int .cells_on_vertex v' s)
    rw [hm.cov v r.1.1 r.1.2 s s0 s3, hm'.cov v' r.2.1 r.2.2 s s0 s3]
    obtain ⟨a, j, ha, h0, h6, rfl, rfl⟩ := hvv
    rw [cov_corner hnx hny (cl ha) h0 h6 s0 s3, cov_corner hnx' hny' (cl' ha) h0 h6 s0 s3]
    exact mvI ha tabC_range.1 tabC_range.2
  · intro n e e' he
    have r := er he
    exact (hm.neoe e r.1.1 r.1.2).trans (hm'.neoe e' r.2.1 r.2.2).symm
  · intro n e e' he s s0 s1
    have s10 := j10 he s1
    have r := er he
    show EdgeOf p p' m' G place n (m.int .edges_on_edge e s) (m'.int .edges_on_edge e' s)
    rw [hm.eoe e r.1.1 r.1.2 s s0 s10, hm'.eoe e' r.2.1 r.2.2 s s0 s10]
    obtain ⟨a, j, ha, h0, h6, rfl, rfl⟩ := he
    rw [eoe_side hnx hny (cl ha) h0 h6, eoe_side hnx' hny' (cl' ha) h0 h6]
    have q1 := mvI ha (j := if j < 3 then j else 6) (by split_ifs <;> omega) (by split_ifs <;> omega)
    have q2 := mvI ha (j := if j < 3 then 6 else j) (by split_ifs <;> omega) (by split_ifs <;> omega)
    rw [q1.2, q2.2]
    by_cases hs : s < 5
    · rw [if_pos hs, if_pos hs]
      exact ⟨_, _, q1.1, by omega, by omega, rfl, rfl⟩
    · rw [if_neg hs, if_neg hs]
      exact ⟨_, _, q2.1, by omega, by omega, rfl, rfl⟩
  · rintro n c c' ⟨h, rfl⟩
    exact (hm.area_cell _ (cl h)).trans (hm'.area_cell _ (cl' h)).symm
  · intro n v v' hvv
    have r := vr hvv
    exact (hm.area_triangle v r.1.1 r.1.2).trans (hm'.area_triangle v' r.2.1 r.2.2).symm
  · intro n e e' he
    have r := er he
    exact (hm.dv_edge e r.1.1 r.1.2).trans (hm'.dv_edge e' r.2.1 r.2.2).symm
  · intro n e e' he
    have r := er he
    exact (hm.dc_edge e r.1.1 r.1.2).trans (hm'.dc_edge e' r.2.1 r.2.2).symm
  · intro n c c' hc j j0 j1
    have hj := j6 hc j1
    obtain ⟨h, rfl⟩ := hc
    refine (hm.sign_cell _ (cl h) j j0 hj).trans (Eq.trans ?_ (hm'.sign_cell _ (cl' h) j j0 hj).symm)
    rw [coe_side hnx hny (cl h) j0 hj (.inl rfl), coe_side hnx' hny' (cl' h) j0 hj (.inl rfl)]
    have n1 := nb_ne h2x h2y (cl h) j
    have n2 := nb_ne h2x' h2y' (cl' h) j
    by_cases h3 : j < 3
    · have : ¬ j = 6 := by omega
      simp [mv, h3, this, n1, n2]
    · simp [mv, h3]
  · intro n v v' hvv s s0 s3
    have r := vr hvv
    refine (hm.sign_vertex v r.1.1 r.1.2 s s0 s3).trans
      (Eq.trans ?_ (hm'.sign_vertex v' r.2.1 r.2.2 s s0 s3).symm)
    simp only [voe_eov_zero hnx (isCell_vertex r.1.1 r.1.2) s0 s3,
      voe_eov_zero hnx' (isCell_vertex r.2.1 r.2.2) s0 s3]
    have : eovEnd v s = eovEnd v' s := by
      obtain ⟨a, j, ha, h0, h6, rfl, rfl⟩ := hvv
      unfold eovEnd
      rw [V_mod h0 h6, V_mod h0 h6]
    rw [this]
  · intro n v v' hvv s s0 s3
    have r := vr hvv
    exact (hm.kitearea v r.1.1 r.1.2 s s0 s3).trans (hm'.kitearea v' r.2.1 r.2.2 s s0 s3).symm
  · intro n e e' he s s0 s1
    have s10 := j10 he s1
    have r := er he
    refine (hm.woe e r.1.1 r.1.2 s s0 s10).trans (Eq.trans ?_ (hm'.woe e' r.2.1 r.2.2 s s0 s10).symm)
    obtain ⟨a, j, ha, h0, h6, rfl, rfl⟩ := he
    rw [E_mod h0 h6, E_mod h0 h6]
  · intro n e e' he k k0 k1
    have r := er he
    exact (hm.mask e r.1.1 r.1.2 k k0 (by rw [hl]; exact k1)).trans
      (hm'.mask e' r.2.1 r.2.2 k k0 k1).symm
  · intro n e e' he
    have r := er he
    exact (hm.del2 e r.1.1 r.1.2).trans (hm'.del2 e' r.2.1 r.2.2).symm
  · intro n e e' he
    have r := er he
    exact (hm.del4 e r.1.1 r.1.2).trans (hm'.del4 e' r.2.1 r.2.2).symm

end

/-! ### The theorems -/

section

variable {p p' : MeshParams} {m m' : Mem R} {dc : R} {G : Int → Prop} {place : Int → Int}

theorem stateAt_agree {n : Nat} (hm : IsHexMesh p dc m) (hm' : IsHexMesh p' dc m') {M : Mem R}
    (hp : Placed p.dims p'.dims m m' G place)
    (hs : StateAt p'.dims m m' (Inner M G n) place) :
    AgreeOn p'.dims.nlayers p'.dims.ntracers (CellOf M G place) (EdgeOf p p' M G place) n
      (m.fld .state) (m'.fld .state) := by
  refine ⟨fun k k0 k1 c c' hc => ?_, fun k k0 k1 e e' he => ?_, fun l k l0 l1 k0 k1 c c' hc => ?_⟩
  · obtain ⟨h, rfl⟩ := hc
    exact hs.h h k0 k1
  · obtain ⟨a, j, ha, j0, j6, rfl, rfl⟩ := he
    have := hs.vn ha j0 j6 k0 k1
    rw [hm.eoc _ (hp.cell ha.sub) j j0 j6, hm'.eoc _ (hp.cell' ha.sub) j j0 j6] at this
    exact this
  · obtain ⟨h, rfl⟩ := hc
    exact hs.tr h l0 l1 k0 k1

theorem agree_stateAt {n : Nat} (hm : IsHexMesh p dc m) (hm' : IsHexMesh p' dc m') {M : Mem R}
    (hp : Placed p.dims p'.dims m m' G place)
    (hs : AgreeOn p'.dims.nlayers p'.dims.ntracers (CellOf M G place) (EdgeOf p p' M G place) n
      (m.fld .state) (m'.fld .state)) :
    StateAt p'.dims m m' (Inner M G n) place := by
  refine ⟨fun {c k} h k0 k1 => hs.h k k0 k1 ⟨h, rfl⟩, fun {c j k} h j0 j6 k0 k1 => ?_,
    fun {l c k} h l0 l1 k0 k1 => hs.tr l k l0 l1 k0 k1 ⟨h, rfl⟩⟩
  rw [hm.eoc _ (hp.cell h.sub) j j0 j6, hm'.eoc _ (hp.cell' h.sub) j j0 j6]
  exact hs.vn k k0 k1 ⟨c, j, h, j0, j6, rfl, rfl⟩

/-- Two rings of cells per tendency evaluation.  Let the cells `G` of one mesh be placed in another
mesh of the same spacing, and let the states agree there.  Then after any steps of any stepper, in any
arithmetic and for any builds of the loops, the states agree on the cells of `G` that are more than twice
the number of tendency evaluations away from the outside. -/
theorem C91_domain_of_dependence (hv : RunValid p) (hv' : RunValid p') (h2x : 2 ≤ p.nx) (h2y : 2 ≤ p.ny)
    (h2x' : 2 ≤ p'.nx) (h2y' : 2 ≤ p'.ny) (hny : p.ny % 2 = 0) (hny' : p'.ny % 2 = 0)
    (hl : p.dims.nlayers = p'.dims.nlayers) (ht : p.dims.ntracers = p'.dims.ntracers) {prm : Params R}
    {m1 m1' : Mem R} (hr : Ready p dc prm m) (hr' : Ready p' dc prm m')
    (hp : Placed p.dims p'.dims m m' G place) (hs : StateAt p'.dims m m' G place) {stp : Stepper}
    {sched : List (R × R)} {split split' : Bool}
    (he : Exec p.dims (stp.ctor p.dims ++ stp.run p.dims ⟨defaultKernels p.dims.vl, split⟩
      (SWModel.ofParams prm) sched) m m1)
    (he' : Exec p'.dims (stp.ctor p'.dims ++ stp.run p'.dims ⟨defaultKernels p'.dims.vl, split'⟩
      (SWModel.ofParams prm) sched) m' m1') :
    StateAt p'.dims m1 m1' (Inner m' G (2 * stp.stages * sched.length)) place := by
  have X := hr.hex hv.toValid
  have X' := hr'.hex hv'.toValid
  have n := noHook_ofParams prm
  have L := region hv hv' h2x h2y h2x' h2y' hny hny' hl X.1 X'.1 hp
  have W : SameSys p'.dims.nlayers (CellOf m' G place) (EdgeOf p p' m' G place) (VertOf p p' m' G place)
      (sysOf scalarF p (SWModel.ofParams prm) noHook m)
      (sysOf scalarF p' (SWModel.ofParams prm) noHook m') := by
    refine ⟨rfl, rfl, L, ?_, rfl, rfl, rfl⟩
    rintro n _ _ ⟨a, j, ha, j0, j6, rfl, rfl⟩
    have r := V_range hv.nx_pos (hp.cell ha.sub) j
    have r' := V_range hv'.nx_pos (hp.cell' ha.sub) j
    exact (X.2.1 _ r.1 r.2).trans (X'.2.1 _ r'.1 r'.2).symm
  obtain ⟨s1, -, v⟩ := (hr.setup hv n).newRun he
  obtain ⟨s1', -, v'⟩ := (hr'.setup hv' n).newRun he'
  have z : AgreeOn p'.dims.nlayers p'.dims.ntracers (CellOf m' G place) (EdgeOf p p' m' G place) 0
      (zeroFld : Fld R) zeroFld :=
    ⟨fun _ _ _ _ _ _ => rfl, fun _ _ _ _ _ _ => rfl, fun _ _ _ _ _ _ _ _ _ => rfl⟩
  have key := (agree_run W stp sched (p := (zeroFld, m.fld .state)) (q := (zeroFld, m'.fld .state))
    ⟨z, stateAt_agree X.1 X'.1 hp hs⟩).2
  rw [Nat.zero_add] at key
  have hp1 : Placed p.dims p'.dims m1 m1' G place :=
    ⟨hp.cell', hp.cell, by rw [s1.int, s1'.int]; exact hp.nb⟩
  refine agree_stateAt ((hr.static s1).hex hv.toValid).1 ((hr'.static s1').hex hv'.toValid).1 hp1 ?_
  refine ⟨fun k k0 k1 c c' hc => ?_, fun k k0 k1 e e' hee => ?_, fun l k l0 l1 k0 k1 c c' hc => ?_⟩
  · have r : 0 ≤ c ∧ c < p.dims.ncells := by rw [hc.2]; exact hp.cell hc.1.sub
    have r' := hp.cell' hc.1.sub
    exact (v.h c k r.1 r.2 k0 (by rw [hl]; exact k1)).trans
      ((key.h k k0 k1 hc).trans (v'.h c' k r'.1 r'.2 k0 k1).symm)
  · have hee' := hee
    obtain ⟨a, j, ha, j0, j6, rfl, rfl⟩ := hee
    have r := E_range hv.nx_pos (hp.cell ha.sub) j j0 j6
    have r' := E_range hv'.nx_pos (hp.cell' ha.sub) j j0 j6
    exact (v.vn _ k r.1 r.2 k0 (by rw [hl]; exact k1)).trans
      ((key.vn k k0 k1 hee').trans (v'.vn _ k r'.1 r'.2 k0 k1).symm)
  · have r : 0 ≤ c ∧ c < p.dims.ncells := by rw [hc.2]; exact hp.cell hc.1.sub
    have r' := hp.cell' hc.1.sub
    exact (v.tr l c k l0 (by rw [ht]; exact l1) r.1 r.2 k0 (by rw [hl]; exact k1)).trans
      ((key.tr l k l0 l1 k0 k1 hc).trans (v'.tr l c' k l0 l1 r'.1 r'.2 k0 k1).symm)

/-- On one mesh: data outside `G` do not influence the result well inside `G`. -/
theorem C91_far_data (hv : RunValid p) (h2x : 2 ≤ p.nx) (h2y : 2 ≤ p.ny) (hny : p.ny % 2 = 0)
    {prm : Params R} {m1 m1' : Mem R} (hr : Ready p dc prm m) (hr' : Ready p dc prm m')
    (hG : ∀ {c}, G c → 0 ≤ c ∧ c < p.dims.ncells) (hs : StateAt p.dims m m' G fun c => c) {stp : Stepper}
    {sched : List (R × R)} {split split' : Bool}
    (he : Exec p.dims (stp.ctor p.dims ++ stp.run p.dims ⟨defaultKernels p.dims.vl, split⟩
      (SWModel.ofParams prm) sched) m m1)
    (he' : Exec p.dims (stp.ctor p.dims ++ stp.run p.dims ⟨defaultKernels p.dims.vl, split'⟩
      (SWModel.ofParams prm) sched) m' m1') :
    StateAt p.dims m1 m1' (Inner m' G (2 * stp.stages * sched.length)) (fun c => c) := by
  refine C91_domain_of_dependence hv hv h2x h2y h2x h2y hny hny rfl rfl hr hr' ⟨hG, hG, ?_⟩ hs he he'
  intro c hc j j0 j6 _
  rw [(hr.hex hv.toValid).1.coc c (hG hc) j j0 j6, (hr'.hex hv.toValid).1.coc c (hG hc) j j0 j6]

/-! ### A part of the domain with a halo -/

/-- the box of the smaller mesh without its last column and row -/
def boxG (p : MeshParams) (c : Int) : Prop :=
  ∃ i r, 0 ≤ i ∧ i < p.nx - 1 ∧ 0 ≤ r ∧ r < p.ny - 1 ∧ c = cid p.nx i r

/-- the cell of the larger mesh, `di` columns and `dr` rows further -/
def boxAt (p p' : MeshParams) (di dr c : Int) : Int := cid p.nx (col p'.nx c + di) (row p'.nx c + dr)

theorem box_placed (hv : RunValid p) (hv' : RunValid p') {di dr : Int} (d0 : 0 ≤ di)
    (d1 : di + p'.nx ≤ p.nx) (e0 : 0 ≤ dr) (e1 : dr + p'.ny ≤ p.ny) (he : dr % 2 = 0)
    (hm : IsHexMesh p dc m) (hm' : IsHexMesh p' dc m') :
    Placed p.dims p'.dims m m' (boxG p') (boxAt p p' di dr) := by
  have cell' : ∀ {c}, boxG p' c → IsCell p'.nx p'.ny c := by
    rintro _ ⟨i, r, i0, i1, r0, r1, rfl⟩
    exact cid_range i0 (by omega) r0 (by omega)
  have at' : ∀ {i r}, 0 ≤ i → i < p'.nx → boxAt p p' di dr (cid p'.nx i r) = cid p.nx (i + di) (r + dr) := by
    intro i r h0 h1
    unfold boxAt
    rw [col_cid h0 h1, row_cid h0 h1]
  have cell : ∀ {c}, boxG p' c → IsCell p.nx p.ny (boxAt p p' di dr c) := by
    rintro _ ⟨i, r, i0, i1, r0, r1, rfl⟩
    rw [at' i0 (by omega)]
    exact cid_range (by omega) (by omega) (by omega) (by omega)
  refine ⟨cell', cell, fun {c} hc j j0 j6 hn => ?_⟩
  rw [hm.coc _ (cell hc) j j0 j6]
  rw [hm'.coc _ (cell' hc) j j0 j6] at hn ⊢
  obtain ⟨i, r, i0, i1, r0, r1, rfl⟩ := hc
  obtain ⟨i', r', i0', i1', r0', r1', e⟩ := hn
  rw [at' i0 (by omega), nb_cid (by omega) (by omega)]
  rw [nb_cid i0 (by omega)] at e ⊢
  have hI := nbI_range (nx := p'.nx) (j := j) (r := r) i0 (by omega)
  have hR := nbR_range (ny := p'.ny) (j := j) r0 (by omega)
  obtain ⟨eI, eR⟩ := cid_inj hI.1 hI.2 i0' (by omega) e
  rw [at' hI.1 hI.2]
  have hp2 : (r + dr) % 2 = r % 2 := by omega
  congr 1
  · revert eI
    unfold nbI mx px
    rw [hp2]
    split_ifs <;> omega
  · revert eR
    unfold nbR mx px
    split_ifs <;> omega

theorem box_inner (hv' : RunValid p') (hm' : IsHexMesh p' dc m') (n : Nat) : ∀ {i r : Int}, (n : Int) ≤ i →
    i + n < p'.nx - 1 → (n : Int) ≤ r → r + n < p'.ny - 1 → Inner m' (boxG p') n (cid p'.nx i r) := by
  induction n with
  | zero =>
    intro i r i0 i1 r0 r1
    exact ⟨i, r, by simpa using i0, by simpa using i1, by simpa using r0, by simpa using r1, rfl⟩
  | succ n ih =>
    intro i r i0 i1 r0 r1
    push_cast at i0 i1 r0 r1
    refine ⟨ih (by omega) (by omega) (by omega) (by omega), fun j j0 j6 => ?_⟩
    rw [hm'.coc _ (cid_range (by omega) (by omega) (by omega) (by omega)) j j0 j6,
      nb_cid (by omega) (by omega)]
    have a : i - 1 ≤ nbI p'.nx j i r ∧ nbI p'.nx j i r ≤ i + 1 := by
      unfold nbI mx px; split_ifs <;> omega
    have b : r - 1 ≤ nbR p'.ny j r ∧ nbR p'.ny j r ≤ r + 1 := by
      unfold nbR mx px; split_ifs <;> omega
    exact ih (by omega) (by omega) (by omega) (by omega)

/-- A run on a part of the domain.  Start a run on a smaller mesh from the values a larger mesh has on a
box of the same size (less one column and row, across which the smaller mesh is closed periodically).
After steps with `N` tendency evaluations in all, both runs have the same thickness, velocity and tracers
in all cells at least `2 N` cells away from the border of the box, in any arithmetic. -/
theorem C91_subdomain (hv : RunValid p) (hv' : RunValid p') (h2x : 2 ≤ p'.nx) (h2y : 2 ≤ p'.ny)
    (hny : p.ny % 2 = 0) (hny' : p'.ny % 2 = 0) (hl : p.dims.nlayers = p'.dims.nlayers)
    (ht : p.dims.ntracers = p'.dims.ntracers) {di dr : Int} (d0 : 0 ≤ di) (d1 : di + p'.nx ≤ p.nx)
    (e0 : 0 ≤ dr) (e1 : dr + p'.ny ≤ p.ny) (hdr : dr % 2 = 0) {prm : Params R} {m1 m1' : Mem R}
    (hr : Ready p dc prm m) (hr' : Ready p' dc prm m')
    (hs : StateAt p'.dims m m' (boxG p') (boxAt p p' di dr)) {stp : Stepper} {sched : List (R × R)}
    {split split' : Bool}
    (he : Exec p.dims (stp.ctor p.dims ++ stp.run p.dims ⟨defaultKernels p.dims.vl, split⟩
      (SWModel.ofParams prm) sched) m m1)
    (he' : Exec p'.dims (stp.ctor p'.dims ++ stp.run p'.dims ⟨defaultKernels p'.dims.vl, split'⟩
      (SWModel.ofParams prm) sched) m' m1') {N : Nat} (hN : N = stp.stages * sched.length) :
    StateAt p'.dims m1 m1' (fun c => ∃ i r, (2 * N : Int) ≤ i ∧ i + 2 * N < p'.nx - 1 ∧
      (2 * N : Int) ≤ r ∧ r + 2 * N < p'.ny - 1 ∧ c = cid p'.nx i r) (boxAt p p' di dr) := by
  have X := (hr.hex hv.toValid).1
  have X' := (hr'.hex hv'.toValid).1
  have key := C91_domain_of_dependence hv hv' (by omega) (by omega) h2x h2y hny hny' hl ht hr hr'
    (box_placed hv hv' d0 d1 e0 e1 hdr X X') hs he he'
  have sub : ∀ {c}, (∃ i r, (2 * N : Int) ≤ i ∧ i + 2 * N < p'.nx - 1 ∧
      (2 * N : Int) ≤ r ∧ r + 2 * N < p'.ny - 1 ∧ c = cid p'.nx i r) →
      Inner m' (boxG p') (2 * stp.stages * sched.length) c := by
    rintro _ ⟨i, r, a, b, c, d, rfl⟩
    rw [Nat.mul_assoc, ← hN]
    exact box_inner hv' X' (2 * N) (by push_cast; exact a) (by push_cast; exact b) (by push_cast; exact c)
      (by push_cast; exact d)
  exact ⟨fun h => key.h (sub h), fun h => key.vn (sub h), fun h => key.tr (sub h)⟩

end

/-! ### Examples -/

/-- a mesh of 40 by 30 cells and one of 20 by 20 cells -/
def pBig : MeshParams := ⟨40, 30, 3, 3, 2⟩
def pSub : MeshParams := ⟨20, 20, 3, 3, 2⟩

theorem pBig_run : RunValid pBig := by
  have hl : pBig.dims.nlayers = p46.dims.nlayers := rfl
  exact ⟨by constructor <;> simp [pBig], by rw [hl, p46_layers]; norm_num⟩

theorem pSub_run : RunValid pSub := by
  have hl : pSub.dims.nlayers = p46.dims.nlayers := rfl
  exact ⟨by constructor <;> simp [pSub], by rw [hl, p46_layers]; norm_num⟩

theorem pSub_layers : 0 < pSub.dims.nlayers := by
  have hl : pSub.dims.nlayers = p46.dims.nlayers := rfl
  rw [hl, p46_layers]; norm_num

theorem side_mod (nx ny c j : Int) (j0 : 0 ≤ j) (j6 : j < 6) : E nx ny c j % 3 = j % 3 := by
  unfold E; split_ifs <;> omega

/-- One step of `RK4` on 20 by 20 cells, at column 13 and row 6 of a mesh of 40 by 30 cells, any thickness,
tracers and parameters, a velocity which depends on the direction of the edge and the layer. -/
example (dc : R) (prm : Params R) (x : Fld R) (dt t : R) (split : Bool) :
    ∃ m m' m1 m1' : Mem R, Ready pBig dc prm m ∧ Ready pSub dc prm m' ∧
      (∀ c k, m.real (.h_cell .state) 0 c k = x.h c k) ∧
      StateAt pSub.dims m m' (boxG pSub) (boxAt pBig pSub 13 6) ∧
      Exec pBig.dims (Stepper.rk4.ctor pBig.dims ++ Stepper.rk4.run pBig.dims
        ⟨defaultKernels pBig.dims.vl, split⟩ (SWModel.ofParams prm) [(t, dt)]) m m1 ∧
      Exec pSub.dims (Stepper.rk4.ctor pSub.dims ++ Stepper.rk4.run pSub.dims
        ⟨defaultKernels pSub.dims.vl, split⟩ (SWModel.ofParams prm) [(t, dt)]) m' m1' ∧
      m1.real (.h_cell .state) 0 622 0 = m1'.real (.h_cell .state) 0 189 0 := by
  obtain ⟨m, hr, hx, -⟩ := exists_ready pBig_run.toValid dc prm
    ⟨x.h, fun e k => x.vn (e % 3) k, x.tr⟩ zeroFld
  obtain ⟨m', hr', hy, -⟩ := exists_ready pSub_run.toValid dc prm
    ⟨fun c k => x.h (boxAt pBig pSub 13 6 c) k, fun e k => x.vn (e % 3) k,
      fun l c k => x.tr l (boxAt pBig pSub 13 6 c) k⟩ zeroFld
  have X := (hr.hex pBig_run.toValid).1
  have X' := (hr'.hex pSub_run.toValid).1
  have hp := box_placed (di := 13) (dr := 6) pBig_run pSub_run (by decide) (by decide) (by decide)
    (by decide) (by decide) X X'
  have hs : StateAt pSub.dims m m' (boxG pSub) (boxAt pBig pSub 13 6) := by
    refine ⟨fun {c k} _ _ _ => ?_, fun {c j k} hc j0 j6 _ _ => ?_, fun {l c k} _ _ _ _ _ => ?_⟩
    · exact (congrFun (congrFun (congrArg Fld.h hx) _) k).trans
        (congrFun (congrFun (congrArg Fld.h hy) c) k).symm
    · rw [X.eoc _ (hp.cell hc) j j0 j6, X'.eoc _ (hp.cell' hc) j j0 j6]
      refine (congrFun (congrFun (congrArg Fld.vn hx) _) k).trans
        (Eq.trans ?_ (congrFun (congrFun (congrArg Fld.vn hy) _) k).symm)
      show x.vn (_ % 3) k = x.vn (_ % 3) k
      rw [side_mod _ _ _ _ j0 j6, side_mod _ _ _ _ j0 j6]
    · exact (congrFun (congrFun (congrFun (congrArg Fld.tr hx) l) _) k).trans
        (congrFun (congrFun (congrFun (congrArg Fld.tr hy) l) c) k).symm
  obtain ⟨m1, r1, -⟩ := new_run_runs (hr.setup pBig_run (noHook_ofParams prm)) .rk4 [(t, dt)]
  obtain ⟨m1', r1', -⟩ := new_run_runs (hr'.setup pSub_run (noHook_ofParams prm)) .rk4 [(t, dt)]
  refine ⟨m, m', m1, m1', hr, hr', fun c k => congrFun (congrFun (congrArg Fld.h hx) c) k, hs,
    (r1 split).exec, (r1' split).exec, ?_⟩
  have key := C91_subdomain pBig_run pSub_run (by decide) (by decide) (by decide) (by decide) rfl rfl
    (by decide) (by decide) (by decide) (by decide) (by decide) hr hr' hs (r1 split).exec (r1' split).exec
    (N := 4) rfl
  exact key.h (c := 189) (k := 0) ⟨9, 9, by decide, by decide, by decide, by decide, by decide⟩ le_rfl
    pSub_layers

open Classical in
/-- Any two states which agree on a part of the mesh. -/
example (dc : R) (prm : Params R) (x y : Fld R) (dt t : R) (split : Bool) :
    ∃ m m' m1 m1' : Mem R, Ready pSub dc prm m ∧ Ready pSub dc prm m' ∧ m.fld .state = x ∧
      (∀ k, m'.real (.h_cell .state) 0 399 k = y.h 399 k) ∧
      StateAt pSub.dims m m' (boxG pSub) (fun c => c) ∧
      Exec pSub.dims (Stepper.rk4.ctor pSub.dims ++ Stepper.rk4.run pSub.dims
        ⟨defaultKernels pSub.dims.vl, split⟩ (SWModel.ofParams prm) [(t, dt)]) m m1 ∧
      Exec pSub.dims (Stepper.rk4.ctor pSub.dims ++ Stepper.rk4.run pSub.dims
        ⟨defaultKernels pSub.dims.vl, split⟩ (SWModel.ofParams prm) [(t, dt)]) m' m1' ∧
      m1.real (.h_cell .state) 0 189 0 = m1'.real (.h_cell .state) 0 189 0 := by
  obtain ⟨m, hr, hx, -⟩ := exists_ready pSub_run.toValid dc prm x zeroFld
  obtain ⟨m', hr', hy, -⟩ := exists_ready pSub_run.toValid dc prm
    ⟨fun c k => if boxG pSub c then x.h c k else y.h c k,
      fun e k => if (∃ c j, boxG pSub c ∧ 0 ≤ j ∧ j < 6 ∧ e = E pSub.nx pSub.ny c j) then x.vn e k
        else y.vn e k,
      fun l c k => if boxG pSub c then x.tr l c k else y.tr l c k⟩ zeroFld
  have X := (hr.hex pSub_run.toValid).1
  have X' := (hr'.hex pSub_run.toValid).1
  have hG : ∀ {c}, boxG pSub c → 0 ≤ c ∧ c < pSub.dims.ncells := by
    rintro _ ⟨i, r, i0, i1, r0, r1, rfl⟩
    exact cid_range i0 (by omega) r0 (by omega)
  have hs : StateAt pSub.dims m m' (boxG pSub) (fun c => c) := by
    refine ⟨fun {c k} h _ _ => ?_, fun {c j k} hc j0 j6 _ _ => ?_, fun {l c k} h _ _ _ _ => ?_⟩
    · refine (congrFun (congrFun (congrArg Fld.h hx) _) k).trans
        (Eq.trans ?_ (congrFun (congrFun (congrArg Fld.h hy) c) k).symm)
      exact (if_pos h).symm
    · rw [X.eoc _ (hG hc) j j0 j6, X'.eoc _ (hG hc) j j0 j6]
      refine (congrFun (congrFun (congrArg Fld.vn hx) _) k).trans
        (Eq.trans ?_ (congrFun (congrFun (congrArg Fld.vn hy) _) k).symm)
      exact (if_pos ⟨c, j, hc, j0, j6, rfl⟩).symm
    · refine (congrFun (congrFun (congrFun (congrArg Fld.tr hx) l) _) k).trans
        (Eq.trans ?_ (congrFun (congrFun (congrFun (congrArg Fld.tr hy) l) c) k).symm)
      exact (if_pos h).symm
  obtain ⟨m1, r1, -⟩ := new_run_runs (hr.setup pSub_run (noHook_ofParams prm)) .rk4 [(t, dt)]
  obtain ⟨m1', r1', -⟩ := new_run_runs (hr'.setup pSub_run (noHook_ofParams prm)) .rk4 [(t, dt)]
  refine ⟨m, m', m1, m1', hr, hr', hx, fun k => ?_, hs, (r1 split).exec, (r1' split).exec, ?_⟩
  · refine (congrFun (congrFun (congrArg Fld.h hy) 399) k).trans (if_neg ?_)
    rintro ⟨i, r, i0, i1, r0, r1, e⟩
    have a : i < 19 := i1
    have b : r < 19 := r1
    have e' : (399 : Int) = r * 20 + i := e
    omega
  · have key := C91_far_data pSub_run (by decide) (by decide) (by decide) hr hr' hG hs (r1 split).exec
      (r1' split).exec
    refine key.h (c := 189) (k := 0) ?_ le_rfl pSub_layers
    exact box_inner pSub_run X' 8 (i := 9) (r := 9) (by decide) (by decide) (by decide) (by decide)

end Props
end Omega
