import Verif.Refine.Rel
import Verif.Props.Programs

/-!
# C39: translations of the state commute with tendencies, steps and runs
-/

set_option linter.unusedVariables false
set_option linter.unusedSectionVars false

namespace Omega
namespace Props

open Refine Model Prog

/-! ### Translations of the lattice -/

section

variable (nx ny : Int)

/-- one column further -/
def shiftCol (a : Int) : Int := Hex.cid nx (Hex.px nx (Hex.col nx a)) (Hex.row nx a)

/-- one row further along the lattice direction that goes straight up from an even row; from an odd
row (drawn half a cell to the right) it also moves one column -/
def shiftRow (a : Int) : Int :=
  Hex.cid nx (if Hex.row nx a % 2 = 0 then Hex.col nx a else Hex.px nx (Hex.col nx a))
    (Hex.px ny (Hex.row nx a))

/-- two rows further in the same column -/
def shiftTwoRows (a : Int) : Int :=
  Hex.cid nx (Hex.col nx a) (Hex.px ny (Hex.px ny (Hex.row nx a)))

/-- A symmetry of the lattice: a permutation of cells that takes neighbour `j` to neighbour `j`. -/
structure IsSymm (σ : Int → Int) : Prop where
  cell : ∀ {a}, Hex.IsCell nx ny a → Hex.IsCell nx ny (σ a)
  inj : ∀ {a b}, Hex.IsCell nx ny a → Hex.IsCell nx ny b → σ a = σ b → a = b
  nb : ∀ {a}, Hex.IsCell nx ny a → ∀ j, Hex.nb nx ny j (σ a) = σ (Hex.nb nx ny j a)

variable {nx ny}

theorem IsSymm.id : IsSymm nx ny (fun a => a) := ⟨fun h => h, fun _ _ h => h, fun _ _ => rfl⟩

theorem IsSymm.comp {σ τ : Int → Int} (h : IsSymm nx ny σ) (h' : IsSymm nx ny τ) :
    IsSymm nx ny (fun a => σ (τ a)) :=
  ⟨fun ha => h.cell (h'.cell ha), fun ha hb e => h'.inj ha hb (h.inj (h'.cell ha) (h'.cell hb) e),
    fun ha j => by rw [h.nb (h'.cell ha), h'.nb ha]⟩

theorem IsSymm.iterate {σ : Int → Int} (h : IsSymm nx ny σ) (n : Nat) : IsSymm nx ny (σ^[n]) := by
  induction n with
  | zero => exact IsSymm.id
  | succ n ih => exact ih.comp h

/-- reduction to coordinates -/
theorem IsSymm.of_coords (hnx : 1 ≤ nx) {f : Int → Int → Int} {g : Int → Int}
    (hf : ∀ i r, 0 ≤ i → i < nx → 0 ≤ r → r < ny → 0 ≤ f i r ∧ f i r < nx)
    (hg : ∀ r, 0 ≤ r → r < ny → 0 ≤ g r ∧ g r < ny)
    (hi : ∀ i i' r, 0 ≤ i → i < nx → 0 ≤ i' → i' < nx → 0 ≤ r → r < ny → f i r = f i' r → i = i')
    (hr : ∀ r r', 0 ≤ r → r < ny → 0 ≤ r' → r' < ny → g r = g r' → r = r')
    (hI : ∀ j i r, 0 ≤ i → i < nx → 0 ≤ r → r < ny →
      Hex.nbI nx j (f i r) (g r) = f (Hex.nbI nx j i r) (Hex.nbR ny j r))
    (hR : ∀ j r, 0 ≤ r → r < ny → Hex.nbR ny j (g r) = g (Hex.nbR ny j r)) :
    IsSymm nx ny fun a => Hex.cid nx (f (Hex.col nx a) (Hex.row nx a)) (g (Hex.row nx a)) := by
  refine ⟨fun {a} ha => ?_, fun {a b} ha hb e => ?_, fun {a} ha j => ?_⟩
  · obtain ⟨c0, c1⟩ := Hex.col_range hnx a
    obtain ⟨r0, r1⟩ := Hex.row_range hnx ha
    exact Hex.cid_range (hf _ _ c0 c1 r0 r1).1 (hf _ _ c0 c1 r0 r1).2 (hg _ r0 r1).1 (hg _ r0 r1).2
  · obtain ⟨i, r, i0, i1, r0, r1, rfl⟩ := Hex.exists_coords hnx ha
    obtain ⟨i', r', i0', i1', r0', r1', rfl⟩ := Hex.exists_coords hnx hb
    simp only [Hex.col_cid i0 i1, Hex.row_cid i0 i1, Hex.col_cid i0' i1', Hex.row_cid i0' i1'] at e
    have h := Hex.cid_inj (hf i r i0 i1 r0 r1).1 (hf i r i0 i1 r0 r1).2 (hf i' r' i0' i1' r0' r1').1
      (hf i' r' i0' i1' r0' r1').2 e
    obtain rfl := hr r r' r0 r1 r0' r1' h.2
    rw [hi i i' r i0 i1 i0' i1' r0 r1 h.1]
  · obtain ⟨i, r, i0, i1, r0, r1, rfl⟩ := Hex.exists_coords hnx ha
    obtain ⟨f0, f1⟩ := hf i r i0 i1 r0 r1
    obtain ⟨n0, n1⟩ := Hex.nbI_range (j := j) (r := r) i0 i1
    simp only [Hex.col_cid i0 i1, Hex.row_cid i0 i1]
    rw [Hex.nb_cid f0 f1, Hex.nb_cid i0 i1]
    simp only [Hex.col_cid n0 n1, Hex.row_cid n0 n1]
    rw [hI j i r i0 i1 r0 r1, hR j r r0 r1]

theorem symm_col (hnx : 1 ≤ nx) : IsSymm nx ny (shiftCol nx) := by
  refine IsSymm.of_coords hnx (f := fun i _ => Hex.px nx i) (g := fun r => r)
    (fun i r h0 h1 _ _ => Hex.px_range h0 h1) (fun r h0 h1 => ⟨h0, h1⟩) ?_ (fun _ _ _ _ _ _ h => h)
    ?_ (fun _ _ _ _ => rfl)
  · intro i i' r h0 h1 h0' h1' _ _ h
    rw [← Hex.mx_px h0 h1, h, Hex.mx_px h0' h1']
  · intro j i r h0 h1 _ _
    have e := (Hex.mx_px h0 h1).trans (Hex.px_mx h0 h1).symm
    simp only [Hex.nbI]
    split_ifs <;> first | rfl | exact e

theorem symm_row (hnx : 1 ≤ nx) (hny : ny % 2 = 0) : IsSymm nx ny (shiftRow nx ny) := by
  refine IsSymm.of_coords hnx (f := fun i r => if r % 2 = 0 then i else Hex.px nx i)
    (g := fun r => Hex.px ny r) (fun i r h0 h1 _ _ => ?_) (fun r h0 h1 => Hex.px_range h0 h1) ?_ ?_ ?_ ?_
  · have := Hex.px_range h0 h1
    split_ifs <;> omega
  · intro i i' r h0 h1 h0' h1' _ _ h
    split_ifs at h
    · exact h
    · rw [← Hex.mx_px h0 h1, h, Hex.mx_px h0' h1']
  · intro r r' h0 h1 h0' h1' h
    rw [← Hex.mx_px h0 h1, h, Hex.mx_px h0' h1']
  · intro j i r h0 h1 r0 r1
    have e := (Hex.mx_px h0 h1)
    have e' := (Hex.px_mx h0 h1)
    have hp : Hex.px ny r % 2 = 0 ↔ ¬ r % 2 = 0 := by unfold Hex.px; split_ifs <;> omega
    have hm : Hex.mx ny r % 2 = 0 ↔ ¬ r % 2 = 0 := by unfold Hex.mx; split_ifs <;> omega
    by_cases hr : r % 2 = 0
    · have hp' : ¬ Hex.px ny r % 2 = 0 := by rw [hp]; simpa using hr
      have hm' : ¬ Hex.mx ny r % 2 = 0 := by rw [hm]; simpa using hr
      simp only [Hex.nbI, Hex.nbR, hr, if_true, hp', if_false]
      split_ifs <;> first | rfl | omega
    · have hp' : Hex.px ny r % 2 = 0 := by rw [hp]; simpa using hr
      have hm' : Hex.mx ny r % 2 = 0 := by rw [hm]; simpa using hr
      simp only [Hex.nbI, Hex.nbR, hr, if_true, hp', if_false]
      split_ifs <;> first | rfl | omega
  · intro j r h0 h1
    have e := (Hex.mx_px h0 h1)
    have e' := (Hex.px_mx h0 h1)
    simp only [Hex.nbR]
    split_ifs <;> first | rfl | simp_all

theorem symm_twoRows (hnx : 1 ≤ nx) (hny : ny % 2 = 0) : IsSymm nx ny (shiftTwoRows nx ny) := by
  refine IsSymm.of_coords hnx (f := fun i r => i)
    (g := fun r => Hex.px ny (Hex.px ny r)) (fun i r h0 h1 _ _ => ⟨h0, h1⟩)
    (fun r h0 h1 => Hex.px_range (Hex.px_range h0 h1).1 (Hex.px_range h0 h1).2)
    (fun _ _ _ _ _ _ _ _ _ h => h) ?_ ?_ ?_
  · intro r r' h0 h1 h0' h1' h
    have a := Hex.px_range h0 h1
    have b := Hex.px_range h0' h1'
    rw [← Hex.mx_px h0 h1, ← Hex.mx_px a.1 a.2, h, Hex.mx_px b.1 b.2, Hex.mx_px h0' h1']
  · intro j i r h0 h1 r0 r1
    have hp : Hex.px ny (Hex.px ny r) % 2 = r % 2 := by unfold Hex.px; split_ifs <;> omega
    simp only [Hex.nbI, hp]
  · intro j r h0 h1
    have e := (Hex.mx_px h0 h1)
    have e' := (Hex.px_mx h0 h1)
    have a := Hex.px_range h0 h1
    have e2 := Hex.mx_px a.1 a.2
    simp only [Hex.nbR]
    split_ifs <;> first | rfl | simp_all

end

/-! ### Renamed mesh tables -/

/-- cells by `σ`, edges and vertices with the cell that owns them -/
def owned (σ : Int → Int) : Ren :=
  ⟨σ, fun e => 3 * σ (e / 3) + e % 3, fun v => 2 * σ (v / 2) + v % 2⟩

section

variable {nx ny : Int} {σ : Int → Int} (hnx : 1 ≤ nx) (h : IsSymm nx ny σ)
include hnx h

theorem symm_inv {a : Int} (ha : Hex.IsCell nx ny a) (j : Int) :
    Hex.inv nx ny j (σ a) = σ (Hex.inv nx ny j a) := by
  have hi := Hex.inv_isCell hnx (j := j) ha
  refine Hex.nb_inj hnx (j := j) (Hex.inv_isCell hnx (h.cell ha)) (h.cell hi) ?_
  rw [Hex.nb_inv hnx (h.cell ha), h.nb hi, Hex.nb_inv hnx ha]

omit hnx h in
theorem owned_e (c s : Int) (h0 : 0 ≤ s) (h3 : s < 3) :
    (owned σ).e (3 * c + s) = 3 * σ c + s := by
  show 3 * σ ((3 * c + s) / 3) + (3 * c + s) % 3 = _
  rw [show (3 * c + s) / 3 = c by omega, show (3 * c + s) % 3 = s by omega]

omit hnx h in
theorem owned_v (c s : Int) (h0 : 0 ≤ s) (h3 : s < 2) :
    (owned σ).v (2 * c + s) = 2 * σ c + s := by
  show 2 * σ ((2 * c + s) / 2) + (2 * c + s) % 2 = _
  rw [show (2 * c + s) / 2 = c by omega, show (2 * c + s) % 2 = s by omega]

omit hnx h in
theorem owned_e_div (e : Int) : (owned σ).e e / 3 = σ (e / 3) ∧ (owned σ).e e % 3 = e % 3 := by
  show (3 * σ (e / 3) + e % 3) / 3 = _ ∧ (3 * σ (e / 3) + e % 3) % 3 = _
  omega

omit hnx h in
theorem owned_v_div (v : Int) : (owned σ).v v / 2 = σ (v / 2) ∧ (owned σ).v v % 2 = v % 2 := by
  show (2 * σ (v / 2) + v % 2) / 2 = _ ∧ (2 * σ (v / 2) + v % 2) % 2 = _
  omega

omit hnx in
theorem symm_E {c : Int} (hc : Hex.IsCell nx ny c) {j : Int} (h0 : 0 ≤ j) (h6 : j < 6) :
    Hex.E nx ny (σ c) j = (owned σ).e (Hex.E nx ny c j) := by
  unfold Hex.E
  split_ifs
  · rw [owned_e _ _ h0 (by omega)]
  · rw [owned_e _ _ (by omega) (by omega), h.nb hc]

theorem symm_coe {e : Int} (he : Hex.IsCell nx ny (e / 3)) (s : Int) :
    Hex.coe nx ny ((owned σ).e e) s = σ (Hex.coe nx ny e s) := by
  unfold Hex.coe
  rw [(owned_e_div e).1, (owned_e_div e).2]
  split_ifs
  · rfl
  · exact symm_inv hnx h he _

omit hnx in
theorem symm_voe {e : Int} (he : Hex.IsCell nx ny (e / 3)) (s : Int) :
    Hex.voe nx ny ((owned σ).e e) s = (owned σ).v (Hex.voe nx ny e s) := by
  have ow : ∀ c, (owned σ).v (2 * c) = 2 * σ c := fun c => by
    simpa using owned_v (σ := σ) c 0 (by omega) (by omega)
  unfold Hex.voe
  rw [(owned_e_div e).1, (owned_e_div e).2, h.nb he, h.nb he]
  split_ifs <;> first
    | rw [ow]
    | rw [owned_v _ _ (by omega) (by omega)]

theorem symm_eoe {e : Int} (he : Hex.IsCell nx ny (e / 3)) {s : Int} (h0 : 0 ≤ s) (h1 : s < 10)
    (hco : Hex.IsCell nx ny (Hex.coe nx ny e 0)) :
    Hex.eoe nx ny ((owned σ).e e) s = (owned σ).e (Hex.eoe nx ny e s) := by
  unfold Hex.eoe
  rw [(owned_e_div e).1, (owned_e_div e).2, symm_coe hnx h he]
  split_ifs
  · exact symm_E h hco (by omega) (by omega)
  · exact symm_E h he (by omega) (by omega)

theorem symm_cov {v : Int} (hv : Hex.IsCell nx ny (v / 2)) (s : Int) :
    Hex.cov nx ny ((owned σ).v v) s = σ (Hex.cov nx ny v s) := by
  unfold Hex.cov
  rw [(owned_v_div v).1, (owned_v_div v).2, symm_inv hnx h hv, symm_inv hnx h hv,
    symm_inv hnx h hv]
  split_ifs <;> rfl

theorem symm_eov {v : Int} (hv : Hex.IsCell nx ny (v / 2)) (s : Int) :
    Hex.eov nx ny ((owned σ).v v) s = (owned σ).e (Hex.eov nx ny v s) := by
  have ow : ∀ c, (owned σ).e (3 * c) = 3 * σ c := fun c => by
    simpa using owned_e (σ := σ) c 0 (by omega) (by omega)
  unfold Hex.eov
  rw [(owned_v_div v).1, (owned_v_div v).2, symm_inv hnx h hv, symm_inv hnx h hv]
  split_ifs <;> first
    | rw [ow]
    | rw [owned_e _ _ (by omega) (by omega)]

end

variable {R : Type} [Scalar R]

theorem scRel_eq : ScRel (R := R) (R' := R) Eq (fun _ => True) where
  nz _ _ := trivial
  lit _ := rfl
  add := by rintro _ _ _ _ rfl rfl; rfl
  sub := by rintro _ _ _ _ rfl rfl; rfl
  mul := by rintro _ _ _ _ rfl rfl; rfl
  div := by rintro _ _ _ _ rfl rfl _; rfl

theorem owned_ok {p : MeshParams} {σ : Int → Int} (h : IsSymm p.nx p.ny σ) :
    (owned σ).OK p.dims := by
  refine ⟨fun i h0 h1 => h.cell ⟨h0, h1⟩, fun i h0 h1 => ?_⟩
  have := h.cell (Hex.isCell_edge h0 h1)
  unfold Hex.IsCell at this
  show 0 ≤ 3 * σ (i / 3) + i % 3 ∧ 3 * σ (i / 3) + i % 3 < 3 * (p.nx * p.ny)
  omega

theorem owned_v_ok {p : MeshParams} {σ : Int → Int} (h : IsSymm p.nx p.ny σ) {i : Int} (h0 : 0 ≤ i)
    (h1 : i < 2 * (p.nx * p.ny)) : 0 ≤ (owned σ).v i ∧ (owned σ).v i < 2 * (p.nx * p.ny) := by
  have := h.cell (Hex.isCell_vertex h0 h1)
  unfold Hex.IsCell at this
  show 0 ≤ 2 * σ (i / 2) + i % 2 ∧ 2 * σ (i / 2) + i % 2 < 2 * (p.nx * p.ny)
  omega

theorem owned_v_inj {p : MeshParams} {σ : Int → Int} (h : IsSymm p.nx p.ny σ) {i j : Int}
    (h0 : 0 ≤ i) (h1 : i < 2 * (p.nx * p.ny)) (g0 : 0 ≤ j) (g1 : j < 2 * (p.nx * p.ny))
    (e : (owned σ).v i = (owned σ).v j) : i = j := by
  have e : 2 * σ (i / 2) + i % 2 = 2 * σ (j / 2) + j % 2 := e
  have := h.inj (Hex.isCell_vertex h0 h1) (Hex.isCell_vertex g0 g1) (by omega)
  omega

theorem hexMesh_symm {p : MeshParams} (hv : MeshParams.Valid p) {dc : R} {m m' : Mem R}
    (hm : IsHexMesh p dc m) (hm' : IsHexMesh p dc m') {σ : Int → Int} (h : IsSymm p.nx p.ny σ) :
    MeshRel Eq (fun _ => True) (owned σ) p.dims m.mesh m'.mesh := by
  have hnx := hv.nx_pos
  have hc : ∀ {c}, 0 ≤ c → c < p.dims.ncells → Hex.IsCell p.nx p.ny (σ c) := fun h0 h1 =>
    h.cell ⟨h0, h1⟩
  have he := fun (e : Int) (h0 : 0 ≤ e) (h1 : e < p.dims.nedges) => (owned_ok h).e e h0 h1
  have hvv := fun (v : Int) (h0 : 0 ≤ v) (h1 : v < p.dims.nvertices) => owned_v_ok h h0 h1
  have ce := fun (e : Int) (h0 : 0 ≤ e) (h1 : e < p.dims.nedges) =>
    (Hex.isCell_edge h0 h1 : Hex.IsCell p.nx p.ny (e / 3))
  have cv := fun (v : Int) (h0 : 0 ≤ v) (h1 : v < p.dims.nvertices) =>
    (Hex.isCell_vertex h0 h1 : Hex.IsCell p.nx p.ny (v / 2))
  constructor
  · intro c h0 h1
    show m.int .nedges_on_cell (σ c) 0 = m'.int .nedges_on_cell c 0
    rw [hm.neoc _ (hc h0 h1), hm'.neoc c ⟨h0, h1⟩]
  · intro c h0 h1 j j0 j1
    have j1 : j < m'.int .nedges_on_cell c 0 := j1
    rw [hm'.neoc c ⟨h0, h1⟩] at j1
    show m.int .edges_on_cell (σ c) j = (owned σ).e (m'.int .edges_on_cell c j)
    rw [hm.eoc _ (hc h0 h1) j j0 j1, hm'.eoc c ⟨h0, h1⟩ j j0 j1]
    exact symm_E h ⟨h0, h1⟩ j0 j1
  · intro e h0 h1 j j0 j1
    show m.int .cells_on_edge _ j = (owned σ).c (m'.int .cells_on_edge e j)
    rw [hm.coe _ (he e h0 h1).1 (he e h0 h1).2 j j0 j1, hm'.coe e h0 h1 j j0 j1]
    exact symm_coe hnx h (ce e h0 h1) j
  · intro e h0 h1 j j0 j1
    show m.int .vertices_on_edge _ j = (owned σ).v (m'.int .vertices_on_edge e j)
    rw [hm.voe _ (he e h0 h1).1 (he e h0 h1).2 j j0 j1, hm'.voe e h0 h1 j j0 j1]
    exact symm_voe h (ce e h0 h1) j
  · intro v h0 h1 j j0 j1
    show m.int .edges_on_vertex _ j = (owned σ).e (m'.int .edges_on_vertex v j)
    rw [hm.eov _ (hvv v h0 h1).1 (hvv v h0 h1).2 j j0 j1, hm'.eov v h0 h1 j j0 j1]
    exact symm_eov hnx h (cv v h0 h1) j
  · intro v h0 h1 j j0 j1
    show m.int .cells_on_vertex _ j = (owned σ).c (m'.int .cells_on_vertex v j)
    rw [hm.cov _ (hvv v h0 h1).1 (hvv v h0 h1).2 j j0 j1, hm'.cov v h0 h1 j j0 j1]
    exact symm_cov hnx h (cv v h0 h1) j
  · intro e h0 h1
    show m.int .nedges_on_edge _ 0 = m'.int .nedges_on_edge e 0
    rw [hm.neoe _ (he e h0 h1).1 (he e h0 h1).2, hm'.neoe e h0 h1]
  · intro e h0 h1 j j0 j1
    have j1 : j < m'.int .nedges_on_edge e 0 := j1
    rw [hm'.neoe e h0 h1] at j1
    show m.int .edges_on_edge _ j = (owned σ).e (m'.int .edges_on_edge e j)
    rw [hm.eoe _ (he e h0 h1).1 (he e h0 h1).2 j j0 j1, hm'.eoe e h0 h1 j j0 j1]
    exact symm_eoe hnx h (ce e h0 h1) j0 j1 (Hex.coe_isCell hnx h0 h1)
  · intro c h0 h1
    show m.real .area_cell 0 (σ c) 0 = m'.real .area_cell 0 c 0
    rw [hm.area_cell _ (hc h0 h1), hm'.area_cell c ⟨h0, h1⟩]
  · intro v h0 h1
    show m.real .area_triangle 0 _ 0 = m'.real .area_triangle 0 v 0
    rw [hm.area_triangle _ (hvv v h0 h1).1 (hvv v h0 h1).2, hm'.area_triangle v h0 h1]
  · intro e h0 h1
    show m.real .dv_edge 0 _ 0 = m'.real .dv_edge 0 e 0
    rw [hm.dv_edge _ (he e h0 h1).1 (he e h0 h1).2, hm'.dv_edge e h0 h1]
  · intro e h0 h1
    show m.real .dc_edge 0 _ 0 = m'.real .dc_edge 0 e 0
    rw [hm.dc_edge _ (he e h0 h1).1 (he e h0 h1).2, hm'.dc_edge e h0 h1]
  · intro e h0 h1
    show maxS (m.real .dv_edge 0 _ 0) (quarter * m.real .dc_edge 0 _ 0) =
      maxS (m'.real .dv_edge 0 e 0) (quarter * m'.real .dc_edge 0 e 0)
    rw [hm.dc_edge _ (he e h0 h1).1 (he e h0 h1).2, hm'.dc_edge e h0 h1,
      hm.dv_edge _ (he e h0 h1).1 (he e h0 h1).2, hm'.dv_edge e h0 h1]
  · intro c h0 h1 j j0 j1
    have j1 : j < m'.int .nedges_on_cell c 0 := j1
    rw [hm'.neoc c ⟨h0, h1⟩] at j1
    show m.real .edge_sign_on_cell 0 (σ c) j = m'.real .edge_sign_on_cell 0 c j
    have hE := Hex.E_range hnx (c := c) ⟨h0, h1⟩ j j0 j1
    have hco : Hex.IsCell p.nx p.ny (Hex.coe p.nx p.ny (Hex.E p.nx p.ny c j) 0) :=
      Hex.coe_isCell hnx hE.1 hE.2
    rw [hm.sign_cell _ (hc h0 h1) j j0 j1, hm'.sign_cell c ⟨h0, h1⟩ j j0 j1,
      symm_E h ⟨h0, h1⟩ j0 j1, symm_coe hnx h (ce _ hE.1 hE.2)]
    refine if_congr ⟨fun e => h.inj hco ⟨h0, h1⟩ e, fun e => by rw [e]⟩ rfl rfl
  · intro v h0 h1 j j0 j1
    show m.real .edge_sign_on_vertex 0 _ j = m'.real .edge_sign_on_vertex 0 v j
    have hE := Hex.eov_isCell hnx h0 h1 (s := j)
    rw [hm.sign_vertex _ (hvv v h0 h1).1 (hvv v h0 h1).2 j j0 j1, hm'.sign_vertex v h0 h1 j j0 j1,
      symm_eov hnx h (cv v h0 h1), symm_voe h hE]
    have hw := Hex.voe_isVertex hnx hE (s := 0) (.inl rfl)
    refine if_congr ⟨fun e => owned_v_inj h hw.1 hw.2 h0 h1 e, fun e => by rw [e]⟩ rfl rfl
  · intro v h0 h1 j j0 j1
    show m.real .kiteareas_on_vertex 0 _ j = m'.real .kiteareas_on_vertex 0 v j
    rw [hm.kitearea _ (hvv v h0 h1).1 (hvv v h0 h1).2 j j0 j1, hm'.kitearea v h0 h1 j j0 j1]
  · intro e h0 h1 j j0 j1
    have j1 : j < m'.int .nedges_on_edge e 0 := j1
    rw [hm'.neoe e h0 h1] at j1
    show m.real .weights_on_edge 0 _ j = m'.real .weights_on_edge 0 e j
    rw [hm.woe _ (he e h0 h1).1 (he e h0 h1).2 j j0 j1, hm'.woe e h0 h1 j j0 j1, (owned_e_div e).2]
  · intro e h0 h1 k k0 k1
    show m.real .edge_mask 0 _ k = m'.real .edge_mask 0 e k
    rw [hm.mask _ (he e h0 h1).1 (he e h0 h1).2 k k0 k1, hm'.mask e h0 h1 k k0 k1]
  · intro e h0 h1
    show m.real .mesh_scaling_del2 0 _ 0 = m'.real .mesh_scaling_del2 0 e 0
    rw [hm.del2 _ (he e h0 h1).1 (he e h0 h1).2, hm'.del2 e h0 h1]
  · intro e h0 h1
    show m.real .mesh_scaling_del4 0 _ 0 = m'.real .mesh_scaling_del4 0 e 0
    rw [hm.del4 _ (he e h0 h1).1 (he e h0 h1).2, hm'.del4 e h0 h1]
  all_goals exact fun _ _ _ => trivial

/-! ### Equivariance -/

section

variable {p : MeshParams} {dc : R} {prm : Params R} {m m' m1 m1' : Mem R}

/-- The state in `m'` is the state in `m` moved by `σ`: the value at a cell is the one `m` has at its
image, edges going with the cell that owns them. -/
def Moved (d : Dims) (σ : Int → Int) (s : StateId) (m m' : Mem R) : Prop :=
  (∀ c k, 0 ≤ c → c < d.ncells → 0 ≤ k → k < d.nlayers →
    m'.real (.h_cell s) 0 c k = m.real (.h_cell s) 0 (σ c) k) ∧
  (∀ c j k, 0 ≤ c → c < d.ncells → 0 ≤ j → j < 3 → 0 ≤ k → k < d.nlayers →
    m'.real (.vn_edge s) 0 (3 * c + j) k = m.real (.vn_edge s) 0 (3 * σ c + j) k) ∧
  (∀ l c k, 0 ≤ l → l < d.ntracers → 0 ≤ c → c < d.ncells → 0 ≤ k → k < d.nlayers →
    m'.real (.tr_cell s) l c k = m.real (.tr_cell s) l (σ c) k)

theorem moved_iff {σ : Int → Int} {s : StateId} :
    Moved p.dims σ s m m' ↔ FldRel Eq (owned σ) p.dims (m.fld s) (m'.fld s) := by
  constructor
  · rintro ⟨a, b, c⟩
    refine ⟨fun i k h0 h1 h2 h3 => (a i k h0 h1 h2 h3).symm, fun e k h0 h1 h2 h3 => ?_,
      fun l i k l0 l1 h0 h1 h2 h3 => (c l i k l0 l1 h0 h1 h2 h3).symm⟩
    have he := Hex.isCell_edge (nx := p.nx) (ny := p.ny) h0 h1
    have := b (e / 3) (e % 3) k he.1 he.2 (by omega) (by omega) h2 h3
    rw [show 3 * (e / 3) + e % 3 = e by omega] at this
    exact this.symm
  · intro h
    refine ⟨fun i k h0 h1 h2 h3 => (h.h i k h0 h1 h2 h3).symm, fun c j k h0 h1 j0 j1 h2 h3 => ?_,
      fun l i k l0 l1 h0 h1 h2 h3 => (h.tr l i k l0 l1 h0 h1 h2 h3).symm⟩
    have h1 : c < p.nx * p.ny := h1
    have := h.vn (3 * c + j) k (by omega) (by show _ < 3 * (p.nx * p.ny); omega) h2 h3
    rw [owned_e c j j0 j1] at this
    exact this.symm

theorem sysRel_symm (hv : RunValid p) (hr : Ready p dc prm m) (hr' : Ready p dc prm m')
    (sw : SWModel R) {σ : Int → Int} (h : IsSymm p.nx p.ny σ) :
    SysRel Eq (fun _ => True) (owned σ) p.dims (genSys p.dims sw noHook m)
      (genSys p.dims sw noHook m') where
  sc := scRel_eq
  ren := owned_ok h
  F := .inl ⟨rfl, rfl⟩
  mesh := hexMesh_symm hv.toValid (hr.hex hv.toValid).1 (hr'.hex hv.toValid).1 h
  ok := (ready_ok hv hr').2.mesh
  f v h0 h1 := by
    have := owned_v_ok h h0 h1
    show m.real .f_vertex 0 _ 0 = m'.real .f_vertex 0 v 0
    rw [(hr.hex hv.toValid).2.1 _ this.1 this.2, (hr'.hex hv.toValid).2.1 v h0 h1]
  grav := rfl
  visc2 := rfl
  visc4 := rfl
  eddy2 := rfl
  eddy4 := rfl
  dis_h := rfl
  dis_vn := rfl
  en_hadv := rfl
  en_pv := rfl
  en_ke := rfl
  en_ssh := rfl
  en_vdiff := rfl
  en_vhyper := rfl
  en_thadv := rfl
  en_tdiff := rfl
  en_thyper := rfl
  hookH _ _ _ _ _ _ _ _ _ _ _ h := h
  hookV _ _ _ _ _ _ _ _ _ _ _ h := h

/-- Moving the state by a symmetry of the lattice and then running any stepper for any steps gives the
moved result, bit for bit in any arithmetic. -/
theorem C39_run_equivariant (hv : RunValid p) (hr : Ready p dc prm m) (hr' : Ready p dc prm m')
    {sw : SWModel R} (hn : sw.NoHook) {σ : Int → Int} (h : IsSymm p.nx p.ny σ) {stp : Stepper}
    {sched : List (R × R)} {split split' : Bool} (h0 : Moved p.dims σ .state m m')
    (he : Exec p.dims (stp.ctor p.dims ++ stp.run p.dims ⟨defaultKernels p.dims.vl, split⟩ sw sched)
      m m1)
    (he' : Exec p.dims (stp.ctor p.dims ++
      stp.run p.dims ⟨defaultKernels p.dims.vl, split'⟩ sw sched) m' m1') :
    Moved p.dims σ .state m1 m1' := by
  obtain ⟨hd, hc⟩ := ready_ok hv hr
  obtain ⟨-, hc'⟩ := ready_ok hv hr'
  refine moved_iff.2 (newRun_rel (sysRel_symm hv hr hr' sw h)
    (genSetup hd hc (hookOK_noHook hn p.dims m)) (genSetup hd hc' (hookOK_noHook hn p.dims m'))
    (moved_iff.1 h0) stp ?_ he he' fun _ _ _ => ⟨fun _ _ _ _ _ _ => trivial,
      fun _ _ _ _ _ _ _ => trivial⟩)
  exact List.forall₂_same.2 fun _ _ => ⟨rfl, rfl⟩

/-- The same for one call of `compute_tendency`. -/
theorem C39_tendency_equivariant (hv : RunValid p) (hr : Ready p dc prm m)
    (hr' : Ready p dc prm m') {sw : SWModel R} (hn : sw.NoHook) {σ : Int → Int}
    (h : IsSymm p.nx p.ny σ) {mode : AddMode} {tn st : StateId} (hne : st ≠ tn) {t : R}
    {split split' : Bool} (h0 : Moved p.dims σ st m m') (ht : Moved p.dims σ tn m m')
    (he : Exec p.dims (compute_tendency p.dims ⟨defaultKernels p.dims.vl, split⟩ sw mode tn st t)
      m m1)
    (he' : Exec p.dims (compute_tendency p.dims ⟨defaultKernels p.dims.vl, split'⟩ sw mode tn st t)
      m' m1') : Moved p.dims σ tn m1 m1' := by
  obtain ⟨hd, hc⟩ := ready_ok hv hr
  obtain ⟨-, hc'⟩ := ready_ok hv hr'
  exact moved_iff.2 (tendency_rel (sysRel_symm hv hr hr' sw h)
    (genSetup hd hc (hookOK_noHook hn p.dims m)) (genSetup hd hc' (hookOK_noHook hn p.dims m'))
    hne (moved_iff.1 h0) (moved_iff.1 ht) ⟨fun _ _ _ _ _ _ => trivial,
      fun _ _ _ _ _ _ _ => trivial⟩ mode rfl he he')

/-- Any number of columns, on any mesh; and any number of columns and rows (or pairs of rows in the
same column) when the number of rows is even, are symmetries. -/
theorem C39_shifts (hv : RunValid p) (a b : Nat) :
    IsSymm p.nx p.ny ((shiftCol p.nx)^[a]) ∧
    (p.ny % 2 = 0 → IsSymm p.nx p.ny (fun c => (shiftCol p.nx)^[a] ((shiftRow p.nx p.ny)^[b] c)) ∧
      IsSymm p.nx p.ny (fun c => (shiftCol p.nx)^[a] ((shiftTwoRows p.nx p.ny)^[b] c))) := by
  have hnx := hv.nx_pos
  exact ⟨(symm_col hnx).iterate a, fun hny =>
    ⟨((symm_col hnx).iterate a).comp ((symm_row hnx hny).iterate b),
     ((symm_col hnx).iterate a).comp ((symm_twoRows hnx hny).iterate b)⟩⟩

/-- On a mesh of four columns and six rows the state moved one row and one column meets the hypotheses,
the shift crosses both seams, and it is not the identity. -/
example (prm : Params R) (x : Fld R) (split : Bool) (t dt : R) :
    ∃ m m' m1 m1' : Mem R, Ready p46t (lit 1) prm m ∧ Ready p46t (lit 1) prm m' ∧
      m.fld .state = x ∧ p46t.ny % 2 = 0 ∧
      Moved p46t.dims (fun c => shiftCol p46t.nx (shiftRow p46t.nx p46t.ny c)) .state m m' ∧
      Exec p46t.dims (Stepper.rk4.ctor p46t.dims ++ Stepper.rk4.run p46t.dims
        ⟨defaultKernels p46t.dims.vl, split⟩ (SWModel.ofParams prm) [(t, dt)]) m m1 ∧
      Exec p46t.dims (Stepper.rk4.ctor p46t.dims ++ Stepper.rk4.run p46t.dims
        ⟨defaultKernels p46t.dims.vl, split⟩ (SWModel.ofParams prm) [(t, dt)]) m' m1' ∧
      shiftCol p46t.nx (shiftRow p46t.nx p46t.ny 23) = 1 := by
  let y : Fld R := ⟨fun c k => x.h (shiftCol p46t.nx (shiftRow p46t.nx p46t.ny c)) k,
    fun e k => x.vn (3 * shiftCol p46t.nx (shiftRow p46t.nx p46t.ny (e / 3)) + e % 3) k,
    fun l c k => x.tr l (shiftCol p46t.nx (shiftRow p46t.nx p46t.ny c)) k⟩
  obtain ⟨m, hr, hx, -⟩ := exists_ready p46t_run.toValid (lit 1 : R) prm x zeroFld
  obtain ⟨m', hr', hy, -⟩ := exists_ready p46t_run.toValid (lit 1 : R) prm y zeroFld
  have go : ∀ m : Mem R, Ready p46t (lit 1) prm m → ∃ m1,
      Exec p46t.dims (Stepper.rk4.ctor p46t.dims ++ Stepper.rk4.run p46t.dims
        ⟨defaultKernels p46t.dims.vl, split⟩ (SWModel.ofParams prm) [(t, dt)]) m m1 := by
    intro m hr
    obtain ⟨hd, hc⟩ := ready_ok p46t_run hr
    obtain ⟨m0, r0, a0, -⟩ := ctor_runs p46t.dims .rk4 m
    obtain ⟨m1, r1, -⟩ := run_runs ((genSetup hd hc (hookOK_noHook (noHook_ofParams prm)
      p46t.dims m)).static a0) .rk4 [(t, dt)]
    exact ⟨m1, (Runs.append r0 (r1 split)).exec⟩
  obtain ⟨m1, he⟩ := go m hr
  obtain ⟨m1', he'⟩ := go m' hr'
  refine ⟨m, m', m1, m1', hr, hr', hx, by decide, ⟨fun c k _ _ _ _ => ?_, fun c j k _ _ j0 j1 _ _ => ?_,
    fun l c k _ _ _ _ _ _ => ?_⟩, he, he', by decide⟩
  · exact (congrFun (congrFun (congrArg Fld.h hy) c) k).trans
      (congrFun (congrFun (congrArg Fld.h hx) _) k).symm
  · refine (congrFun (congrFun (congrArg Fld.vn hy) (3 * c + j)) k).trans ?_
    refine Eq.trans ?_ (congrFun (congrFun (congrArg Fld.vn hx) _) k).symm
    show x.vn (3 * shiftCol _ (shiftRow _ _ ((3 * c + j) / 3)) + (3 * c + j) % 3) k = _
    rw [show (3 * c + j) / 3 = c by omega, show (3 * c + j) % 3 = j by omega]
  · exact (congrFun (congrFun (congrFun (congrArg Fld.tr hy) l) c) k).trans
      (congrFun (congrFun (congrFun (congrArg Fld.tr hx) l) _) k).symm

end

end Props
end Omega
