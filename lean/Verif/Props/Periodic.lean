import Verif.Props.Simd
import Verif.Props.Translation

/-!
# C108: a periodic state runs on a larger domain as copies of the run on one period

A map of the cells of a mesh onto those of a smaller one that takes neighbour `j` to neighbour `j` relates
the functions of the kernels on the two meshes row by row.
-/

set_option linter.unusedVariables false
set_option linter.unusedSectionVars false

namespace Omega

/-! ### Related systems on meshes of different size -/

namespace Refine

open Model

variable {R : Type} [Scalar R]

section

variable {R' : Type} [Scalar R'] {ρ : R → R' → Prop} {NZ : R' → Prop} {σ : Ren} {d d₁ : Dims} {S : Sys R} {S' : Sys R'}

/-- Executions of related configurations on meshes of different size from related states end in related states. -/
theorem newRun_rel₂ (hS : SysRel ρ NZ σ d S S') (hc : ∀ i, 0 ≤ i → i < d.ncells → 0 ≤ σ.c i ∧ σ.c i < d₁.ncells)
    (hE : ∀ i, 0 ≤ i → i < d.nedges → 0 ≤ σ.e i ∧ σ.e i < d₁.nedges) (hl : d₁.nlayers = d.nlayers)
    (ht : d₁.ntracers = d.ntracers) {K : Kernels R} {K' : Kernels R'} {m m1 : Mem R} {m' m1' : Mem R'}
    (hm : Setup d₁ K S m) (hm' : Setup d K' S' m') (hst : FldRel ρ σ d (m.fld .state) (m'.fld .state))
    (stp : Stepper) {sched : List (R × R)} {sched' : List (R' × R')}
    (hs : List.Forall₂ (fun x y => ρ x.1 y.1 ∧ ρ x.2 y.2) sched sched') {split split' : Bool}
    (he : Exec d₁ (stp.ctor d₁ ++ stp.run d₁ ⟨K, split⟩ S.sw sched) m m1)
    (he' : Exec d (stp.ctor d ++ stp.run d ⟨K', split'⟩ S'.sw sched') m' m1')
    (hw : ∀ st m2, CallsAt d ⟨K', split'⟩ S'.sw stp sched' m' st m2 → Wet NZ d S'.M (m2.fld st)) :
    FldRel ρ σ d (m1.fld .state) (m1'.fld .state) := by
  obtain ⟨-, -, v⟩ := hm.newRun he
  obtain ⟨-, -, v'⟩ := hm'.newRun he'
  have key := (run_rel hS stp hs (p := (zeroFld, m.fld .state)) (q := (zeroFld, m'.fld .state))
    ⟨zeroFld_rel hS, hst⟩ fun x hx => by
      obtain ⟨⟨pre, st⟩, hq, m2, hx', e⟩ := newRun_called hm' split' stp sched' x hx
      exact Wet.local hS.ok e (hw st m2 ⟨pre, hq, hx'⟩)).2
  constructor
  · intro c k c0 c1 k0 k1
    rw [v.h _ k (hc c c0 c1).1 (hc c c0 c1).2 k0 (by rw [hl]; exact k1), v'.h c k c0 c1 k0 k1]
    exact key.h c k c0 c1 k0 k1
  · intro c k c0 c1 k0 k1
    rw [v.vn _ k (hE c c0 c1).1 (hE c c0 c1).2 k0 (by rw [hl]; exact k1), v'.vn c k c0 c1 k0 k1]
    exact key.vn c k c0 c1 k0 k1
  · intro l c k l0 l1 c0 c1 k0 k1
    rw [v.tr l _ k l0 (by rw [ht]; exact l1) (hc c c0 c1).1 (hc c c0 c1).2 k0 (by rw [hl]; exact k1),
      v'.tr l c k l0 l1 c0 c1 k0 k1]
    exact key.tr l c k l0 l1 c0 c1 k0 k1

end

end Refine

namespace Props

open Prog Model Refine Hex

/-! ### Coverings -/

/-- The cells of a mesh of `nx'` by `ny'` are taken to those of a mesh of `nx` by `ny`, neighbour `j` to neighbour
`j`. -/
structure IsCover (nx ny nx' ny' : Int) (σ : Int → Int) : Prop where
  cell : ∀ {a}, Hex.IsCell nx' ny' a → Hex.IsCell nx ny (σ a)
  nb : ∀ {a}, Hex.IsCell nx' ny' a → ∀ j, Hex.nb nx ny j (σ a) = σ (Hex.nb nx' ny' j a)

/-- column and row modulo the period -/
def wrap (nx ny nx' a : Int) : Int := Hex.cid nx (Hex.col nx' a % nx) (Hex.row nx' a % ny)

theorem px_wrap {n n' i : Int} (hn : 1 ≤ n) (hd : n ∣ n') (h0 : 0 ≤ i) (h1 : i < n') :
    Hex.px n (i % n) = Hex.px n' i % n := by
  obtain ⟨q, rfl⟩ := hd
  have a := Int.emod_nonneg i (by omega : n ≠ 0)
  have b := Int.emod_lt_of_pos i (by omega : 0 < n)
  have e : (i + 1) % n = (i % n + 1) % n := by rw [Int.emod_add_emod]
  unfold Hex.px
  by_cases g : i % n = n - 1
  · have z : (i + 1) % n = 0 := by rw [e, g]; simp
    rw [if_pos g]
    split_ifs
    · simp
    · exact z.symm
  · have z : (i + 1) % n = i % n + 1 := by rw [e]; exact Int.emod_eq_of_lt (by omega) (by omega)
    rw [if_neg g, if_neg, z]
    intro c
    have t : (i + 1) % n = 0 := by rw [c]; simp
    omega

theorem mx_wrap {n n' i : Int} (hn : 1 ≤ n) (hd : n ∣ n') (h0 : 0 ≤ i) (h1 : i < n') :
    Hex.mx n (i % n) = Hex.mx n' i % n := by
  have r := Hex.mx_range h0 h1
  have a := Int.emod_nonneg (Hex.mx n' i) (by omega : n ≠ 0)
  have b := Int.emod_lt_of_pos (Hex.mx n' i) (by omega : 0 < n)
  have := px_wrap hn hd r.1 r.2
  rw [Hex.px_mx h0 h1] at this
  rw [← this, Hex.mx_px a b]

/-- C108, the maps. Taking column and row modulo the period is a covering, the numbers of columns and rows being
multiples of the period, and the period an even number of rows (or all of them). -/
theorem C108_wrap {nx ny nx' ny' : Int} (hnx : 1 ≤ nx) (hny : 1 ≤ ny) (hx' : 1 ≤ nx') (hx : nx ∣ nx') (hy : ny ∣ ny')
    (hpar : ny % 2 = 0 ∨ ny' = ny) : IsCover nx ny nx' ny' (wrap nx ny nx') := by
  refine ⟨fun {a} ha => ?_, fun {a} ha j => ?_⟩
  · exact Hex.cid_range (Int.emod_nonneg _ (by omega)) (Int.emod_lt_of_pos _ (by omega))
      (Int.emod_nonneg _ (by omega)) (Int.emod_lt_of_pos _ (by omega))
  · obtain ⟨i, r, i0, i1, r0, r1, rfl⟩ := Hex.exists_coords hx' ha
    obtain ⟨n0, n1⟩ := Hex.nbI_range (j := j) (r := r) i0 i1
    have a := Int.emod_nonneg i (by omega : nx ≠ 0)
    have b := Int.emod_lt_of_pos i (by omega : 0 < nx)
    unfold wrap
    rw [Hex.col_cid i0 i1, Hex.row_cid i0 i1, Hex.nb_cid a b, Hex.nb_cid i0 i1, Hex.col_cid n0 n1, Hex.row_cid n0 n1]
    have par : r % ny % 2 = r % 2 := by
      rcases hpar with h | rfl
      · exact Int.emod_emod_of_dvd r (Int.dvd_of_emod_eq_zero h)
      · rw [Int.emod_eq_of_lt r0 r1]
    have p1 := px_wrap hnx hx i0 i1
    have p2 := mx_wrap hnx hx i0 i1
    have p3 := px_wrap hny hy r0 r1
    have p4 := mx_wrap hny hy r0 r1
    congr 1
    · unfold Hex.nbI
      rw [par]
      split_ifs <;> first | exact p1 | exact p2 | rfl
    · unfold Hex.nbR
      split_ifs <;> first | exact p3 | exact p4 | rfl

section

variable {nx ny nx' ny' : Int} {σ : Int → Int} (hnx : 1 ≤ nx) (hnx' : 1 ≤ nx') (h : IsCover nx ny nx' ny' σ)
include hnx hnx' h

theorem cover_inv {a : Int} (ha : Hex.IsCell nx' ny' a) (j : Int) :
    Hex.inv nx ny j (σ a) = σ (Hex.inv nx' ny' j a) := by
  have hi := Hex.inv_isCell hnx' (j := j) ha
  refine Hex.nb_inj hnx (j := j) (Hex.inv_isCell hnx (h.cell ha)) (h.cell hi) ?_
  rw [Hex.nb_inv hnx (h.cell ha), h.nb hi, Hex.nb_inv hnx' ha]

omit hnx hnx' in
theorem cover_E {c : Int} (hc : Hex.IsCell nx' ny' c) {j : Int} (h0 : 0 ≤ j) (h6 : j < 6) :
    Hex.E nx ny (σ c) j = (owned σ).e (Hex.E nx' ny' c j) := by
  unfold Hex.E
  split_ifs
  · rw [owned_e _ _ h0 (by omega)]
  · rw [owned_e _ _ (by omega) (by omega), h.nb hc]

theorem cover_coe {e : Int} (he : Hex.IsCell nx' ny' (e / 3)) (s : Int) :
    Hex.coe nx ny ((owned σ).e e) s = σ (Hex.coe nx' ny' e s) := by
  unfold Hex.coe
  rw [(owned_e_div e).1, (owned_e_div e).2]
  split_ifs
  · rfl
  · exact cover_inv hnx hnx' h he _

omit hnx hnx' in
theorem cover_voe {e : Int} (he : Hex.IsCell nx' ny' (e / 3)) (s : Int) :
    Hex.voe nx ny ((owned σ).e e) s = (owned σ).v (Hex.voe nx' ny' e s) := by
  have ow : ∀ c, (owned σ).v (2 * c) = 2 * σ c := fun c => by
    simpa using owned_v (σ := σ) c 0 (by omega) (by omega)
  unfold Hex.voe
  rw [(owned_e_div e).1, (owned_e_div e).2, h.nb he, h.nb he]
  split_ifs <;> first
    | rw [ow]
    | rw [owned_v _ _ (by omega) (by omega)]

theorem cover_eoe {e : Int} (he : Hex.IsCell nx' ny' (e / 3)) {s : Int} (h0 : 0 ≤ s) (h1 : s < 10)
    (hco : Hex.IsCell nx' ny' (Hex.coe nx' ny' e 0)) :
    Hex.eoe nx ny ((owned σ).e e) s = (owned σ).e (Hex.eoe nx' ny' e s) := by
  unfold Hex.eoe
  rw [(owned_e_div e).1, (owned_e_div e).2, cover_coe hnx hnx' h he]
  split_ifs
  · exact cover_E h hco (by omega) (by omega)
  · exact cover_E h he (by omega) (by omega)

theorem cover_cov {v : Int} (hv : Hex.IsCell nx' ny' (v / 2)) (s : Int) :
    Hex.cov nx ny ((owned σ).v v) s = σ (Hex.cov nx' ny' v s) := by
  unfold Hex.cov
  rw [(owned_v_div v).1, (owned_v_div v).2, cover_inv hnx hnx' h hv, cover_inv hnx hnx' h hv,
    cover_inv hnx hnx' h hv]
  split_ifs <;> rfl

theorem cover_eov {v : Int} (hv : Hex.IsCell nx' ny' (v / 2)) (s : Int) :
    Hex.eov nx ny ((owned σ).v v) s = (owned σ).e (Hex.eov nx' ny' v s) := by
  have ow : ∀ c, (owned σ).e (3 * c) = 3 * σ c := fun c => by
    simpa using owned_e (σ := σ) c 0 (by omega) (by omega)
  unfold Hex.eov
  rw [(owned_v_div v).1, (owned_v_div v).2, cover_inv hnx hnx' h hv, cover_inv hnx hnx' h hv]
  split_ifs <;> first
    | rw [ow]
    | rw [owned_e _ _ (by omega) (by omega)]

omit hnx hnx' in
theorem cover_e_range {e : Int} (h0 : 0 ≤ e) (h1 : e < 3 * (nx' * ny')) :
    0 ≤ (owned σ).e e ∧ (owned σ).e e < 3 * (nx * ny) := by
  have := h.cell (Hex.isCell_edge h0 h1)
  unfold Hex.IsCell at this
  show 0 ≤ 3 * σ (e / 3) + e % 3 ∧ 3 * σ (e / 3) + e % 3 < 3 * (nx * ny)
  omega

omit hnx hnx' in
theorem cover_v_range {v : Int} (h0 : 0 ≤ v) (h1 : v < 2 * (nx' * ny')) :
    0 ≤ (owned σ).v v ∧ (owned σ).v v < 2 * (nx * ny) := by
  have := h.cell (Hex.isCell_vertex h0 h1)
  unfold Hex.IsCell at this
  show 0 ≤ 2 * σ (v / 2) + v % 2 ∧ 2 * σ (v / 2) + v % 2 < 2 * (nx * ny)
  omega

end

theorem eovEnd_owned {σ : Int → Int} (v s : Int) : eovEnd ((owned σ).v v) s = eovEnd v s := by
  unfold eovEnd
  rw [(owned_v_div v).2]

theorem sign_iff {nx ny : Int} (hnx : 2 ≤ nx) (hny : 2 ≤ ny) {c : Int} (hc : Hex.IsCell nx ny c) {j : Int} (h0 : 0 ≤ j)
    (h6 : j < 6) : Hex.coe nx ny (Hex.E nx ny c j) 0 = c ↔ 3 ≤ j := by
  constructor
  · intro e
    by_contra h
    rw [Hex.coe_zero, E_div_lo h0 (by omega), E_mod h0 h6] at e
    exact Hex.inv_ne hnx hny hc _ e
  · exact fun h => coe_E_hi (by omega) hc h h6

variable {R : Type} [Scalar R]

theorem hexMesh_cover {p p' : MeshParams} (hv : MeshParams.Valid p) (hv' : MeshParams.Valid p') (h2x : 2 ≤ p.nx)
    (h2y : 2 ≤ p.ny) (h2x' : 2 ≤ p'.nx) (h2y' : 2 ≤ p'.ny) (hl : p.dims.nlayers = p'.dims.nlayers) {dc : R}
    {m m' : Mem R} (hm : IsHexMesh p dc m) (hm' : IsHexMesh p' dc m') {σ : Int → Int}
    (h : IsCover p.nx p.ny p'.nx p'.ny σ) :
    MeshRel Eq (fun _ => True) (owned σ) p'.dims m.mesh m'.mesh := by
  have hnx := hv.nx_pos
  have hc : ∀ {c}, 0 ≤ c → c < p'.dims.ncells → Hex.IsCell p.nx p.ny (σ c) := fun h0 h1 =>
    h.cell ⟨h0, h1⟩
  have he := fun (e : Int) (h0 : 0 ≤ e) (h1 : e < p'.dims.nedges) => cover_e_range h h0 h1
  have hvv := fun (v : Int) (h0 : 0 ≤ v) (h1 : v < p'.dims.nvertices) => cover_v_range h h0 h1
  have ce := fun (e : Int) (h0 : 0 ≤ e) (h1 : e < p'.dims.nedges) =>
    (Hex.isCell_edge h0 h1 : Hex.IsCell p'.nx p'.ny (e / 3))
  have cv := fun (v : Int) (h0 : 0 ≤ v) (h1 : v < p'.dims.nvertices) =>
    (Hex.isCell_vertex h0 h1 : Hex.IsCell p'.nx p'.ny (v / 2))
  constructor
  · intro c h0 h1
    show m.int .nedges_on_cell (σ c) 0 = m'.int .nedges_on_cell c 0
    rw [hm.neoc _ (hc h0 h1), hm'.neoc c ⟨h0, h1⟩]
  · intro c h0 h1 j j0 j1
    have j1 : j < m'.int .nedges_on_cell c 0 := j1
    rw [hm'.neoc c ⟨h0, h1⟩] at j1
    show m.int .edges_on_cell (σ c) j = (owned σ).e (m'.int .edges_on_cell c j)
    rw [hm.eoc _ (hc h0 h1) j j0 j1, hm'.eoc c ⟨h0, h1⟩ j j0 j1]
    exact cover_E h ⟨h0, h1⟩ j0 j1
  · intro e h0 h1 j j0 j1
    show m.int .cells_on_edge _ j = (owned σ).c (m'.int .cells_on_edge e j)
    rw [hm.coe _ (he e h0 h1).1 (he e h0 h1).2 j j0 j1, hm'.coe e h0 h1 j j0 j1]
    exact cover_coe hnx hv'.nx_pos h (ce e h0 h1) j
  · intro e h0 h1 j j0 j1
    show m.int .vertices_on_edge _ j = (owned σ).v (m'.int .vertices_on_edge e j)
    rw [hm.voe _ (he e h0 h1).1 (he e h0 h1).2 j j0 j1, hm'.voe e h0 h1 j j0 j1]
    exact cover_voe h (ce e h0 h1) j
  · intro v h0 h1 j j0 j1
    show m.int .edges_on_vertex _ j = (owned σ).e (m'.int .edges_on_vertex v j)
    rw [hm.eov _ (hvv v h0 h1).1 (hvv v h0 h1).2 j j0 j1, hm'.eov v h0 h1 j j0 j1]
    exact cover_eov hnx hv'.nx_pos h (cv v h0 h1) j
  · intro v h0 h1 j j0 j1
    show m.int .cells_on_vertex _ j = (owned σ).c (m'.int .cells_on_vertex v j)
    rw [hm.cov _ (hvv v h0 h1).1 (hvv v h0 h1).2 j j0 j1, hm'.cov v h0 h1 j j0 j1]
    exact cover_cov hnx hv'.nx_pos h (cv v h0 h1) j
  · intro e h0 h1
    show m.int .nedges_on_edge _ 0 = m'.int .nedges_on_edge e 0
    rw [hm.neoe _ (he e h0 h1).1 (he e h0 h1).2, hm'.neoe e h0 h1]
  · intro e h0 h1 j j0 j1
    have j1 : j < m'.int .nedges_on_edge e 0 := j1
    rw [hm'.neoe e h0 h1] at j1
    show m.int .edges_on_edge _ j = (owned σ).e (m'.int .edges_on_edge e j)
    rw [hm.eoe _ (he e h0 h1).1 (he e h0 h1).2 j j0 j1, hm'.eoe e h0 h1 j j0 j1]
    exact cover_eoe hnx hv'.nx_pos h (ce e h0 h1) j0 j1 (Hex.coe_isCell hv'.nx_pos h0 h1)
  · intro c h0 h1
    show m.real .area_cell 0 (σ c) 0 = m'.real .area_cell 0 c 0
    rw [hm.area_cell _ (hc h0 h1), hm'.area_cell c ⟨h0, h1⟩]
  · intro v h0 h1
    show m.real .area_triangle 0 _ 0 = m'.real .area_triangle 0 v 0
    rw [hm.area_triangle _ (hvv v h0 h1).1 (hvv v h0 h1).2, hm'.area_triangle v h0 h1]
  · intro e h0 h1
    show m.real .dv_edge 0 _ 0 = m'.real .dv_edge 0 e 0
    rw [hm.dv_edge _ (he e h0 h1).1 (he e h0 h1).2, hm'.dv_edge e h0 h1]
  · intro e h0 h1
    show m.real .dc_edge 0 _ 0 = m'.real .dc_edge 0 e 0
    rw [hm.dc_edge _ (he e h0 h1).1 (he e h0 h1).2, hm'.dc_edge e h0 h1]
  · intro e h0 h1
    show maxS (m.real .dv_edge 0 _ 0) (quarter * m.real .dc_edge 0 _ 0) =
      maxS (m'.real .dv_edge 0 e 0) (quarter * m'.real .dc_edge 0 e 0)
    rw [hm.dc_edge _ (he e h0 h1).1 (he e h0 h1).2, hm'.dc_edge e h0 h1,
      hm.dv_edge _ (he e h0 h1).1 (he e h0 h1).2, hm'.dv_edge e h0 h1]
  · intro c h0 h1 j j0 j1
    have j1 : j < m'.int .nedges_on_cell c 0 := j1
    rw [hm'.neoc c ⟨h0, h1⟩] at j1
    show m.real .edge_sign_on_cell 0 (σ c) j = m'.real .edge_sign_on_cell 0 c j
    rw [hm.sign_cell _ (hc h0 h1) j j0 j1, hm'.sign_cell c ⟨h0, h1⟩ j j0 j1]
    exact if_congr ((sign_iff h2x h2y (hc h0 h1) j0 j1).trans (sign_iff h2x' h2y' ⟨h0, h1⟩ j0 j1).symm) rfl rfl
  · intro v h0 h1 j j0 j1
    show m.real .edge_sign_on_vertex 0 _ j = m'.real .edge_sign_on_vertex 0 v j
    rw [hm.sign_vertex _ (hvv v h0 h1).1 (hvv v h0 h1).2 j j0 j1, hm'.sign_vertex v h0 h1 j j0 j1]
    refine if_congr ?_ rfl rfl
    rw [voe_eov_zero hnx (isCell_vertex (hvv v h0 h1).1 (hvv v h0 h1).2) j0 j1,
      voe_eov_zero hv'.nx_pos (cv v h0 h1) j0 j1, eovEnd_owned]
  · intro v h0 h1 j j0 j1
    show m.real .kiteareas_on_vertex 0 _ j = m'.real .kiteareas_on_vertex 0 v j
    rw [hm.kitearea _ (hvv v h0 h1).1 (hvv v h0 h1).2 j j0 j1, hm'.kitearea v h0 h1 j j0 j1]
  · intro e h0 h1 j j0 j1
    have j1 : j < m'.int .nedges_on_edge e 0 := j1
    rw [hm'.neoe e h0 h1] at j1
    show m.real .weights_on_edge 0 _ j = m'.real .weights_on_edge 0 e j
    rw [hm.woe _ (he e h0 h1).1 (he e h0 h1).2 j j0 j1, hm'.woe e h0 h1 j j0 j1, (owned_e_div e).2]
  · intro e h0 h1 k k0 k1
    show m.real .edge_mask 0 _ k = m'.real .edge_mask 0 e k
    rw [hm.mask _ (he e h0 h1).1 (he e h0 h1).2 k k0 (by rw [hl]; exact k1), hm'.mask e h0 h1 k k0 k1]
  · intro e h0 h1
    show m.real .mesh_scaling_del2 0 _ 0 = m'.real .mesh_scaling_del2 0 e 0
    rw [hm.del2 _ (he e h0 h1).1 (he e h0 h1).2, hm'.del2 e h0 h1]
  · intro e h0 h1
    show m.real .mesh_scaling_del4 0 _ 0 = m'.real .mesh_scaling_del4 0 e 0
    rw [hm.del4 _ (he e h0 h1).1 (he e h0 h1).2, hm'.del4 e h0 h1]
  all_goals exact fun _ _ _ => trivial


/-! ### Runs -/

section

variable {p p' : MeshParams} {dc : R} {prm : Params R} {m m' m1 m1' : Mem R}

/-- The state `s` of `m'`, on the mesh `p'`, is that of `m` continued periodically: the value in column `i` and row `r`
is the one `m`, on the mesh `p`, has in column `i` modulo `p.nx` and row `r` modulo `p.ny`.  Edges go with the cell that
owns them. -/
def Repeats (p p' : MeshParams) (s : StateId) (m m' : Mem R) : Prop :=
  (∀ i r k, 0 ≤ i → i < p'.nx → 0 ≤ r → r < p'.ny → 0 ≤ k → k < p'.dims.nlayers →
    m'.real (.h_cell s) 0 (r * p'.nx + i) k = m.real (.h_cell s) 0 (r % p.ny * p.nx + i % p.nx) k) ∧
  (∀ i r j k, 0 ≤ i → i < p'.nx → 0 ≤ r → r < p'.ny → 0 ≤ j → j < 3 → 0 ≤ k → k < p'.dims.nlayers →
    m'.real (.vn_edge s) 0 (3 * (r * p'.nx + i) + j) k =
      m.real (.vn_edge s) 0 (3 * (r % p.ny * p.nx + i % p.nx) + j) k) ∧
  (∀ l i r k, 0 ≤ l → l < p'.ntracers → 0 ≤ i → i < p'.nx → 0 ≤ r → r < p'.ny → 0 ≤ k → k < p'.dims.nlayers →
    m'.real (.tr_cell s) l (r * p'.nx + i) k = m.real (.tr_cell s) l (r % p.ny * p.nx + i % p.nx) k)

theorem wrap_cid {nx ny nx' i r : Int} (h0 : 0 ≤ i) (h1 : i < nx') :
    wrap nx ny nx' (r * nx' + i) = r % ny * nx + i % nx := by
  show Hex.cid nx (Hex.col nx' (Hex.cid nx' i r) % nx) (Hex.row nx' (Hex.cid nx' i r) % ny) = _
  rw [Hex.col_cid h0 h1, Hex.row_cid h0 h1]
  rfl

theorem repeats_iff (hx' : 1 ≤ p'.nx) {s : StateId} :
    Repeats p p' s m m' ↔ FldRel Eq (owned (wrap p.nx p.ny p'.nx)) p'.dims (m.fld s) (m'.fld s) := by
  constructor
  · rintro ⟨a, b, c⟩
    refine ⟨fun x k h0 h1 h2 h3 => ?_, fun e k h0 h1 h2 h3 => ?_, fun l x k l0 l1 h0 h1 h2 h3 => ?_⟩
    · obtain ⟨i, r, i0, i1, r0, r1, rfl⟩ := Hex.exists_coords hx' (⟨h0, h1⟩ : Hex.IsCell p'.nx p'.ny x)
      have := a i r k i0 i1 r0 r1 h2 h3
      rw [← wrap_cid i0 i1] at this
      exact this.symm
    · obtain ⟨i, r, i0, i1, r0, r1, hx⟩ := Hex.exists_coords hx' (Hex.isCell_edge (nx := p'.nx) (ny := p'.ny) h0 h1)
      have := b i r (e % 3) k i0 i1 r0 r1 (by omega) (by omega) h2 h3
      rw [← wrap_cid i0 i1] at this
      have hx : e / 3 = r * p'.nx + i := hx
      rw [← hx, show 3 * (e / 3) + e % 3 = e by omega] at this
      exact this.symm
    · obtain ⟨i, r, i0, i1, r0, r1, rfl⟩ := Hex.exists_coords hx' (⟨h0, h1⟩ : Hex.IsCell p'.nx p'.ny x)
      have := c l i r k l0 l1 i0 i1 r0 r1 h2 h3
      rw [← wrap_cid i0 i1] at this
      exact this.symm
  · intro h
    refine ⟨fun i r k i0 i1 r0 r1 k0 k1 => ?_, fun i r j k i0 i1 r0 r1 j0 j1 k0 k1 => ?_,
      fun l i r k l0 l1 i0 i1 r0 r1 k0 k1 => ?_⟩
    · have c := Hex.cid_range i0 i1 r0 r1
      have := h.h _ k c.1 c.2 k0 k1
      rw [← wrap_cid i0 i1]
      exact this.symm
    · have c := Hex.cid_range i0 i1 r0 r1
      have := h.vn (3 * Hex.cid p'.nx i r + j) k (by omega) (by show _ < 3 * (p'.nx * p'.ny); omega) k0 k1
      rw [owned_e _ j j0 j1] at this
      rw [← wrap_cid i0 i1]
      exact this.symm
    · have c := Hex.cid_range i0 i1 r0 r1
      have := h.tr l _ k l0 l1 c.1 c.2 k0 k1
      rw [← wrap_cid i0 i1]
      exact this.symm

theorem sysRel_cover (hv : RunValid p) (hv' : RunValid p') (h2x : 2 ≤ p.nx) (h2y : 2 ≤ p.ny) (hle : p.nx * p.ny ≤ p'.nx * p'.ny)
    (h2x' : 2 ≤ p'.nx) (h2y' : 2 ≤ p'.ny) (hl : p.dims.nlayers = p'.dims.nlayers) (hr : Ready p dc prm m)
    (hr' : Ready p' dc prm m') (sw : SWModel R) (simd : Bool) (hvl : p.vl = p'.vl) {σ : Int → Int} (h : IsCover p.nx p.ny p'.nx p'.ny σ) :
    SysRel Eq (fun _ => True) (owned σ) p'.dims (buildSys simd p.dims sw noHook m)
      (buildSys simd p'.dims sw noHook m') := by
  have ren : (owned σ).OK p'.dims := by
    refine ⟨fun i h0 h1 => ?_, fun i h0 h1 => ?_⟩
    · have := h.cell ⟨h0, h1⟩
      exact ⟨this.1, this.2.trans_le hle⟩
    · have := cover_e_range h h0 h1
      refine ⟨this.1, this.2.trans_le ?_⟩
      show 3 * (p.nx * p.ny) ≤ 3 * (p'.nx * p'.ny)
      omega
  have mesh := hexMesh_cover hv.toValid hv'.toValid h2x h2y h2x' h2y' hl (hr.hex hv.toValid).1 (hr'.hex hv'.toValid).1 h
  have f : FRel Eq (owned σ).v p'.dims.nvertices (fun v => m.real .f_vertex 0 v 0) (fun v => m'.real .f_vertex 0 v 0) := by
    intro v h0 h1
    have := cover_v_range h h0 h1
    beta_reduce
    rw [(hr.hex hv.toValid).2.1 _ this.1 this.2, (hr'.hex hv'.toValid).2.1 v h0 h1]
  cases simd with
  | false =>
    exact ⟨scRel_eq, ren, .inl ⟨rfl, rfl⟩, mesh, (ready_ok hv' hr').2.mesh, f, rfl, rfl, rfl, rfl, rfl, rfl, rfl, rfl, rfl,
      rfl, rfl, rfl, rfl, rfl, rfl, rfl, fun _ _ _ _ _ _ _ _ _ _ _ h => h, fun _ _ _ _ _ _ _ _ _ _ _ h => h⟩
  | true =>
    refine ⟨scRel_eq, ren, .inr ⟨rfl, rfl, ?_, (ready_ok hv hr).1.vl_pos⟩, mesh, (ready_ok hv' hr').2.mesh, f, rfl, rfl, rfl,
      rfl, rfl, rfl, rfl, rfl, rfl, rfl, rfl, rfl, rfl, rfl, rfl, rfl, fun _ _ _ _ _ _ _ _ _ _ _ h => h,
      fun _ _ _ _ _ _ _ _ _ _ _ h => h⟩
    show p'.dims.vl = p.dims.vl
    show p'.vl = p.vl
    exact hvl.symm

/-- A periodic state runs on a larger domain as copies of the run on one period.  On a mesh of several periods, the
period having at least two columns and two rows and an even number of rows (or all of the rows), any stepper gives after
any steps from a periodic state the result on the mesh of one period, repeated: bit for bit in any arithmetic, in the
default and in the explicit-SIMD build. -/
theorem C108_periodic_run (hv : RunValid p) (hv' : RunValid p') (h2x : 2 ≤ p.nx) (h2y : 2 ≤ p.ny) (hx : p.nx ∣ p'.nx)
    (hy : p.ny ∣ p'.ny) (hpar : p.ny % 2 = 0 ∨ p'.ny = p.ny) (hL : p.nlayers = p'.nlayers) (hT : p.ntracers = p'.ntracers)
    (hvl : p.vl = p'.vl) (hr : Ready p dc prm m) (hr' : Ready p' dc prm m') {sw : SWModel R} (hn : sw.NoHook)
    {stp : Stepper} {sched : List (R × R)} {simd split split' : Bool} (h0 : Repeats p p' .state m m')
    (he : Exec p.dims (stp.ctor p.dims ++ stp.run p.dims ⟨buildK simd p.vl, split⟩ sw sched) m m1)
    (he' : Exec p'.dims (stp.ctor p'.dims ++ stp.run p'.dims ⟨buildK simd p'.vl, split'⟩ sw sched) m' m1') :
    Repeats p p' .state m1 m1' := by
  obtain ⟨hd, hc⟩ := ready_ok hv hr
  obtain ⟨hd', hc'⟩ := ready_ok hv' hr'
  have x1 := hv'.nx_pos
  have y1 := hv'.ny_pos
  have lx := Int.le_of_dvd (by omega) hx
  have ly := Int.le_of_dvd (by omega) hy
  have h := C108_wrap hv.nx_pos hv.ny_pos x1 hx hy hpar
  have hl : p.dims.nlayers = p'.dims.nlayers := by simp only [MeshParams.dims, hL, hvl]
  have S := sysRel_cover hv hv' h2x h2y (mul_le_mul lx ly (by omega) (by omega)) (by omega) (by omega) hl hr hr' sw simd
    hvl h
  refine (repeats_iff x1).2 (newRun_rel₂ (d₁ := p.dims) S (fun i a b => h.cell ⟨a, b⟩) (fun i a b => cover_e_range h a b) hl hT
    (buildSetup simd hd hc (hookOK_noHook hn p.dims m)) (buildSetup simd hd' hc' (hookOK_noHook hn p'.dims m'))
    ((repeats_iff x1).1 h0) stp (List.forall₂_same.2 fun _ _ => ⟨rfl, rfl⟩)
    (by cases simd <;> exact he) (by cases simd <;> exact he')
    fun _ _ _ => ⟨fun _ _ _ _ _ _ => trivial, fun _ _ _ _ _ _ _ => trivial⟩)

/-- a mesh of two by two copies of `p46t`, and the hypotheses: a run from any state, repeated four times -/
def p46x : MeshParams := ⟨8, 12, p46t.nlayers, p46t.ntracers, p46t.vl⟩
theorem p46x_run : RunValid p46x := by
  refine ⟨⟨by decide, by decide, p46t_run.nlayers_nonneg, p46t_run.ntracers_nonneg, p46t_run.vl_pos, by decide⟩, ?_⟩
  exact p46t_run.layers

example (x : Fld R) (t dt : R) (prm : Params R) (simd : Bool) : ∃ m m' m1 m1' : Mem R,
    Ready p46t (lit 1) prm m ∧ Ready p46x (lit 1) prm m' ∧ m.fld .state = x ∧ Repeats p46t p46x .state m m' ∧
      Exec p46t.dims (Stepper.rk4.ctor p46t.dims ++ Stepper.rk4.run p46t.dims ⟨buildK simd p46t.vl, false⟩
        (SWModel.ofParams prm) [(t, dt)]) m m1 ∧
      Exec p46x.dims (Stepper.rk4.ctor p46x.dims ++ Stepper.rk4.run p46x.dims ⟨buildK simd p46x.vl, true⟩
        (SWModel.ofParams prm) [(t, dt)]) m' m1' ∧ Repeats p46t p46x .state m1 m1' := by
  let y : Fld R := ⟨fun c k => x.h (wrap p46t.nx p46t.ny p46x.nx c) k,
    fun e k => x.vn ((owned (wrap p46t.nx p46t.ny p46x.nx)).e e) k,
    fun l c k => x.tr l (wrap p46t.nx p46t.ny p46x.nx c) k⟩
  obtain ⟨m, hr, hx, -⟩ := exists_ready p46t_run.toValid (lit 1 : R) prm x zeroFld
  obtain ⟨m', hr', hy, -⟩ := exists_ready p46x_run.toValid (lit 1 : R) prm y zeroFld
  have go : ∀ (p : MeshParams) (hv : RunValid p) (m : Mem R) (split : Bool), Ready p (lit 1) prm m → ∃ m1,
      Exec p.dims (Stepper.rk4.ctor p.dims ++ Stepper.rk4.run p.dims ⟨buildK simd p.vl, split⟩
        (SWModel.ofParams prm) [(t, dt)]) m m1 := by
    intro p hv m split hr
    obtain ⟨hd, hc⟩ := ready_ok hv hr
    obtain ⟨m0, r0, a0, -⟩ := ctor_runs p.dims .rk4 m
    have S := (buildSetup simd hd hc (hookOK_noHook (noHook_ofParams prm) p.dims m)).static a0
    obtain ⟨m1, r1, -⟩ := run_runs S .rk4 [(t, dt)]
    have r := r1 split
    have e : (buildSys simd p.dims (SWModel.ofParams prm) noHook m).sw = SWModel.ofParams prm := by cases simd <;> rfl
    rw [e] at r
    exact ⟨m1, (Runs.append r0 r).exec⟩
  obtain ⟨m1, he⟩ := go p46t p46t_run m false hr
  obtain ⟨m1', he'⟩ := go p46x p46x_run m' true hr'
  have h0 : Repeats p46t p46x .state m m' := by
    rw [repeats_iff (by decide), hx, hy]
    exact ⟨fun _ _ _ _ _ _ => rfl, fun _ _ _ _ _ _ => rfl, fun _ _ _ _ _ _ _ _ _ => rfl⟩
  exact ⟨m, m', m1, m1', hr, hr', hx, h0, he, he', C108_periodic_run p46t_run p46x_run (by decide) (by decide) (by decide)
    (by decide) (.inl (by decide)) rfl rfl rfl hr hr' (noHook_ofParams prm) h0 he he'⟩

end

end Props
end Omega
