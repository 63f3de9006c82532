import Verif.Kokkos.Launch
import Verif.Model.Mesh
import Verif.Spec.Hex

/-!
# Refinement of the kernel "compute_mesh_arrays"

Every interleaving of the iterations of the first kernel of the mesh constructor fills the tables
with the closed forms of `Spec.Hex`.
-/

set_option linter.unusedSectionVars false
set_option linter.unusedVariables false

namespace Omega
namespace Refine

open Prog Model

variable {R : Type} [Scalar R]

/-- Constructor arguments for which every index computed by the constructor is a valid `int`. -/
structure MeshParams.Valid (p : MeshParams) : Prop where
  nx_pos : 1 ≤ p.nx
  ny_pos : 1 ≤ p.ny
  nlayers_nonneg : 0 ≤ p.nlayers
  ntracers_nonneg : 0 ≤ p.ntracers
  vl_pos : 1 ≤ p.vl
  fits : 3 * (p.nx * p.ny) ≤ 2147483647

theorem iadd_eq {a b : Int} (h : InInt (a + b)) : (iadd a b : Prog R Int) = .ret (a + b) := by
  simp [iadd, int32, h]
theorem isub_eq {a b : Int} (h : InInt (a - b)) : (isub a b : Prog R Int) = .ret (a - b) := by
  simp [isub, int32, h]
theorem imul_eq {a b : Int} (h : InInt (a * b)) : (imul a b : Prog R Int) = .ret (a * b) := by
  simp [imul, int32, h]
theorem ret_bind {α β : Type} (a : α) (f : α → Prog R β) : (Prog.ret a >>= f) = f a := rfl
theorem pure_eq_ret {α : Type} (a : α) : (pure a : Prog R α) = Prog.ret a := rfl

section Index

variable {nx ny : Int}

theorem fits_bounds (hnx : 1 ≤ nx) (hny : 1 ≤ ny) (hf : 3 * (nx * ny) ≤ 2147483647) :
    nx ≤ nx * ny ∧ ny ≤ nx * ny := by
  constructor
  · nlinarith
  · nlinarith

theorem cellidx_eq (hf : 3 * (nx * ny) ≤ 2147483647) {i r : Int}
    (h0 : 0 ≤ i) (h1 : i < nx) (h2 : 0 ≤ r) (h3 : r < ny) :
    (cellidx nx i r : Prog R Int) = .ret (Hex.cid nx i r) := by
  have h := Hex.cid_range h0 h1 h2 h3
  unfold Hex.cid at h
  have h5 : 0 ≤ r * nx := Int.mul_nonneg h2 (by omega)
  unfold cellidx
  rw [imul_eq (by unfold InInt; omega), ret_bind, iadd_eq (by unfold InInt; omega)]
  rfl

theorem cell_on_cell_eq (hf : 3 * (nx * ny) ≤ 2147483647) {i r j : Int}
    (h0 : 0 ≤ i) (h1 : i < nx) (h2 : 0 ≤ r) (h3 : r < ny) (hj0 : 0 ≤ j) (hj6 : j < 6) :
    (cell_on_cell nx ny i r j : Prog R Int) = .ret (Hex.nb nx ny j (Hex.cid nx i r)) := by
  have hb := fits_bounds (by omega : 1 ≤ nx) (by omega : 1 ≤ ny) hf
  rw [Hex.nb_cid h0 h1]
  have hmx := Hex.mx_range h0 h1
  have hpx := Hex.px_range h0 h1
  have hmy := Hex.mx_range h2 h3
  have hpy := Hex.px_range h2 h3
  have e1 : (if i = 0 then pure (nx - 1) else isub i 1 : Prog R Int) = .ret (Hex.mx nx i) := by
    unfold Hex.mx; split_ifs
    · rfl
    · exact isub_eq (by unfold InInt; omega)
  have e2 : (if i = nx - 1 then pure 0 else iadd i 1 : Prog R Int) = .ret (Hex.px nx i) := by
    unfold Hex.px; split_ifs
    · rfl
    · exact iadd_eq (by unfold InInt; omega)
  have e3 : (if r = 0 then pure (ny - 1) else isub r 1 : Prog R Int) = .ret (Hex.mx ny r) := by
    unfold Hex.mx; split_ifs
    · rfl
    · exact isub_eq (by unfold InInt; omega)
  have e4 : (if r = ny - 1 then pure 0 else iadd r 1 : Prog R Int) = .ret (Hex.px ny r) := by
    unfold Hex.px; split_ifs
    · rfl
    · exact iadd_eq (by unfold InInt; omega)
  have hp : r.tmod 2 = r % 2 := Int.tmod_eq_emod_of_nonneg h2
  unfold cell_on_cell
  rw [isub_eq (by unfold InInt; omega), ret_bind, isub_eq (by unfold InInt; omega), ret_bind,
    e1, ret_bind, e2, ret_bind, e3, ret_bind, e4, ret_bind, hp]
  rw [cellidx_eq hf hmx.1 hmx.2 h2 h3, cellidx_eq hf hmx.1 hmx.2 hmy.1 hmy.2,
    cellidx_eq hf h0 h1 hmy.1 hmy.2, cellidx_eq hf hpx.1 hpx.2 h2 h3,
    cellidx_eq hf h0 h1 hpy.1 hpy.2, cellidx_eq hf hmx.1 hmx.2 hpy.1 hpy.2,
    cellidx_eq hf hpx.1 hpx.2 hmy.1 hmy.2, cellidx_eq hf hpx.1 hpx.2 hpy.1 hpy.2]
  obtain rfl | rfl | rfl | rfl | rfl | rfl : j = 0 ∨ j = 1 ∨ j = 2 ∨ j = 3 ∨ j = 4 ∨ j = 5 := by
    omega
  all_goals simp [Hex.nbI, Hex.nbR]
  all_goals split_ifs <;> rfl

theorem edge_on_cell_eq (hf : 3 * (nx * ny) ≤ 2147483647) {i r j : Int}
    (h0 : 0 ≤ i) (h1 : i < nx) (h2 : 0 ≤ r) (h3 : r < ny) (hj0 : 0 ≤ j) (hj6 : j < 6) :
    (edge_on_cell nx ny (Hex.cid nx i r) i r j : Prog R Int) =
      .ret (Hex.E nx ny (Hex.cid nx i r) j) := by
  have hc : Hex.IsCell nx ny (Hex.cid nx i r) := Hex.cid_range h0 h1 h2 h3
  have hE := Hex.E_range (by omega) hc j hj0 hj6
  have hn := Hex.nb_isCell (by omega) hc (j := j)
  unfold Hex.IsCell at hc hn
  unfold edge_on_cell
  rw [cell_on_cell_eq hf h0 h1 h2 h3 hj0 hj6]
  simp only [ret_bind]
  rw [imul_eq (by unfold InInt; omega), imul_eq (by unfold InInt; omega)]
  simp only [ret_bind]
  obtain rfl | rfl | rfl | rfl | rfl | rfl : j = 0 ∨ j = 1 ∨ j = 2 ∨ j = 3 ∨ j = 4 ∨ j = 5 := by
    omega
  all_goals simp [Hex.E]
  all_goals refine iadd_eq ?_
  all_goals unfold InInt
  all_goals omega

theorem vertex_on_cell_eq (hf : 3 * (nx * ny) ≤ 2147483647) {i r j : Int}
    (h0 : 0 ≤ i) (h1 : i < nx) (h2 : 0 ≤ r) (h3 : r < ny) (hj0 : 0 ≤ j) (hj6 : j < 6) :
    (vertex_on_cell nx ny (Hex.cid nx i r) i r j : Prog R Int) =
      .ret (Hex.V nx ny (Hex.cid nx i r) j) := by
  have hc : Hex.IsCell nx ny (Hex.cid nx i r) := Hex.cid_range h0 h1 h2 h3
  have hn2 := Hex.nb_isCell (by omega) hc (j := 2)
  have hn3 := Hex.nb_isCell (by omega) hc (j := 3)
  have hn4 := Hex.nb_isCell (by omega) hc (j := 4)
  unfold Hex.IsCell at hc hn2 hn3 hn4
  unfold vertex_on_cell
  rw [cell_on_cell_eq hf h0 h1 h2 h3 (by omega) (by omega),
    cell_on_cell_eq hf h0 h1 h2 h3 (by omega) (by omega),
    cell_on_cell_eq hf h0 h1 h2 h3 (by omega) (by omega)]
  simp only [ret_bind]
  rw [imul_eq (by unfold InInt; omega), imul_eq (by unfold InInt; omega),
    imul_eq (by unfold InInt; omega), imul_eq (by unfold InInt; omega)]
  simp only [ret_bind]
  obtain rfl | rfl | rfl | rfl | rfl | rfl : j = 0 ∨ j = 1 ∨ j = 2 ∨ j = 3 ∨ j = 4 ∨ j = 5 := by
    omega
  all_goals simp [Hex.V]
  all_goals refine iadd_eq ?_
  all_goals unfold InInt
  all_goals omega

end Index

/-- Unscaled tangential weights, by edge kind `j = e % 3` and position `t = s % 5`. -/
def wRaw (j t : Int) : R :=
  if t = 2 then lit 0
  else if j = 0 then (if t = 0 ∨ t = 4 then lit 1 / lit 3 else lit 1 / lit 6)
  else if j = 1 then
    (if t = 0 then lit 1 / lit 3 else if t = 1 then -lit 1 / lit 6
     else if t = 3 then lit 1 / lit 6 else -lit 1 / lit 3)
  else (if t = 0 ∨ t = 4 then -lit 1 / lit 3 else -lit 1 / lit 6)

/-- The tables stored by the kernel. -/
def tabT (nx ny : Int) : Mem R where
  int a i j :=
    match a with
    | .nedges_on_cell => 6
    | .cells_on_cell => Hex.nb nx ny j i
    | .edges_on_cell => Hex.E nx ny i j
    | .vertices_on_cell => Hex.V nx ny i j
    | .cells_on_edge => Hex.coe nx ny i j
    | .vertices_on_edge => Hex.voe nx ny i j
    | .edges_on_edge => Hex.eoe nx ny i j
    | .cells_on_vertex => Hex.cov nx ny i j
    | .edges_on_vertex => Hex.eov nx ny i j
    | _ => 0
  real _ _ i k := wRaw (i % 3) (k % 5)

/-- The locations written by the kernel. -/
def tabP (d : Dims) : Loc → Bool
  | .int .nedges_on_cell i j => decide (IArr.InB d .nedges_on_cell i j)
  | .int .cells_on_cell i j => decide (IArr.InB d .cells_on_cell i j)
  | .int .edges_on_cell i j => decide (IArr.InB d .edges_on_cell i j)
  | .int .vertices_on_cell i j => decide (IArr.InB d .vertices_on_cell i j)
  | .int .cells_on_edge i j => decide (IArr.InB d .cells_on_edge i j)
  | .int .vertices_on_edge i j => decide (IArr.InB d .vertices_on_edge i j)
  | .int .edges_on_edge i j => decide (IArr.InB d .edges_on_edge i j ∧ j < 10)
  | .int .cells_on_vertex i j => decide (IArr.InB d .cells_on_vertex i j)
  | .int .edges_on_vertex i j => decide (IArr.InB d .edges_on_vertex i j)
  | .real .weights_on_edge l i k => decide (RArr.InB d .weights_on_edge l i k ∧ k < 10)
  | _ => false

/-- The cell whose iteration writes a location. -/
def tabCell (nx ny : Int) : Loc → Int
  | .int .cells_on_edge i j => Hex.coe nx ny i j
  | .int .vertices_on_edge i _ => i / 3
  | .int .edges_on_edge i j => Hex.eoeOwner nx ny i j
  | .int .cells_on_vertex i j => Hex.cov nx ny i j
  | .int .edges_on_vertex i j => Hex.eov nx ny i j / 3
  | .int _ i _ => i
  | .real _ _ i k => Hex.eoeOwner nx ny i k

/-- The iteration that writes a location. -/
def tabOwner (nx ny : Int) (loc : Loc) : Idx :=
  (Hex.row nx (tabCell nx ny loc), Hex.col nx (tabCell nx ny loc), 0)

theorem tabCell_isCell {p : MeshParams} (hv : MeshParams.Valid p) {loc : Loc}
    (h : tabP p.dims loc = true) : Hex.IsCell p.nx p.ny (tabCell p.nx p.ny loc) := by
  have hnx := hv.nx_pos
  rcases loc with ⟨a, i, j⟩ | ⟨a, l, i, k⟩
  · cases a <;>
      simp only [tabP, decide_eq_true_eq, reduceCtorEq] at h <;>
      simp only [IArr.InB, IArr.ext, MeshParams.dims] at h <;>
      simp only [tabCell]
    · exact ⟨h.1.1, h.1.2⟩
    · exact ⟨h.1.1, h.1.2⟩
    · exact ⟨h.1.1, h.1.2⟩
    · exact ⟨h.1.1, h.1.2⟩
    · unfold Hex.eoeOwner; split_ifs
      · exact Hex.coe_isCell hnx h.1.1.1 h.1.1.2
      · exact Hex.isCell_edge h.1.1.1 h.1.1.2
    · exact Hex.coe_isCell hnx h.1.1 h.1.2
    · exact Hex.isCell_edge h.1.1 h.1.2
    · exact Hex.eov_isCell hnx h.1.1 h.1.2
    · exact Hex.cov_isCell hnx h.1.1 h.1.2
  · cases a <;>
      simp only [tabP, decide_eq_true_eq, reduceCtorEq] at h <;>
      simp only [RArr.InB, RArr.ext, MeshParams.dims] at h <;>
      simp only [tabCell]
    unfold Hex.eoeOwner; split_ifs
    · exact Hex.coe_isCell hnx h.1.2.1.1 h.1.2.1.2
    · exact Hex.isCell_edge h.1.2.1.1 h.1.2.1.2

section Body

variable {p : MeshParams} {c : Int} {m : Mem R} {perm : Loc → Perm}

/-- Locations belonging to the iteration of cell `c`. -/
def tabOwn (p : MeshParams) (c : Int) (loc : Loc) : Prop :=
  tabP p.dims loc = true ∧ tabCell p.nx p.ny loc = c

/-- The memory during the iteration of cell `c`: the locations `W` have received their final
contents. -/
def Inv (p : MeshParams) (c : Int) (m : Mem R) (W : Loc → Prop) (M : Mem R) : Prop :=
  PInv (tabOwn p c) (tabT p.nx p.ny) m W M

theorem inv_start : Inv p c m (fun _ => False) m := PInv.start

theorem wp_wrI (hperm : ∀ l, tabOwn p c l → perm l = .rw) {W : Loc → Prop} {M : Mem R}
    (hI : Inv p c m W M) {a : IArr} {i j v : Int} (hb : a.InB p.dims i j)
    (ho : tabOwn p c (.int a i j)) (hv : (tabT p.nx p.ny : Mem R).int a i j = v) :
    Wp p.dims perm (wrI2 a i j v) M (fun _ M' => Inv p c m (Ins (.int a i j) W) M') :=
  wp_pwrI2 hperm hI hb ho hv

theorem wp_wrR (hperm : ∀ l, tabOwn p c l → perm l = .rw) {W : Loc → Prop} {M : Mem R}
    (hI : Inv p c m W M) {a : RArr} {i k : Int} {v : R} (hb : a.InB p.dims 0 i k)
    (ho : tabOwn p c (.real a 0 i k)) (hv : (tabT p.nx p.ny : Mem R).real a 0 i k = v) :
    Wp p.dims perm (wr2 a i k v) M (fun _ M' => Inv p c m (Ins (.real a 0 i k) W) M') :=
  wp_pwr2 hperm hI hb ho hv

theorem wp_rdI (hperm : ∀ l, tabOwn p c l → perm l = .rw) {W : Loc → Prop} {M : Mem R}
    (hI : Inv p c m W M) {a : IArr} {i j : Int} (hb : a.InB p.dims i j)
    (hw : W (.int a i j)) {Q : Int → Mem R → Prop}
    (hq : Q ((tabT p.nx p.ny : Mem R).int a i j) M) :
    Wp p.dims perm (rdI2 a i j) M Q := by
  refine wp_rdI2 hb (by rw [hperm _ (hI.2 _ hw)]; simp) ?_
  rwa [hI.int_on hw]

/-- The cell tables have been stored. -/
def Has (c : Int) (W : Loc → Prop) : Prop :=
  ∀ j, 0 ≤ j → j < 6 → W (.int .edges_on_cell c j) ∧ W (.int .vertices_on_cell c j)

theorem Has.ins {W : Loc → Prop} (h : Has c W) (x : Loc) : Has c (Ins x W) :=
  fun j h0 h6 => ⟨Or.inr (h j h0 h6).1, Or.inr (h j h0 h6).2⟩

variable (hv : MeshParams.Valid p) (hc : Hex.IsCell p.nx p.ny c)
  (hperm : ∀ l, tabOwn p c l → perm l = .rw)

include hc in
theorem inb_cell6 {j : Int} (h0 : 0 ≤ j) (h6 : j < 6) :
    IArr.InB p.dims .edges_on_cell c j ∧ IArr.InB p.dims .vertices_on_cell c j ∧
    IArr.InB p.dims .cells_on_cell c j := by
  simp only [IArr.InB, IArr.ext, MeshParams.dims, maxedges]
  exact ⟨⟨hc, h0, h6⟩, ⟨hc, h0, h6⟩, ⟨hc, h0, h6⟩⟩

include hv hc hperm

theorem wp_eoe {W : Loc → Prop} {M : Mem R} (hI : Inv p c m W M) (hH : Has c W) (a s b : Int)
    (ha : 0 ≤ a ∧ a < 6) (hs : (a < 3 ∧ 5 ≤ s ∧ s < 10) ∨ (3 ≤ a ∧ 0 ≤ s ∧ s < 5))
    (hb : b = (a + 1 + s % 5) % 6) :
    Wp p.dims perm (Model.eoe c a s b) M
      (fun _ M' => Inv p c m (Ins (.int .edges_on_edge (Hex.E p.nx p.ny c a) s) W) M') := by
  have hnx := hv.nx_pos
  have hb6 : 0 ≤ b ∧ b < 6 := by omega
  have hE := Hex.E_range hnx hc a ha.1 ha.2
  have hin : IArr.InB p.dims .edges_on_edge (Hex.E p.nx p.ny c a) s := by
    simp only [IArr.InB, IArr.ext, MeshParams.dims, maxedges]; omega
  refine wp_bind (wp_rdI hperm hI (inb_cell6 hc hb6.1 hb6.2).1 (hH b hb6.1 hb6.2).1 ?_)
  refine wp_bind (wp_rdI hperm hI (inb_cell6 hc ha.1 ha.2).1 (hH a ha.1 ha.2).1 ?_)
  refine wp_wrI hperm hI hin ⟨?_, ?_⟩ ?_
  · exact decide_eq_true (And.intro hin (by omega : s < 10))
  · exact Hex.eoeOwner_E hnx hc ha.1 ha.2 hs
  · simp only [tabT]; rw [Hex.eoe_E hnx hc ha.1 ha.2 hs, hb]

theorem wp_woe {W : Loc → Prop} {M : Mem R} (hI : Inv p c m W M) (hH : Has c W) (a s : Int) (w : R)
    (ha : 0 ≤ a ∧ a < 6) (hs : (a < 3 ∧ 5 ≤ s ∧ s < 10) ∨ (3 ≤ a ∧ 0 ≤ s ∧ s < 5))
    (hw : wRaw (a % 3) (s % 5) = w) :
    Wp p.dims perm (Model.woe c a s w) M
      (fun _ M' => Inv p c m (Ins (.real .weights_on_edge 0 (Hex.E p.nx p.ny c a) s) W) M') := by
  have hnx := hv.nx_pos
  have hE := Hex.E_range hnx hc a ha.1 ha.2
  have hin : RArr.InB p.dims .weights_on_edge 0 (Hex.E p.nx p.ny c a) s := by
    simp only [RArr.InB, RArr.ext, MeshParams.dims, maxedges]; omega
  refine wp_bind (wp_rdI hperm hI (inb_cell6 hc ha.1 ha.2).1 (hH a ha.1 ha.2).1 ?_)
  refine wp_wrR hperm hI hin ⟨?_, ?_⟩ ?_
  · exact decide_eq_true (And.intro hin (by omega : s < 10))
  · exact Hex.eoeOwner_E hnx hc ha.1 ha.2 hs
  · simp only [tabT]; rw [Hex.E_mod ha.1 ha.2]; exact hw

theorem wp_voe {W : Loc → Prop} {M : Mem R} (hI : Inv p c m W M) (hH : Has c W) (a s b : Int)
    (ha : 0 ≤ a ∧ a < 3) (hs : s = 0 ∨ s = 1) (hb : b = a + 1 - s) :
    Wp p.dims perm (Model.voe c a s b) M
      (fun _ M' => Inv p c m (Ins (.int .vertices_on_edge (Hex.E p.nx p.ny c a) s) W) M') := by
  have hnx := hv.nx_pos
  have hb6 : 0 ≤ b ∧ b < 6 := by omega
  have ha6 : 0 ≤ a ∧ a < 6 := by omega
  have hE := Hex.E_range hnx hc a ha6.1 ha6.2
  have hin : IArr.InB p.dims .vertices_on_edge (Hex.E p.nx p.ny c a) s := by
    simp only [IArr.InB, IArr.ext, MeshParams.dims, maxedges]; omega
  refine wp_bind (wp_rdI hperm hI (inb_cell6 hc hb6.1 hb6.2).2.1 (hH b hb6.1 hb6.2).2 ?_)
  refine wp_bind (wp_rdI hperm hI (inb_cell6 hc ha6.1 ha6.2).1 (hH a ha6.1 ha6.2).1 ?_)
  refine wp_wrI hperm hI hin ⟨?_, ?_⟩ ?_
  · exact decide_eq_true hin
  · exact Hex.E_div_lo ha.1 ha.2
  · simp only [tabT]; rw [Hex.voe_E ha.1 ha.2 hs, hb]

theorem wp_cov {W : Loc → Prop} {M : Mem R} (hI : Inv p c m W M) (hH : Has c W) (a s : Int)
    (ha : 0 ≤ a ∧ a < 6) (hs : s = Hex.covSlot a) :
    Wp p.dims perm (Model.cov c a s) M
      (fun _ M' => Inv p c m (Ins (.int .cells_on_vertex (Hex.V p.nx p.ny c a) s) W) M') := by
  have hnx := hv.nx_pos
  have hV := Hex.V_range hnx hc a
  have hs3 : 0 ≤ s ∧ s < 3 := by rw [hs]; unfold Hex.covSlot; split_ifs <;> omega
  have hin : IArr.InB p.dims .cells_on_vertex (Hex.V p.nx p.ny c a) s := by
    simp only [IArr.InB, IArr.ext, MeshParams.dims, maxedges]; omega
  refine wp_bind (wp_rdI hperm hI (inb_cell6 hc ha.1 ha.2).2.1 (hH a ha.1 ha.2).2 ?_)
  have hval := Hex.cov_V hnx hc ha.1 ha.2
  rw [← hs] at hval
  refine wp_wrI hperm hI hin ⟨?_, ?_⟩ ?_
  · exact decide_eq_true hin
  · exact hval
  · exact hval

theorem wp_eov {W : Loc → Prop} {M : Mem R} (hI : Inv p c m W M) (hH : Has c W) (a s b : Int)
    (ht : Hex.eovTriple a s b) :
    Wp p.dims perm (Model.eov c a s b) M
      (fun _ M' => Inv p c m (Ins (.int .edges_on_vertex (Hex.V p.nx p.ny c a) s) W) M') := by
  have hnx := hv.nx_pos
  have hr : (0 ≤ a ∧ a < 6) ∧ (0 ≤ b ∧ b < 3) ∧ (0 ≤ s ∧ s < 3) := by
    unfold Hex.eovTriple at ht; omega
  obtain ⟨ha, hb, hs3⟩ := hr
  have hV := Hex.V_range hnx hc a
  have hin : IArr.InB p.dims .edges_on_vertex (Hex.V p.nx p.ny c a) s := by
    simp only [IArr.InB, IArr.ext, MeshParams.dims, maxedges]; omega
  refine wp_bind (wp_rdI hperm hI (inb_cell6 hc hb.1 (by omega)).1 (hH b hb.1 (by omega)).1 ?_)
  refine wp_bind (wp_rdI hperm hI (inb_cell6 hc ha.1 ha.2).2.1 (hH a ha.1 ha.2).2 ?_)
  have hval := Hex.eov_V hnx hc ht
  refine wp_wrI hperm hI hin ⟨?_, ?_⟩ ?_
  · exact decide_eq_true hin
  · simp only [tabCell, tabT]; rw [hval]; exact Hex.E_div_lo hb.1 hb.2
  · exact hval

/-- `meshEdgesOnEdgeA` and `B`, `meshWeightsA` and `B`: locations stored so far only grow. -/
def Post (p : MeshParams) (c : Int) (m : Mem R) (W : Loc → Prop) (new : Loc → Prop) (M : Mem R) :
    Prop :=
  ∃ W', Inv p c m W' M ∧ (∀ l, W l → W' l) ∧ (∀ l, new l → W' l)

omit hv hc hperm in
theorem Post.has {W new : Loc → Prop} {M : Mem R} (h : Post p c m W new M) (hH : Has c W) :
    ∃ W', Inv p c m W' M ∧ (∀ l, W l → W' l) ∧ (∀ l, new l → W' l) ∧ Has c W' := by
  obtain ⟨W', h1, h2, h3⟩ := h
  exact ⟨W', h1, h2, h3, fun j h0 h6 => ⟨h2 _ (hH j h0 h6).1, h2 _ (hH j h0 h6).2⟩⟩

theorem wp_meshVerticesOnEdge {W : Loc → Prop} {M : Mem R} (hI : Inv p c m W M) (hH : Has c W) :
    Wp p.dims perm (meshVerticesOnEdge c) M (fun _ M' => Post p c m W
      (fun l => ∃ a s, 0 ≤ a ∧ a < 3 ∧ 0 ≤ s ∧ s < 2 ∧ l = .int .vertices_on_edge (Hex.E p.nx p.ny c a) s) M') := by
  refine wp_bind (wp_mono (wp_voe hv hc hperm hI hH 0 0 1 (by omega) (by omega) (by omega)) fun _ M0 h0 => ?_)
  refine wp_bind (wp_mono (wp_voe hv hc hperm h0 (hH.ins _) 0 1 0 (by omega) (by omega) (by omega)) fun _ M1 h1 => ?_)
  refine wp_bind (wp_mono (wp_voe hv hc hperm h1 ((hH.ins _).ins _) 1 0 2 (by omega) (by omega) (by omega)) fun _ M2 h2 => ?_)
  refine wp_bind (wp_mono (wp_voe hv hc hperm h2 (((hH.ins _).ins _).ins _) 1 1 1 (by omega) (by omega) (by omega)) fun _ M3 h3 => ?_)
  refine wp_bind (wp_mono (wp_voe hv hc hperm h3 ((((hH.ins _).ins _).ins _).ins _) 2 0 3 (by omega) (by omega) (by omega)) fun _ M4 h4 => ?_)
  refine wp_mono (wp_voe hv hc hperm h4 (((((hH.ins _).ins _).ins _).ins _).ins _) 2 1 2 (by omega) (by omega) (by omega)) fun _ M5 h5 => ?_
  refine ⟨_, h5, ?_, ?_⟩
  · intro l hl; simp [Ins, hl]
  · rintro l ⟨a, s, ha, ha', hs, hs', rfl⟩
    interval_cases a <;> interval_cases s <;> simp [Ins]

theorem wp_meshEdgesOnEdgeA {W : Loc → Prop} {M : Mem R} (hI : Inv p c m W M) (hH : Has c W) :
    Wp p.dims perm (meshEdgesOnEdgeA c) M (fun _ M' => Post p c m W
      (fun l => ∃ a s, 3 ≤ a ∧ a < 6 ∧ 0 ≤ s ∧ s < 5 ∧ l = .int .edges_on_edge (Hex.E p.nx p.ny c a) s) M') := by
  refine wp_bind (wp_mono (wp_eoe hv hc hperm hI hH 3 0 4 (by omega) (by omega) (by omega)) fun _ M0 h0 => ?_)
  refine wp_bind (wp_mono (wp_eoe hv hc hperm h0 (hH.ins _) 3 1 5 (by omega) (by omega) (by omega)) fun _ M1 h1 => ?_)
  refine wp_bind (wp_mono (wp_eoe hv hc hperm h1 ((hH.ins _).ins _) 3 2 0 (by omega) (by omega) (by omega)) fun _ M2 h2 => ?_)
  refine wp_bind (wp_mono (wp_eoe hv hc hperm h2 (((hH.ins _).ins _).ins _) 3 3 1 (by omega) (by omega) (by omega)) fun _ M3 h3 => ?_)
  refine wp_bind (wp_mono (wp_eoe hv hc hperm h3 ((((hH.ins _).ins _).ins _).ins _) 3 4 2 (by omega) (by omega) (by omega)) fun _ M4 h4 => ?_)
  refine wp_bind (wp_mono (wp_eoe hv hc hperm h4 (((((hH.ins _).ins _).ins _).ins _).ins _) 4 0 5 (by omega) (by omega) (by omega)) fun _ M5 h5 => ?_)
  refine wp_bind (wp_mono (wp_eoe hv hc hperm h5 ((((((hH.ins _).ins _).ins _).ins _).ins _).ins _) 4 1 0 (by omega) (by omega) (by omega)) fun _ M6 h6 => ?_)
  refine wp_bind (wp_mono (wp_eoe hv hc hperm h6 (((((((hH.ins _).ins _).ins _).ins _).ins _).ins _).ins _) 4 2 1 (by omega) (by omega) (by omega)) fun _ M7 h7 => ?_)
  refine wp_bind (wp_mono (wp_eoe hv hc hperm h7 ((((((((hH.ins _).ins _).ins _).ins _).ins _).ins _).ins _).ins _) 4 3 2 (by omega) (by omega) (by omega)) fun _ M8 h8 => ?_)
  refine wp_bind (wp_mono (wp_eoe hv hc hperm h8 (((((((((hH.ins _).ins _).ins _).ins _).ins _).ins _).ins _).ins _).ins _) 4 4 3 (by omega) (by omega) (by omega)) fun _ M9 h9 => ?_)
  refine wp_bind (wp_mono (wp_eoe hv hc hperm h9 ((((((((((hH.ins _).ins _).ins _).ins _).ins _).ins _).ins _).ins _).ins _).ins _) 5 0 0 (by omega) (by omega) (by omega)) fun _ M10 h10 => ?_)
  refine wp_bind (wp_mono (wp_eoe hv hc hperm h10 (((((((((((hH.ins _).ins _).ins _).ins _).ins _).ins _).ins _).ins _).ins _).ins _).ins _) 5 1 1 (by omega) (by omega) (by omega)) fun _ M11 h11 => ?_)
  refine wp_bind (wp_mono (wp_eoe hv hc hperm h11 ((((((((((((hH.ins _).ins _).ins _).ins _).ins _).ins _).ins _).ins _).ins _).ins _).ins _).ins _) 5 2 2 (by omega) (by omega) (by omega)) fun _ M12 h12 => ?_)
  refine wp_bind (wp_mono (wp_eoe hv hc hperm h12 (((((((((((((hH.ins _).ins _).ins _).ins _).ins _).ins _).ins _).ins _).ins _).ins _).ins _).ins _).ins _) 5 3 3 (by omega) (by omega) (by omega)) fun _ M13 h13 => ?_)
  refine wp_mono (wp_eoe hv hc hperm h13 ((((((((((((((hH.ins _).ins _).ins _).ins _).ins _).ins _).ins _).ins _).ins _).ins _).ins _).ins _).ins _).ins _) 5 4 4 (by omega) (by omega) (by omega)) fun _ M14 h14 => ?_
  refine ⟨_, h14, ?_, ?_⟩
  · intro l hl; simp [Ins, hl]
  · rintro l ⟨a, s, ha, ha', hs, hs', rfl⟩
    interval_cases a <;> interval_cases s <;> simp [Ins]

theorem wp_meshEdgesOnEdgeB {W : Loc → Prop} {M : Mem R} (hI : Inv p c m W M) (hH : Has c W) :
    Wp p.dims perm (meshEdgesOnEdgeB c) M (fun _ M' => Post p c m W
      (fun l => ∃ a s, 0 ≤ a ∧ a < 3 ∧ 5 ≤ s ∧ s < 10 ∧ l = .int .edges_on_edge (Hex.E p.nx p.ny c a) s) M') := by
  refine wp_bind (wp_mono (wp_eoe hv hc hperm hI hH 0 5 1 (by omega) (by omega) (by omega)) fun _ M0 h0 => ?_)
  refine wp_bind (wp_mono (wp_eoe hv hc hperm h0 (hH.ins _) 0 6 2 (by omega) (by omega) (by omega)) fun _ M1 h1 => ?_)
  refine wp_bind (wp_mono (wp_eoe hv hc hperm h1 ((hH.ins _).ins _) 0 7 3 (by omega) (by omega) (by omega)) fun _ M2 h2 => ?_)
  refine wp_bind (wp_mono (wp_eoe hv hc hperm h2 (((hH.ins _).ins _).ins _) 0 8 4 (by omega) (by omega) (by omega)) fun _ M3 h3 => ?_)
  refine wp_bind (wp_mono (wp_eoe hv hc hperm h3 ((((hH.ins _).ins _).ins _).ins _) 0 9 5 (by omega) (by omega) (by omega)) fun _ M4 h4 => ?_)
  refine wp_bind (wp_mono (wp_eoe hv hc hperm h4 (((((hH.ins _).ins _).ins _).ins _).ins _) 1 5 2 (by omega) (by omega) (by omega)) fun _ M5 h5 => ?_)
  refine wp_bind (wp_mono (wp_eoe hv hc hperm h5 ((((((hH.ins _).ins _).ins _).ins _).ins _).ins _) 1 6 3 (by omega) (by omega) (by omega)) fun _ M6 h6 => ?_)
  refine wp_bind (wp_mono (wp_eoe hv hc hperm h6 (((((((hH.ins _).ins _).ins _).ins _).ins _).ins _).ins _) 1 7 4 (by omega) (by omega) (by omega)) fun _ M7 h7 => ?_)
  refine wp_bind (wp_mono (wp_eoe hv hc hperm h7 ((((((((hH.ins _).ins _).ins _).ins _).ins _).ins _).ins _).ins _) 1 8 5 (by omega) (by omega) (by omega)) fun _ M8 h8 => ?_)
  refine wp_bind (wp_mono (wp_eoe hv hc hperm h8 (((((((((hH.ins _).ins _).ins _).ins _).ins _).ins _).ins _).ins _).ins _) 1 9 0 (by omega) (by omega) (by omega)) fun _ M9 h9 => ?_)
  refine wp_bind (wp_mono (wp_eoe hv hc hperm h9 ((((((((((hH.ins _).ins _).ins _).ins _).ins _).ins _).ins _).ins _).ins _).ins _) 2 5 3 (by omega) (by omega) (by omega)) fun _ M10 h10 => ?_)
  refine wp_bind (wp_mono (wp_eoe hv hc hperm h10 (((((((((((hH.ins _).ins _).ins _).ins _).ins _).ins _).ins _).ins _).ins _).ins _).ins _) 2 6 4 (by omega) (by omega) (by omega)) fun _ M11 h11 => ?_)
  refine wp_bind (wp_mono (wp_eoe hv hc hperm h11 ((((((((((((hH.ins _).ins _).ins _).ins _).ins _).ins _).ins _).ins _).ins _).ins _).ins _).ins _) 2 7 5 (by omega) (by omega) (by omega)) fun _ M12 h12 => ?_)
  refine wp_bind (wp_mono (wp_eoe hv hc hperm h12 (((((((((((((hH.ins _).ins _).ins _).ins _).ins _).ins _).ins _).ins _).ins _).ins _).ins _).ins _).ins _) 2 8 0 (by omega) (by omega) (by omega)) fun _ M13 h13 => ?_)
  refine wp_mono (wp_eoe hv hc hperm h13 ((((((((((((((hH.ins _).ins _).ins _).ins _).ins _).ins _).ins _).ins _).ins _).ins _).ins _).ins _).ins _).ins _) 2 9 1 (by omega) (by omega) (by omega)) fun _ M14 h14 => ?_
  refine ⟨_, h14, ?_, ?_⟩
  · intro l hl; simp [Ins, hl]
  · rintro l ⟨a, s, ha, ha', hs, hs', rfl⟩
    interval_cases a <;> interval_cases s <;> simp [Ins]

theorem wp_meshWeightsA {W : Loc → Prop} {M : Mem R} (hI : Inv p c m W M) (hH : Has c W) :
    Wp p.dims perm (meshWeightsA c) M (fun _ M' => Post p c m W
      (fun l => ∃ a s, 3 ≤ a ∧ a < 6 ∧ 0 ≤ s ∧ s < 5 ∧ l = .real .weights_on_edge 0 (Hex.E p.nx p.ny c a) s) M') := by
  refine wp_bind (wp_mono (wp_woe hv hc hperm hI hH 3 0 _ (by omega) (by omega) (by simp [wRaw])) fun _ M0 h0 => ?_)
  refine wp_bind (wp_mono (wp_woe hv hc hperm h0 (hH.ins _) 3 1 _ (by omega) (by omega) (by simp [wRaw])) fun _ M1 h1 => ?_)
  refine wp_bind (wp_mono (wp_woe hv hc hperm h1 ((hH.ins _).ins _) 3 2 _ (by omega) (by omega) (by simp [wRaw])) fun _ M2 h2 => ?_)
  refine wp_bind (wp_mono (wp_woe hv hc hperm h2 (((hH.ins _).ins _).ins _) 3 3 _ (by omega) (by omega) (by simp [wRaw])) fun _ M3 h3 => ?_)
  refine wp_bind (wp_mono (wp_woe hv hc hperm h3 ((((hH.ins _).ins _).ins _).ins _) 3 4 _ (by omega) (by omega) (by simp [wRaw])) fun _ M4 h4 => ?_)
  refine wp_bind (wp_mono (wp_woe hv hc hperm h4 (((((hH.ins _).ins _).ins _).ins _).ins _) 4 0 _ (by omega) (by omega) (by simp [wRaw])) fun _ M5 h5 => ?_)
  refine wp_bind (wp_mono (wp_woe hv hc hperm h5 ((((((hH.ins _).ins _).ins _).ins _).ins _).ins _) 4 1 _ (by omega) (by omega) (by simp [wRaw])) fun _ M6 h6 => ?_)
  refine wp_bind (wp_mono (wp_woe hv hc hperm h6 (((((((hH.ins _).ins _).ins _).ins _).ins _).ins _).ins _) 4 2 _ (by omega) (by omega) (by simp [wRaw])) fun _ M7 h7 => ?_)
  refine wp_bind (wp_mono (wp_woe hv hc hperm h7 ((((((((hH.ins _).ins _).ins _).ins _).ins _).ins _).ins _).ins _) 4 3 _ (by omega) (by omega) (by simp [wRaw])) fun _ M8 h8 => ?_)
  refine wp_bind (wp_mono (wp_woe hv hc hperm h8 (((((((((hH.ins _).ins _).ins _).ins _).ins _).ins _).ins _).ins _).ins _) 4 4 _ (by omega) (by omega) (by simp [wRaw])) fun _ M9 h9 => ?_)
  refine wp_bind (wp_mono (wp_woe hv hc hperm h9 ((((((((((hH.ins _).ins _).ins _).ins _).ins _).ins _).ins _).ins _).ins _).ins _) 5 0 _ (by omega) (by omega) (by simp [wRaw])) fun _ M10 h10 => ?_)
  refine wp_bind (wp_mono (wp_woe hv hc hperm h10 (((((((((((hH.ins _).ins _).ins _).ins _).ins _).ins _).ins _).ins _).ins _).ins _).ins _) 5 1 _ (by omega) (by omega) (by simp [wRaw])) fun _ M11 h11 => ?_)
  refine wp_bind (wp_mono (wp_woe hv hc hperm h11 ((((((((((((hH.ins _).ins _).ins _).ins _).ins _).ins _).ins _).ins _).ins _).ins _).ins _).ins _) 5 2 _ (by omega) (by omega) (by simp [wRaw])) fun _ M12 h12 => ?_)
  refine wp_bind (wp_mono (wp_woe hv hc hperm h12 (((((((((((((hH.ins _).ins _).ins _).ins _).ins _).ins _).ins _).ins _).ins _).ins _).ins _).ins _).ins _) 5 3 _ (by omega) (by omega) (by simp [wRaw])) fun _ M13 h13 => ?_)
  refine wp_mono (wp_woe hv hc hperm h13 ((((((((((((((hH.ins _).ins _).ins _).ins _).ins _).ins _).ins _).ins _).ins _).ins _).ins _).ins _).ins _).ins _) 5 4 _ (by omega) (by omega) (by simp [wRaw])) fun _ M14 h14 => ?_
  refine ⟨_, h14, ?_, ?_⟩
  · intro l hl; simp [Ins, hl]
  · rintro l ⟨a, s, ha, ha', hs, hs', rfl⟩
    interval_cases a <;> interval_cases s <;> simp [Ins]

theorem wp_meshWeightsB {W : Loc → Prop} {M : Mem R} (hI : Inv p c m W M) (hH : Has c W) :
    Wp p.dims perm (meshWeightsB c) M (fun _ M' => Post p c m W
      (fun l => ∃ a s, 0 ≤ a ∧ a < 3 ∧ 5 ≤ s ∧ s < 10 ∧ l = .real .weights_on_edge 0 (Hex.E p.nx p.ny c a) s) M') := by
  refine wp_bind (wp_mono (wp_woe hv hc hperm hI hH 0 5 _ (by omega) (by omega) (by simp [wRaw])) fun _ M0 h0 => ?_)
  refine wp_bind (wp_mono (wp_woe hv hc hperm h0 (hH.ins _) 0 6 _ (by omega) (by omega) (by simp [wRaw])) fun _ M1 h1 => ?_)
  refine wp_bind (wp_mono (wp_woe hv hc hperm h1 ((hH.ins _).ins _) 0 7 _ (by omega) (by omega) (by simp [wRaw])) fun _ M2 h2 => ?_)
  refine wp_bind (wp_mono (wp_woe hv hc hperm h2 (((hH.ins _).ins _).ins _) 0 8 _ (by omega) (by omega) (by simp [wRaw])) fun _ M3 h3 => ?_)
  refine wp_bind (wp_mono (wp_woe hv hc hperm h3 ((((hH.ins _).ins _).ins _).ins _) 0 9 _ (by omega) (by omega) (by simp [wRaw])) fun _ M4 h4 => ?_)
  refine wp_bind (wp_mono (wp_woe hv hc hperm h4 (((((hH.ins _).ins _).ins _).ins _).ins _) 1 5 _ (by omega) (by omega) (by simp [wRaw])) fun _ M5 h5 => ?_)
  refine wp_bind (wp_mono (wp_woe hv hc hperm h5 ((((((hH.ins _).ins _).ins _).ins _).ins _).ins _) 1 6 _ (by omega) (by omega) (by simp [wRaw])) fun _ M6 h6 => ?_)
  refine wp_bind (wp_mono (wp_woe hv hc hperm h6 (((((((hH.ins _).ins _).ins _).ins _).ins _).ins _).ins _) 1 7 _ (by omega) (by omega) (by simp [wRaw])) fun _ M7 h7 => ?_)
  refine wp_bind (wp_mono (wp_woe hv hc hperm h7 ((((((((hH.ins _).ins _).ins _).ins _).ins _).ins _).ins _).ins _) 1 8 _ (by omega) (by omega) (by simp [wRaw])) fun _ M8 h8 => ?_)
  refine wp_bind (wp_mono (wp_woe hv hc hperm h8 (((((((((hH.ins _).ins _).ins _).ins _).ins _).ins _).ins _).ins _).ins _) 1 9 _ (by omega) (by omega) (by simp [wRaw])) fun _ M9 h9 => ?_)
  refine wp_bind (wp_mono (wp_woe hv hc hperm h9 ((((((((((hH.ins _).ins _).ins _).ins _).ins _).ins _).ins _).ins _).ins _).ins _) 2 5 _ (by omega) (by omega) (by simp [wRaw])) fun _ M10 h10 => ?_)
  refine wp_bind (wp_mono (wp_woe hv hc hperm h10 (((((((((((hH.ins _).ins _).ins _).ins _).ins _).ins _).ins _).ins _).ins _).ins _).ins _) 2 6 _ (by omega) (by omega) (by simp [wRaw])) fun _ M11 h11 => ?_)
  refine wp_bind (wp_mono (wp_woe hv hc hperm h11 ((((((((((((hH.ins _).ins _).ins _).ins _).ins _).ins _).ins _).ins _).ins _).ins _).ins _).ins _) 2 7 _ (by omega) (by omega) (by simp [wRaw])) fun _ M12 h12 => ?_)
  refine wp_bind (wp_mono (wp_woe hv hc hperm h12 (((((((((((((hH.ins _).ins _).ins _).ins _).ins _).ins _).ins _).ins _).ins _).ins _).ins _).ins _).ins _) 2 8 _ (by omega) (by omega) (by simp [wRaw])) fun _ M13 h13 => ?_)
  refine wp_mono (wp_woe hv hc hperm h13 ((((((((((((((hH.ins _).ins _).ins _).ins _).ins _).ins _).ins _).ins _).ins _).ins _).ins _).ins _).ins _).ins _) 2 9 _ (by omega) (by omega) (by simp [wRaw])) fun _ M14 h14 => ?_
  refine ⟨_, h14, ?_, ?_⟩
  · intro l hl; simp [Ins, hl]
  · rintro l ⟨a, s, ha, ha', hs, hs', rfl⟩
    interval_cases a <;> interval_cases s <;> simp [Ins]

theorem wp_meshVertexTables {W : Loc → Prop} {M : Mem R} (hI : Inv p c m W M) (hH : Has c W) :
    Wp p.dims perm (meshVertexTables c) M (fun _ M' => Post p c m W
      (fun l => (∃ a, 0 ≤ a ∧ a < 6 ∧
        l = .int .cells_on_vertex (Hex.V p.nx p.ny c a) (Hex.covSlot a)) ∨
        (∃ a s b, Hex.eovTriple a s b ∧ l = .int .edges_on_vertex (Hex.V p.nx p.ny c a) s)) M') := by
  refine wp_bind (wp_mono (wp_cov hv hc hperm hI hH 1 2 (by omega) (by simp [Hex.covSlot])) fun _ M0 h0 => ?_)
  refine wp_bind (wp_mono (wp_cov hv hc hperm h0 (hH.ins _) 3 0 (by omega) (by simp [Hex.covSlot])) fun _ M1 h1 => ?_)
  refine wp_bind (wp_mono (wp_cov hv hc hperm h1 ((hH.ins _).ins _) 5 1 (by omega) (by simp [Hex.covSlot])) fun _ M2 h2 => ?_)
  refine wp_bind (wp_mono (wp_cov hv hc hperm h2 (((hH.ins _).ins _).ins _) 0 0 (by omega) (by simp [Hex.covSlot])) fun _ M3 h3 => ?_)
  refine wp_bind (wp_mono (wp_cov hv hc hperm h3 ((((hH.ins _).ins _).ins _).ins _) 2 1 (by omega) (by simp [Hex.covSlot])) fun _ M4 h4 => ?_)
  refine wp_bind (wp_mono (wp_cov hv hc hperm h4 (((((hH.ins _).ins _).ins _).ins _).ins _) 4 2 (by omega) (by simp [Hex.covSlot])) fun _ M5 h5 => ?_)
  refine wp_bind (wp_mono (wp_eov hv hc hperm h5 ((((((hH.ins _).ins _).ins _).ins _).ins _).ins _) 0 0 0 (by simp [Hex.eovTriple])) fun _ M6 h6 => ?_)
  refine wp_bind (wp_mono (wp_eov hv hc hperm h6 (((((((hH.ins _).ins _).ins _).ins _).ins _).ins _).ins _) 1 0 0 (by simp [Hex.eovTriple])) fun _ M7 h7 => ?_)
  refine wp_bind (wp_mono (wp_eov hv hc hperm h7 ((((((((hH.ins _).ins _).ins _).ins _).ins _).ins _).ins _).ins _) 2 2 1 (by simp [Hex.eovTriple])) fun _ M8 h8 => ?_)
  refine wp_bind (wp_mono (wp_eov hv hc hperm h8 (((((((((hH.ins _).ins _).ins _).ins _).ins _).ins _).ins _).ins _).ins _) 1 2 1 (by simp [Hex.eovTriple])) fun _ M9 h9 => ?_)
  refine wp_bind (wp_mono (wp_eov hv hc hperm h9 ((((((((((hH.ins _).ins _).ins _).ins _).ins _).ins _).ins _).ins _).ins _).ins _) 2 1 2 (by simp [Hex.eovTriple])) fun _ M10 h10 => ?_)
  refine wp_mono (wp_eov hv hc hperm h10 (((((((((((hH.ins _).ins _).ins _).ins _).ins _).ins _).ins _).ins _).ins _).ins _).ins _) 3 1 2 (by simp [Hex.eovTriple])) fun _ M11 h11 => ?_
  refine ⟨_, h11, ?_, ?_⟩
  · intro l hl; simp [Ins, hl]
  · rintro l (⟨a, ha, ha', rfl⟩ | ⟨a, s, b, h, rfl⟩)
    · interval_cases a <;> simp [Ins, Hex.covSlot]
    · rcases h with ⟨rfl, rfl, rfl⟩ | ⟨rfl, rfl, rfl⟩ | ⟨rfl, rfl, rfl⟩ | ⟨rfl, rfl, rfl⟩ |
        ⟨rfl, rfl, rfl⟩ | ⟨rfl, rfl, rfl⟩
      all_goals simp [Ins]

theorem wp_meshCellsOnEdge {W : Loc → Prop} {M : Mem R} (hI : Inv p c m W M) (hH : Has c W) :
    Wp p.dims perm (meshCellsOnEdge c) M (fun _ M' => Post p c m W
      (fun l => ∃ a, (0 ≤ a ∧ a < 3 ∧ l = .int .cells_on_edge (Hex.E p.nx p.ny c a) 1) ∨
        (3 ≤ a ∧ a < 6 ∧ l = .int .cells_on_edge (Hex.E p.nx p.ny c a) 0)) M') := by
  have hnx := hv.nx_pos
  refine wp_bind (wp_forI (by omega) (fun j _ M' => ∃ W', Inv p c m W' M' ∧ (∀ l, W l → W' l) ∧
    Has c W' ∧ ∀ a, 0 ≤ a → a < j → W' (.int .cells_on_edge (Hex.E p.nx p.ny c a) 1))
    ⟨W, hI, fun _ h => h, hH, fun a h0 h1 => by omega⟩ ?_ ?_)
  · rintro j - M1 h0 h1 ⟨W1, hI1, hW1, hH1, hn1⟩
    have hE := Hex.E_range hnx hc j h0 (by omega)
    have hin : IArr.InB p.dims .cells_on_edge (Hex.E p.nx p.ny c j) 1 := by
      simp only [IArr.InB, IArr.ext, MeshParams.dims]; omega
    refine wp_bind (wp_rdI hperm hI1 (inb_cell6 hc h0 (by omega)).1 (hH1 j h0 (by omega)).1 ?_)
    refine wp_mono (wp_wrI hperm hI1 hin ⟨decide_eq_true hin, ?_⟩ ?_) fun _ M2 h2 => ?_
    · exact Hex.coe_E_lo h0 h1
    · exact Hex.coe_E_lo h0 h1
    · refine ⟨_, h2, fun l hl => Or.inr (hW1 l hl), hH1.ins _, fun a ha0 ha1 => ?_⟩
      by_cases e : a = j
      · subst e; exact Or.inl rfl
      · exact Or.inr (hn1 a ha0 (by omega))
  rintro - M1 ⟨W1, hI1, hW1, hH1, hn1⟩
  refine wp_bind (wp_forI (by omega) (fun j _ M' => ∃ W', Inv p c m W' M' ∧ (∀ l, W1 l → W' l) ∧
    Has c W' ∧ ∀ a, 0 ≤ a → a < j → W' (.int .cells_on_edge (Hex.E p.nx p.ny c (3 + a)) 0))
    ⟨W1, hI1, fun _ h => h, hH1, fun a h0 h1 => by omega⟩ ?_ ?_)
  · rintro j - M1 h0 h1 ⟨W1, hI1, hW1, hH1, hn1⟩
    have hE := Hex.E_range hnx hc (3 + j) (by omega) (by omega)
    have hin : IArr.InB p.dims .cells_on_edge (Hex.E p.nx p.ny c (3 + j)) 0 := by
      simp only [IArr.InB, IArr.ext, MeshParams.dims]; omega
    refine wp_bind (wp_rdI hperm hI1 (inb_cell6 hc (by omega) (by omega)).1
      (hH1 (3 + j) (by omega) (by omega)).1 ?_)
    refine wp_mono (wp_wrI hperm hI1 hin ⟨decide_eq_true hin, ?_⟩ ?_) fun _ M2 h2 => ?_
    · exact Hex.coe_E_hi hnx hc (by omega) (by omega)
    · exact Hex.coe_E_hi hnx hc (by omega) (by omega)
    · refine ⟨_, h2, fun l hl => Or.inr (hW1 l hl), hH1.ins _, fun a ha0 ha1 => ?_⟩
      by_cases e : a = j
      · subst e; exact Or.inl rfl
      · exact Or.inr (hn1 a ha0 (by omega))
  rintro - M2 ⟨W2, hI2, hW2, hH2, hn2⟩
  refine wp_pure ⟨W2, hI2, fun l hl => hW2 _ (hW1 _ hl), ?_⟩
  rintro l ⟨a, ⟨h0, h1, rfl⟩ | ⟨h0, h1, rfl⟩⟩
  · exact hW2 _ (hn1 a h0 h1)
  · have := hn2 (a - 3) (by omega) (by omega)
    rwa [show 3 + (a - 3) = a by omega] at this

omit hc in
theorem wp_meshCellTables {i r : Int} (hi : 0 ≤ i) (hi' : i < p.nx) (hr : 0 ≤ r) (hr' : r < p.ny)
    (hcid : c = Hex.cid p.nx i r) :
    Wp p.dims perm (meshCellTables p.nx p.ny r i) m (fun c' M' => c' = c ∧ ∃ W, Inv p c m W M' ∧
      W (.int .nedges_on_cell c 0) ∧ ∀ j, 0 ≤ j → j < 6 → W (.int .cells_on_cell c j) ∧
        W (.int .edges_on_cell c j) ∧ W (.int .vertices_on_cell c j)) := by
  have hnx := hv.nx_pos
  have hf := hv.fits
  have hc : Hex.IsCell p.nx p.ny c := hcid ▸ Hex.cid_range hi hi' hr hr'
  unfold meshCellTables
  rw [cellidx_eq hf hi hi' hr hr', ret_bind, ← hcid]
  have hin : IArr.InB p.dims .nedges_on_cell c 0 := by
    simp only [IArr.InB, IArr.ext, MeshParams.dims]; exact ⟨hc, by omega⟩
  refine wp_bind (wp_mono (wp_wrI (v := 6) hperm inv_start hin ⟨decide_eq_true hin, rfl⟩ rfl)
    fun _ M1 h1 => ?_)
  refine wp_bind (wp_forI (by unfold maxedges; omega) (fun j _ M' => ∃ W', Inv p c m W' M' ∧
    W' (.int .nedges_on_cell c 0) ∧ ∀ a, 0 ≤ a → a < j → W' (.int .cells_on_cell c a) ∧
        W' (.int .edges_on_cell c a) ∧ W' (.int .vertices_on_cell c a))
    ⟨_, h1, Or.inl rfl, fun a h0 h1 => by omega⟩ ?_ ?_)
  · rintro j - M2 h0 h6 ⟨W2, hI2, hW2, hn2⟩
    unfold maxedges at h6
    have hib := inb_cell6 hc h0 h6
    rw [cell_on_cell_eq hf hi hi' hr hr' h0 h6, ret_bind, ← hcid]
    refine wp_bind (wp_mono (wp_wrI hperm hI2 hib.2.2 ⟨decide_eq_true hib.2.2, rfl⟩ rfl)
      fun _ M3 h3 => ?_)
    have e1 := edge_on_cell_eq (R := R) hf hi hi' hr hr' h0 h6
    rw [← hcid] at e1
    rw [e1, ret_bind]
    refine wp_bind (wp_mono (wp_wrI hperm h3 hib.1 ⟨decide_eq_true hib.1, rfl⟩ rfl)
      fun _ M4 h4 => ?_)
    have e2 := vertex_on_cell_eq (R := R) hf hi hi' hr hr' h0 h6
    rw [← hcid] at e2
    rw [e2, ret_bind]
    refine (wp_mono (wp_wrI hperm h4 hib.2.1 ⟨decide_eq_true hib.2.1, rfl⟩ rfl)
      fun _ M5 h5 => ?_)
    refine ⟨_, h5, Or.inr (Or.inr (Or.inr hW2)), fun a ha0 ha1 => ?_⟩
    by_cases e : a = j
    · subst e; exact ⟨by simp [Ins], by simp [Ins], by simp [Ins]⟩
    · have := hn2 a ha0 (by omega)
      exact ⟨by simp [Ins, this.1], by simp [Ins, this.2.1], by simp [Ins, this.2.2]⟩
  · rintro - M2 ⟨W2, hI2, hW2, hn2⟩
    exact wp_pure ⟨rfl, W2, hI2, hW2, hn2⟩

end Body

open Classical in
/-- One iteration alone stores exactly its own locations. -/
theorem meshArrays_solo {p : MeshParams} {m : Mem R} (hv : MeshParams.Valid p) {x : Idx}
    (hx : (par2 p.ny p.nx (meshArraysBody p.nx p.ny) : Cmd R).Dom x) :
    run p.dims (ownPerm (tabP p.dims) (tabOwner p.nx p.ny) x)
      ((par2 p.ny p.nx (meshArraysBody p.nx p.ny) : Cmd R).body x) m =
      some ((), m.patch (fun loc => tabP p.dims loc && decide (tabOwner p.nx p.ny loc = x))
        (tabT p.nx p.ny)) := by
  obtain ⟨r, i, z⟩ := x
  simp only [Cmd.Dom, InDom, par2] at hx
  obtain ⟨⟨hr, hr'⟩, ⟨hi, hi'⟩, hz, hz'⟩ := hx
  obtain rfl : z = 0 := by omega
  have hnx := hv.nx_pos
  have hf := hv.fits
  obtain ⟨c, hcid⟩ : ∃ c, c = Hex.cid p.nx i r := ⟨_, rfl⟩
  have hc : Hex.IsCell p.nx p.ny c := hcid ▸ Hex.cid_range hi hi' hr hr'
  have howner : ∀ loc, tabCell p.nx p.ny loc = c ↔ tabOwner p.nx p.ny loc = (r, i, 0) := by
    intro loc
    simp only [tabOwner, Prod.mk.injEq, and_true]
    constructor
    · intro h; rw [h, hcid]; exact ⟨Hex.row_cid hi hi', Hex.col_cid hi hi'⟩
    · rintro ⟨h1, h2⟩
      rw [← Hex.cid_col_row (nx := p.nx) (tabCell p.nx p.ny loc), h1, h2, hcid]
  have hperm : ∀ l, tabOwn p c l → ownPerm (tabP p.dims) (tabOwner p.nx p.ny) (r, i, 0) l = .rw := by
    rintro l ⟨h1, h2⟩
    simp [ownPerm, h1, (howner l).1 h2]
  apply run_of_wp
  show Wp p.dims _ (meshArraysBody p.nx p.ny r i) m _
  unfold meshArraysBody
  refine wp_bind (wp_mono (wp_meshCellTables hv hperm hi hi' hr hr' hcid) ?_)
  rintro c' M0 ⟨rfl, W0, hI0, hW0, hn0⟩
  have hH0 : Has c' W0 := fun j h0 h6 => (hn0 j h0 h6).2
  refine wp_bind (wp_mono (wp_meshCellsOnEdge hv hc hperm hI0 hH0) fun _ M1 h1 => ?_)
  obtain ⟨W1, hI1, s1, n1, hH1⟩ := h1.has hH0
  refine wp_bind (wp_mono (wp_meshVerticesOnEdge hv hc hperm hI1 hH1) fun _ M2 h2 => ?_)
  obtain ⟨W2, hI2, s2, n2, hH2⟩ := h2.has hH1
  refine wp_bind (wp_mono (wp_meshEdgesOnEdgeA hv hc hperm hI2 hH2) fun _ M3 h3 => ?_)
  obtain ⟨W3, hI3, s3, n3, hH3⟩ := h3.has hH2
  refine wp_bind (wp_mono (wp_meshEdgesOnEdgeB hv hc hperm hI3 hH3) fun _ M4 h4 => ?_)
  obtain ⟨W4, hI4, s4, n4, hH4⟩ := h4.has hH3
  refine wp_bind (wp_mono (wp_meshWeightsA hv hc hperm hI4 hH4) fun _ M5 h5 => ?_)
  obtain ⟨W5, hI5, s5, n5, hH5⟩ := h5.has hH4
  refine wp_bind (wp_mono (wp_meshWeightsB hv hc hperm hI5 hH5) fun _ M6 h6 => ?_)
  obtain ⟨W6, hI6, s6, n6, hH6⟩ := h6.has hH5
  refine wp_mono (wp_meshVertexTables hv hc hperm hI6 hH6) fun _ M7 h7 => ?_
  obtain ⟨W7, hI7, s7, n7⟩ := h7
  rw [hI7.1]
  apply Mem.patch_congr
  intro loc
  have key : W7 loc ↔ tabOwn p c' loc := by
    refine ⟨hI7.2 loc, fun h => ?_⟩
    have up0 : ∀ l, W0 l → W7 l := fun l hl => s7 _ (s6 _ (s5 _ (s4 _ (s3 _ (s2 _ (s1 _ hl))))))
    have up1 : ∀ l, W1 l → W7 l := fun l hl => s7 _ (s6 _ (s5 _ (s4 _ (s3 _ (s2 _ hl)))))
    have up2 : ∀ l, W2 l → W7 l := fun l hl => s7 _ (s6 _ (s5 _ (s4 _ (s3 _ hl))))
    have up3 : ∀ l, W3 l → W7 l := fun l hl => s7 _ (s6 _ (s5 _ (s4 _ hl)))
    have up4 : ∀ l, W4 l → W7 l := fun l hl => s7 _ (s6 _ (s5 _ hl))
    have up5 : ∀ l, W5 l → W7 l := fun l hl => s7 _ (s6 _ hl)
    have up6 : ∀ l, W6 l → W7 l := fun l hl => s7 _ hl
    obtain ⟨hP, hC⟩ := h
    rcases loc with ⟨a, i', j'⟩ | ⟨a, l', i', k'⟩
    · cases a <;> simp only [tabP, decide_eq_true_eq, reduceCtorEq] at hP <;>
        simp only [IArr.InB, IArr.ext, MeshParams.dims, maxedges] at hP <;>
        simp only [tabCell] at hC
      · subst hC
        obtain rfl : j' = 0 := by omega
        exact up0 _ hW0
      · subst hC; exact up0 _ (hn0 j' hP.2.1 hP.2.2).2.1
      · subst hC; exact up0 _ (hn0 j' hP.2.1 hP.2.2).1
      · subst hC; exact up0 _ (hn0 j' hP.2.1 hP.2.2).2.2
      · unfold Hex.eoeOwner at hC
        by_cases h5 : j' < 5
        · rw [if_pos h5] at hC
          apply up3; apply n3
          refine ⟨i' % 3 + 3, j', by omega, by omega, by omega, by omega, ?_⟩
          rw [← hC, ← Hex.eq_E_hi hnx (Hex.isCell_edge hP.1.1.1 hP.1.1.2)]
        · rw [if_neg h5] at hC
          apply up4; apply n4
          refine ⟨i' % 3, j', by omega, by omega, by omega, by omega, ?_⟩
          rw [← hC, ← Hex.eq_E_lo]
      · apply up1; apply n1
        obtain rfl | rfl : j' = 0 ∨ j' = 1 := by omega
        · refine ⟨i' % 3 + 3, Or.inr ⟨by omega, by omega, ?_⟩⟩
          rw [← hC, ← Hex.eq_E_hi hnx (Hex.isCell_edge hP.1.1 hP.1.2)]
        · refine ⟨i' % 3, Or.inl ⟨by omega, by omega, ?_⟩⟩
          have hC' : i' / 3 = c' := hC
          rw [← hC', ← Hex.eq_E_lo]
      · apply up2; apply n2
        refine ⟨i' % 3, j', by omega, by omega, by omega, by omega, ?_⟩
        rw [← hC, ← Hex.eq_E_lo]
      · apply n7; right
        obtain ⟨a, b, ht, he⟩ :=
          Hex.eq_V_eov hnx (Hex.isCell_vertex hP.1.1 hP.1.2) hP.2.1 hP.2.2
        refine ⟨a, j', b, ht, ?_⟩
        rw [hC] at he; rw [← he]
      · apply n7; left
        obtain ⟨a, h0, h6, he, hs⟩ :=
          Hex.eq_V hnx (Hex.isCell_vertex hP.1.1 hP.1.2) hP.2.1 hP.2.2
        refine ⟨a, h0, h6, ?_⟩
        rw [hC] at he; rw [← he, ← hs]
    · cases a <;> simp only [tabP, decide_eq_true_eq, reduceCtorEq] at hP
      simp only [RArr.InB, RArr.ext, MeshParams.dims, maxedges] at hP
      simp only [tabCell] at hC
      obtain rfl : l' = 0 := by omega
      unfold Hex.eoeOwner at hC
      by_cases h5 : k' < 5
      · rw [if_pos h5] at hC
        apply up5; apply n5
        refine ⟨i' % 3 + 3, k', by omega, by omega, by omega, by omega, ?_⟩
        rw [← hC, ← Hex.eq_E_hi hnx (Hex.isCell_edge hP.1.2.1.1 hP.1.2.1.2)]
      · rw [if_neg h5] at hC
        apply up6; apply n6
        refine ⟨i' % 3, k', by omega, by omega, by omega, by omega, ?_⟩
        rw [← hC, ← Hex.eq_E_lo]
  have key2 : W7 loc ↔ (tabP p.dims loc = true ∧ tabOwner p.nx p.ny loc = (r, i, 0)) := by
    rw [key]; unfold tabOwn; rw [howner]
  by_cases h : W7 loc
  · rw [decide_eq_true h]
    have := key2.1 h
    simp [this.1, this.2]
  · rw [decide_eq_false h]
    have h' := fun h' => h (key2.2 h')
    symm
    simp only [Bool.and_eq_false_iff, decide_eq_false_iff_not]
    by_cases hP : tabP p.dims loc = true
    · right; exact fun e => h' ⟨hP, e⟩
    · left; simpa using hP

/-- The launch "compute_mesh_arrays" is safe and fills the tables with the closed forms, under every
interleaving. -/
theorem meshArrays_runs {p : MeshParams} (hv : MeshParams.Valid p) (m : Mem R) :
    (par2 p.ny p.nx (meshArraysBody p.nx p.ny) : Cmd R).Runs p.dims m
      (m.patch (tabP p.dims) (tabT p.nx p.ny)) := by
  refine Cmd.runs_patch _ (tabOwner p.nx p.ny) _ ?_ (fun x hx => meshArrays_solo hv hx)
  intro loc hP
  have hc := tabCell_isCell hv hP
  have h1 := Hex.row_range hv.nx_pos hc
  have h2 := Hex.col_range hv.nx_pos (tabCell p.nx p.ny loc)
  exact ⟨h1, h2, by simp [tabOwner, par2]⟩

end Refine
end Omega
