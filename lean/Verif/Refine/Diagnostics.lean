import Verif.Model.Diagnostics
import Verif.Refine.Invariant

/-!
# Values of the integral diagnostics
-/

set_option linter.unusedSectionVars false
set_option linter.unusedVariables false

namespace Omega
namespace Refine

open Prog Model

variable {R : Type} [Scalar R]

/-- the value of a tree when the functor is a function -/
def treeVal (f : Int → R → R) : RTree → R
  | .leaf is => is.foldl (fun a i => f i a) (lit 0)
  | .node l r => treeVal f l + treeVal f r

theorem leafEval_eq {d : Dims} {body : Int → R → Prog R R} {m : Mem R} {f : Int → R → R}
    {n : Int}
    (h : ∀ i a, 0 ≤ i → i < n → Wp d (fun _ => .ro) (body i a) m (fun r m' => r = f i a ∧ m' = m))
    (is : List Int) (hi : ∀ i ∈ is, 0 ≤ i ∧ i < n) (acc : R) :
    leafEval d body m is acc = some (is.foldl (fun a i => f i a) acc) := by
  induction is generalizing acc with
  | nil => rfl
  | cons i is ih =>
    have hi' := hi i (by simp)
    obtain ⟨a, m', h1, rfl, h3⟩ := h i acc hi'.1 hi'.2
    simp only [leafEval, h1, List.foldl_cons]
    exact ih (fun j hj => hi j (by simp [hj])) _

theorem eval_eq {d : Dims} {body : Int → R → Prog R R} {m : Mem R} {f : Int → R → R}
    {n : Int}
    (h : ∀ i a, 0 ≤ i → i < n → Wp d (fun _ => .ro) (body i a) m (fun r m' => r = f i a ∧ m' = m))
    (T : RTree) (hT : ∀ i ∈ T.idx, 0 ≤ i ∧ i < n) : T.eval d body m = some (treeVal f T) := by
  induction T with
  | leaf is => exact leafEval_eq h is hT _
  | node l r ihl ihr =>
    simp only [RTree.eval, ihl fun i hi => hT i (by simp [RTree.idx, hi]),
      ihr fun i hi => hT i (by simp [RTree.idx, hi]), treeVal]

theorem _root_.Omega.RTree.Covers.mem {T : RTree} {n : Int} (h : T.Covers n) : ∀ i ∈ T.idx, 0 ≤ i ∧ i < n := by
  intro i hi
  have := h.mem_iff.mp hi
  simp only [List.mem_map, List.mem_range] at this
  obtain ⟨k, hk, rfl⟩ := this
  exact ⟨by simp, by simp; omega⟩

theorem reduceSafe_of {d : Dims} {body : Int → R → Prog R R} {m : Mem R} {f : Int → R → R}
    {n : Int}
    (h : ∀ i a, 0 ≤ i → i < n → Wp d (fun _ => .ro) (body i a) m (fun r m' => r = f i a ∧ m' = m)) :
    ReduceSafe d n body m := by
  intro T hT
  rw [eval_eq h T hT.mem]
  simp

/-- there is a reduction order -/
theorem exists_reduces {d : Dims} {body : Int → R → Prog R R} {m : Mem R} {f : Int → R → R}
    {n : Int}
    (h : ∀ i a, 0 ≤ i → i < n → Wp d (fun _ => .ro) (body i a) m (fun r m' => r = f i a ∧ m' = m)) :
    ∃ v, Reduces d n body m v := by
  refine ⟨_, .leaf ((List.range n.toNat).map Int.ofNat), List.Perm.refl _, eval_eq h _ ?_⟩
  exact RTree.Covers.mem (List.Perm.refl _)

theorem treeVal_real {g : Int → ℝ} {f : Int → ℝ → ℝ} (hf : ∀ i a, f i a = a + g i) (T : RTree) :
    treeVal f T = (T.idx.map g).sum := by
  induction T with
  | leaf is =>
    simp only [treeVal, RTree.idx]
    have : ∀ (is : List Int) (a : ℝ), is.foldl (fun a i => f i a) a = a + (is.map g).sum := by
      intro is
      induction is with
      | nil => intro a; simp
      | cons i is ih => intro a; rw [List.foldl_cons, ih, hf, List.map_cons, List.sum_cons]; ring
    rw [this]; simp
  | node l r ihl ihr => simp [treeVal, RTree.idx, ihl, ihr]

/-- In exact arithmetic the only possible result is the sum. -/
theorem reduces_real {d : Dims} {body : Int → ℝ → Prog ℝ ℝ} {m : Mem ℝ} {g : Int → ℝ} {n : Int}
    (h : ∀ i a, 0 ≤ i → i < n → Wp d (fun _ => .ro) (body i a) m (fun r m' => r = a + g i ∧ m' = m))
    (v : ℝ) : Reduces d n body m v ↔ v = ∑ i ∈ Finset.range n.toNat, g i := by
  have key : ∀ T : RTree, T.Covers n →
      treeVal (fun i a => a + g i) T = ∑ i ∈ Finset.range n.toNat, g i := by
    intro T hT
    rw [treeVal_real (fun _ _ => rfl)]
    have := (hT.map g).sum_eq
    rw [this, List.map_map]
    simp only [Finset.sum, Finset.range_val, Multiset.range, Multiset.map_coe, Multiset.sum_coe]
    rfl
  constructor
  · rintro ⟨T, hT, hv⟩
    rw [eval_eq (f := fun i a => a + g i) h T hT.mem] at hv
    rw [← key T hT]
    exact (Option.some.inj hv).symm
  · rintro rfl
    have hT : (RTree.leaf ((List.range n.toNat).map Int.ofNat)).Covers n := List.Perm.refl _
    exact ⟨_, hT, by rw [eval_eq (f := fun i a => a + g i) h _ hT.mem, key _ hT]⟩

/-! ### The three functors -/

/-- levels in bounds -/
structure LevelsOK (d : Dims) (m : Mem R) : Prop where
  cell : ∀ c, 0 ≤ c → c < d.ncells → m.int .max_level_cell c 0 ≤ d.nlayers
  vertex : ∀ v, 0 ≤ v → v < d.nvertices → m.int .max_level_vertex_bot v 0 ≤ d.nlayers

/-- value of the mass functor -/
def massF (m : Mem R) (st : StateId) (c : Int) (a : R) : R :=
  foldI (m.int .max_level_cell c 0) a fun k a => a + m.real .area_cell 0 c 0 * m.real (.h_cell st) 0 c k

/-- a counted loop does nothing for a negative bound -/
theorem foldI_neg {σ : Type} {n : Int} (hn : n ≤ 0) (s : σ) (f : Int → σ → σ) : foldI n s f = s := by
  have : n.toNat = 0 := by omega
  simp [foldI, this, foldFrom]

theorem wp_forI_read' {σ α : Type} {d : Dims} {perm : Loc → Perm} {m : Mem R}
    {body : Int → σ → Prog R σ} {n : Int} {s : σ}
    (f : Int → σ → σ)
    (hs : ∀ j s, 0 ≤ j → j < n → Wp d perm (body j s) m (fun s' m' => s' = f j s ∧ m' = m))
    {Q : σ → Mem R → Prop} (hq : Q (foldI n s f) m) :
    Wp d perm (forI n s body) m Q := by
  rcases le_or_gt n 0 with hn | hn
  · have h0 : n.toNat = 0 := by omega
    have : forI n s body = (Prog.ret s : Prog R σ) := by simp [forI, h0, forFrom]
    rw [this]
    rw [foldI_neg hn] at hq
    exact wp_pure hq
  · exact wp_forI_read hn.le f hs hq

theorem wp_mass {d : Dims} {m : Mem R} (hl : LevelsOK d m) (st : StateId) {c : Int} (a : R)
    (h0 : 0 ≤ c) (h1 : c < d.ncells) :
    Wp d (fun _ => .ro) (mass_body st c a) m (fun r m' => r = massF m st c a ∧ m' = m) := by
  unfold mass_body
  refine wp_bind (wp_rdI1 ⟨⟨h0, h1⟩, by simp [IArr.ext]⟩ (by simp) ?_)
  refine wp_forI_read' (α := R) (fun k a => a + m.real .area_cell 0 c 0 * m.real (.h_cell st) 0 c k) ?_
    ⟨rfl, rfl⟩
  intro k s k0 k1
  have := hl.cell c h0 h1
  refine wp_bind (wp_rd1 ⟨by simp [RArr.ext], ⟨h0, h1⟩, by simp [RArr.ext]⟩ (by simp) ?_)
  refine wp_bind (wp_rd2 ⟨by simp [RArr.ext], ⟨h0, h1⟩, ⟨k0, by simp only [RArr.ext]; omega⟩⟩
    (by simp) ?_)
  exact wp_pure' ⟨rfl, rfl⟩

/-- kinetic energy of the energy functor -/
def keF (m : Mem R) (st : StateId) (c k : Int) : R :=
  foldI (m.int .nedges_on_cell c 0) (lit 0) (fun j K =>
    K + m.real .dv_edge 0 (m.int .edges_on_cell c j) 0 * m.real .dc_edge 0 (m.int .edges_on_cell c j) 0 *
      m.real (.vn_edge st) 0 (m.int .edges_on_cell c j) k *
      m.real (.vn_edge st) 0 (m.int .edges_on_cell c j) k / lit 4) / m.real .area_cell 0 c 0

/-- value of the energy functor -/
def energyF (grav : R) (m : Mem R) (st : StateId) (c : Int) (a : R) : R :=
  foldI (m.int .max_level_cell c 0) a fun k a => a + m.real .area_cell 0 c 0 *
    (grav * m.real (.h_cell st) 0 c k * m.real (.h_cell st) 0 c k / lit 2 +
      m.real (.h_cell st) 0 c k * keF m st c k)

theorem wp_energy {d : Dims} {m : Mem R} (hc : ConnOK d m) (hl : LevelsOK d m) (grav : R)
    (st : StateId) {c : Int} (a : R) (h0 : 0 ≤ c) (h1 : c < d.ncells) :
    Wp d (fun _ => .ro) (energy_body grav st c a) m
      (fun r m' => r = energyF grav m st c a ∧ m' = m) := by
  unfold energy_body
  refine wp_bind (wp_rdI1 ⟨⟨h0, h1⟩, by simp [IArr.ext]⟩ (by simp) ?_)
  refine wp_forI_read' (α := R) (fun k a => a + m.real .area_cell 0 c 0 *
    (grav * m.real (.h_cell st) 0 c k * m.real (.h_cell st) 0 c k / lit 2 +
      m.real (.h_cell st) 0 c k * keF m st c k)) ?_ ⟨rfl, rfl⟩
  intro k s k0 k1
  have hk : k < d.nlayers := by have := hl.cell c h0 h1; omega
  have hn := hc.neoc c h0 h1
  refine wp_bind (wp_rdI1 ⟨⟨h0, h1⟩, by simp [IArr.ext]⟩ (by simp) ?_)
  refine wp_bind (wp_forI_read' (α := R) (fun j K =>
    K + m.real .dv_edge 0 (m.int .edges_on_cell c j) 0 * m.real .dc_edge 0 (m.int .edges_on_cell c j) 0 *
      m.real (.vn_edge st) 0 (m.int .edges_on_cell c j) k *
      m.real (.vn_edge st) 0 (m.int .edges_on_cell c j) k / lit 4) ?_ ?_)
  · intro j K j0 j1
    have he := hc.eoc c h0 h1 j j0 j1
    refine wp_bind (wp_rdI2 ⟨⟨h0, h1⟩, ⟨j0, by simp only [IArr.ext, maxedges]; omega⟩⟩ (by simp) ?_)
    refine wp_bind (wp_rd1 ⟨by simp [RArr.ext], he, by simp [RArr.ext]⟩ (by simp) ?_)
    refine wp_bind (wp_rd1 ⟨by simp [RArr.ext], he, by simp [RArr.ext]⟩ (by simp) ?_)
    refine wp_bind (wp_rd2 ⟨by simp [RArr.ext], he, ⟨k0, hk⟩⟩ (by simp) ?_)
    refine wp_bind (wp_rd2 ⟨by simp [RArr.ext], he, ⟨k0, hk⟩⟩ (by simp) ?_)
    exact wp_pure' ⟨rfl, rfl⟩
  · refine wp_bind (wp_rd1 ⟨by simp [RArr.ext], ⟨h0, h1⟩, by simp [RArr.ext]⟩ (by simp) ?_)
    refine wp_bind (wp_rd2 ⟨by simp [RArr.ext], ⟨h0, h1⟩, ⟨k0, hk⟩⟩ (by simp) ?_)
    exact wp_pure' ⟨rfl, rfl⟩

/-- circulation of one vertex and layer -/
def cirF (m : Mem R) (st : StateId) (v k : Int) : R :=
  foldI 3 (lit 0) fun j s => s + m.real .dc_edge 0 (m.int .edges_on_vertex v j) 0 *
    m.real .edge_sign_on_vertex 0 v j * m.real (.vn_edge st) 0 (m.int .edges_on_vertex v j) k

/-- value of the circulation functor -/
def circulationF (m : Mem R) (st : StateId) (v : Int) (a : R) : R :=
  foldI (m.int .max_level_vertex_bot v 0) a fun k a =>
    a + (cirF m st v k + m.real .f_vertex 0 v 0 * m.real .area_triangle 0 v 0)

theorem wp_circulation {d : Dims} {m : Mem R} (hc : ConnOK d m) (hl : LevelsOK d m)
    (st : StateId) {v : Int} (a : R) (h0 : 0 ≤ v) (h1 : v < d.nvertices) :
    Wp d (fun _ => .ro) (circulation_body st v a) m
      (fun r m' => r = circulationF m st v a ∧ m' = m) := by
  unfold circulation_body
  refine wp_bind (wp_rdI1 ⟨⟨h0, h1⟩, by simp [IArr.ext]⟩ (by simp) ?_)
  refine wp_forI_read' (α := R) (fun k a =>
    a + (cirF m st v k + m.real .f_vertex 0 v 0 * m.real .area_triangle 0 v 0)) ?_ ⟨rfl, rfl⟩
  intro k s k0 k1
  have hk : k < d.nlayers := by have := hl.vertex v h0 h1; omega
  refine wp_bind (wp_forI_read' (α := R) (fun j s =>
    s + m.real .dc_edge 0 (m.int .edges_on_vertex v j) 0 * m.real .edge_sign_on_vertex 0 v j *
      m.real (.vn_edge st) 0 (m.int .edges_on_vertex v j) k) ?_ ?_)
  · intro j K j0 j1
    have he := hc.eov v h0 h1 j j0 j1
    refine wp_bind (wp_rdI2 ⟨⟨h0, h1⟩, ⟨j0, by simp only [IArr.ext]; omega⟩⟩ (by simp) ?_)
    refine wp_bind (wp_rd1 ⟨by simp [RArr.ext], he, by simp [RArr.ext]⟩ (by simp) ?_)
    refine wp_bind (wp_rd2 ⟨by simp [RArr.ext], ⟨h0, h1⟩, ⟨j0, by simp only [RArr.ext]; omega⟩⟩
      (by simp) ?_)
    refine wp_bind (wp_rd2 ⟨by simp [RArr.ext], he, ⟨k0, hk⟩⟩ (by simp) ?_)
    exact wp_pure' ⟨rfl, rfl⟩
  · refine wp_bind (wp_rd1 ⟨by simp [RArr.ext], ⟨h0, h1⟩, by simp [RArr.ext]⟩ (by simp) ?_)
    refine wp_bind (wp_rd1 ⟨by simp [RArr.ext], ⟨h0, h1⟩, by simp [RArr.ext]⟩ (by simp) ?_)
    exact wp_pure' ⟨rfl, rfl⟩

/-! ### Exact values -/

theorem foldI_shift (n : Int) (a : ℝ) (g : Int → ℝ) :
    foldI n a (fun j s => s + g j) = a + ∑ j ∈ Finset.range n.toNat, g j := by
  have := foldI_add n.toNat a g
  unfold foldI at this ⊢
  rw [Int.toNat_natCast] at this
  exact this

/-- layers `0 .. n-1` -/
abbrev below (n : Int) : Finset ℕ := Finset.range n.toNat

theorem mass_value {d : Dims} {m : Mem ℝ} (hl : LevelsOK d m) (st : StateId) (v : ℝ) :
    IsMassIntegral d st m v ↔ v = ∑ c ∈ below d.ncells, ∑ k ∈ below (m.int .max_level_cell c 0),
      m.real .area_cell 0 c 0 * m.real (.h_cell st) 0 c k := by
  refine reduces_real (g := fun c => ∑ k ∈ below (m.int .max_level_cell c 0),
    m.real .area_cell 0 c 0 * m.real (.h_cell st) 0 c k) ?_ v
  intro c a h0 h1
  refine wp_mono (wp_mass hl st a h0 h1) ?_
  rintro r m' ⟨rfl, rfl⟩
  exact ⟨foldI_shift _ _ _, rfl⟩

theorem energy_value {d : Dims} {m : Mem ℝ} (hc : ConnOK d m) (hl : LevelsOK d m) (grav : ℝ)
    (st : StateId) (v : ℝ) :
    IsEnergyIntegral d grav st m v ↔ v = ∑ c ∈ below d.ncells,
      ∑ k ∈ below (m.int .max_level_cell c 0), m.real .area_cell 0 c 0 *
        (grav * m.real (.h_cell st) 0 c k * m.real (.h_cell st) 0 c k / 2 +
          m.real (.h_cell st) 0 c k * keF m st c k) := by
  refine reduces_real (g := fun c => ∑ k ∈ below (m.int .max_level_cell c 0),
    m.real .area_cell 0 c 0 * (grav * m.real (.h_cell st) 0 c k * m.real (.h_cell st) 0 c k / 2 +
          m.real (.h_cell st) 0 c k * keF m st c k)) ?_ v
  intro c a h0 h1
  refine wp_mono (wp_energy hc hl grav st a h0 h1) ?_
  rintro r m' ⟨rfl, rfl⟩
  refine ⟨?_, rfl⟩
  unfold energyF
  rw [foldI_shift]
  simp

theorem circulation_value {d : Dims} {m : Mem ℝ} (hc : ConnOK d m) (hl : LevelsOK d m)
    (st : StateId) (v : ℝ) :
    IsCirculationIntegral d st m v ↔ v = ∑ i ∈ below d.nvertices,
      ∑ k ∈ below (m.int .max_level_vertex_bot i 0),
        (cirF m st i k + m.real .f_vertex 0 i 0 * m.real .area_triangle 0 i 0) := by
  refine reduces_real (g := fun i => ∑ k ∈ below (m.int .max_level_vertex_bot i 0),
        (cirF m st i k + m.real .f_vertex 0 i 0 * m.real .area_triangle 0 i 0)) ?_ v
  intro c a h0 h1
  refine wp_mono (wp_circulation hc hl st a h0 h1) ?_
  rintro r m' ⟨rfl, rfl⟩
  exact ⟨foldI_shift _ _ _, rfl⟩

/-- The levels of a hexagonal mesh are all the padded layers. -/
theorem levels_of_hex {p : MeshParams} {dc : R} {m : Mem R} (h : IsHexMesh p dc m) :
    LevelsOK p.dims m :=
  ⟨fun c h0 h1 => ((h.levels c).1 ⟨h0, h1⟩).le, fun v h0 h1 => ((h.levels v).2.2 h0 h1).1.le⟩

end Refine
end Omega
