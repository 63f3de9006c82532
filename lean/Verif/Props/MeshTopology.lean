import Verif.Refine.MeshAll

/-!
# C01 – C08, C11: the mesh built by `PlanarHexagonalMesh`

`Built p dc m` says that `m` is a memory in which some complete, arbitrarily interleaved execution of
the mesh constructor, started from an arbitrary memory, has just ended.  All statements below are
about the contents of the tables of such an `m`.
-/

set_option linter.unusedVariables false
set_option linter.unusedSectionVars false

namespace Omega
namespace Props

open Prog Model Refine

variable {R : Type} [Scalar R]

/-- `m` is what some execution of the constructor leaves behind. -/
def Built (p : MeshParams) (dc : R) (m : Mem R) : Prop :=
  ∃ m0, Exec p.dims (compute_mesh_arrays p dc) m0 m

theorem Built.hex {p : MeshParams} (hv : MeshParams.Valid p) {dc : R} {m : Mem R}
    (h : Built p dc m) : IsHexMesh p dc m := by
  obtain ⟨m0, h⟩ := h
  rw [((compute_mesh_arrays_runs hv dc m0).2 m).1 h]
  exact isHexMesh_meshMem dc m0

/-- A mesh used in the examples: 4 columns, 6 rows, 3 layers requested, vector length 2, 1 tracer. -/
def p46 : MeshParams := ⟨4, 6, 3, 1, 2⟩
theorem p46_valid : MeshParams.Valid p46 := by constructor <;> simp [p46]

theorem built_meshMem {p : MeshParams} (hv : MeshParams.Valid p) (dc : R) (m0 : Mem R) :
    Built p dc (meshMem p dc m0) :=
  ⟨m0, ((compute_mesh_arrays_runs hv dc m0).2 _).2 rfl⟩

/-- The hypotheses of the theorems of this file are met: there is a built mesh. -/
example (dc : R) : ∃ m : Mem R, Built p46 dc m :=
  ⟨_, built_meshMem p46_valid dc ⟨fun _ _ _ => 0, fun _ _ _ _ => dc⟩⟩

/-! ### C01 -/

/-- The layer count is the least multiple of the vector length that is at least the requested number,
and the chunks × lanes enumerate the layers exactly once. -/
theorem C01_padding (p : MeshParams) (hvl : 1 ≤ p.vl) (hn : 0 ≤ p.nlayers) :
    (p.vl ∣ p.dims.nlayers ∧ p.nlayers ≤ p.dims.nlayers ∧
      ∀ n, p.vl ∣ n → p.nlayers ≤ n → p.dims.nlayers ≤ n) ∧
    (∀ k, 0 ≤ k ∧ k < p.dims.nlayers ↔
      ∃ kc lane, (0 ≤ kc ∧ kc < p.dims.nlayersVec) ∧ (0 ≤ lane ∧ lane < p.vl) ∧
        k = p.vl * kc + lane) ∧
    (∀ kc lane kc' lane', (0 ≤ lane ∧ lane < p.vl) → (0 ≤ lane' ∧ lane' < p.vl) →
      p.vl * kc + lane = p.vl * kc' + lane' → kc = kc' ∧ lane = lane') := by
  have hq : (0 : ℚ) < (p.vl : ℚ) := by exact_mod_cast hvl
  have hle : ∀ z : Int, ceilDiv p.nlayers p.vl ≤ z ↔ p.nlayers ≤ z * p.vl := by
    intro z
    unfold ceilDiv
    rw [Int.ceil_le, div_le_iff₀ hq]
    exact_mod_cast Iff.rfl
  have h0 : 0 ≤ ceilDiv p.nlayers p.vl := by
    unfold ceilDiv
    apply Int.ceil_nonneg
    apply div_nonneg _ hq.le
    exact_mod_cast hn
  refine ⟨⟨⟨ceilDiv p.nlayers p.vl, by simp [MeshParams.dims, mul_comm]⟩,
    (hle _).1 le_rfl, ?_⟩, ?_, ?_⟩
  · rintro n ⟨z, rfl⟩ h
    have := (hle z).2 (by rw [mul_comm]; exact h)
    simp only [MeshParams.dims]
    rw [mul_comm]
    exact mul_le_mul_of_nonneg_left this (by omega)
  · intro k
    simp only [MeshParams.dims]
    constructor
    · rintro ⟨hk0, hk1⟩
      refine ⟨k / p.vl, k % p.vl, ⟨Int.ediv_nonneg hk0 (by omega),
        Int.ediv_lt_of_lt_mul (by omega) hk1⟩,
        ⟨Int.emod_nonneg _ (by omega), Int.emod_lt_of_pos _ (by omega)⟩, ?_⟩
      exact (Int.mul_ediv_add_emod k p.vl).symm
    · rintro ⟨kc, lane, ⟨hk0, hk1⟩, ⟨hl0, hl1⟩, rfl⟩
      have h1 : 0 ≤ p.vl * kc := mul_nonneg (by omega) hk0
      have h2 : p.vl * (kc + 1) ≤ p.vl * ceilDiv p.nlayers p.vl :=
        mul_le_mul_of_nonneg_left (by omega) (by omega)
      rw [mul_comm (ceilDiv _ _)]
      constructor <;> linarith
  · intro kc lane kc' lane' h1 h2 h
    have e : ∀ a b : Int, 0 ≤ b → b < p.vl → (p.vl * a + b) / p.vl = a := by
      intro a b hb hb'
      rw [Int.add_comm, Int.add_mul_ediv_left _ _ (by omega), Int.ediv_eq_zero_of_lt hb hb', zero_add]
    have hk : kc = kc' := by rw [← e kc lane h1.1 h1.2, h, e kc' lane' h2.1 h2.2]
    subst hk
    exact ⟨rfl, by linarith⟩

example : (p46.dims.nlayers = 4 ∧ p46.dims.nlayersVec = 2) ∧ (1 ≤ p46.vl ∧ 0 ≤ p46.nlayers) := by
  have h : ⌈(3 : ℚ) / 2⌉ = 2 := by rw [Int.ceil_eq_iff]; norm_num
  simp [MeshParams.dims, p46, ceilDiv, h]

/-! ### C02, C03 -/

/-- The host arithmetic of the constructor does not overflow. -/
theorem C02_host_arithmetic {p : MeshParams} (hv : MeshParams.Valid p)
    (hl : p.dims.nlayers ≤ 2147483647) : hostDims p = (Prog.ret p.dims : Prog R Dims) := by
  have hfit := hv.fits
  have hpos : 1 ≤ p.nx * p.ny := by
    have := mul_le_mul hv.nx_pos hv.ny_pos (by norm_num) (by linarith [hv.nx_pos])
    linarith
  obtain ⟨⟨-, h2, -⟩, -, -⟩ := C01_padding p hv.vl_pos hv.nlayers_nonneg
  have hn0 : 0 ≤ p.dims.nlayers := le_trans hv.nlayers_nonneg h2
  have hc0 : 0 ≤ ceilDiv p.nlayers p.vl := by
    by_contra h
    have : ceilDiv p.nlayers p.vl * p.vl < 0 := mul_neg_of_neg_of_pos (by omega) (by
      have := hv.vl_pos; omega)
    simp only [MeshParams.dims] at hn0
    omega
  have hc1 : ceilDiv p.nlayers p.vl ≤ p.dims.nlayers := by
    simp only [MeshParams.dims]
    exact le_mul_of_one_le_right hc0 hv.vl_pos
  have i1 : InInt (ceilDiv p.nlayers p.vl * p.vl) := by
    simp only [MeshParams.dims] at hn0 hl; constructor <;> omega
  have i2 : InInt (ceilDiv p.nlayers p.vl) := by constructor <;> omega
  have i3 : InInt (p.nx * p.ny) := by constructor <;> omega
  have i4 : InInt (3 * (p.nx * p.ny)) := by constructor <;> omega
  have i5 : InInt (2 * (p.nx * p.ny)) := by constructor <;> omega
  simp only [hostDims, imul, int32, i1, i2, i3, i4, i5, if_true, ret_bind]
  rfl

/-- Constructing a mesh is memory safe and free of signed overflow under every interleaving, and every
id stored in a table is valid. -/
theorem C02_mesh_safe {p : MeshParams} (hv : MeshParams.Valid p) (dc : R) :
    (∀ m0, Safe p.dims (compute_mesh_arrays p dc) m0) ∧
    ∀ m, Built p dc m →
      (∀ c, 0 ≤ c → c < p.dims.ncells → ∀ j, 0 ≤ j → j < 6 →
        (0 ≤ m.int .cells_on_cell c j ∧ m.int .cells_on_cell c j < p.dims.ncells) ∧
        (0 ≤ m.int .edges_on_cell c j ∧ m.int .edges_on_cell c j < p.dims.nedges) ∧
        (0 ≤ m.int .vertices_on_cell c j ∧ m.int .vertices_on_cell c j < p.dims.nvertices) ∧
        (0 ≤ m.int .kite_index_on_cell c j ∧ m.int .kite_index_on_cell c j < 3)) ∧
      (∀ e, 0 ≤ e → e < p.dims.nedges →
        (∀ s, 0 ≤ s → s < 2 →
          (0 ≤ m.int .cells_on_edge e s ∧ m.int .cells_on_edge e s < p.dims.ncells) ∧
          (0 ≤ m.int .vertices_on_edge e s ∧ m.int .vertices_on_edge e s < p.dims.nvertices)) ∧
        m.int .nedges_on_edge e 0 ≤ 2 * maxedges ∧
        (∀ s, 0 ≤ s → s < m.int .nedges_on_edge e 0 →
          0 ≤ m.int .edges_on_edge e s ∧ m.int .edges_on_edge e s < p.dims.nedges)) ∧
      (∀ v, 0 ≤ v → v < p.dims.nvertices → ∀ s, 0 ≤ s → s < 3 →
        (0 ≤ m.int .cells_on_vertex v s ∧ m.int .cells_on_vertex v s < p.dims.ncells) ∧
        (0 ≤ m.int .edges_on_vertex v s ∧ m.int .edges_on_vertex v s < p.dims.nedges)) := by
  refine ⟨fun m0 => (compute_mesh_arrays_runs hv dc m0).1, ?_⟩
  intro m hb
  have hm := hb.hex hv
  have hnx := hv.nx_pos
  simp only [MeshParams.dims]
  refine ⟨?_, ?_, ?_⟩
  · intro c hc hc' j hj hj'
    have hC : Hex.IsCell p.nx p.ny c := ⟨hc, hc'⟩
    rw [hm.coc c hC j hj hj', hm.eoc c hC j hj hj', hm.voc c hC j hj hj', hm.kite c hC j hj hj']
    refine ⟨Hex.nb_isCell hnx hC, Hex.E_range hnx hC j hj hj', Hex.V_range hnx hC j, ?_⟩
    unfold kiteIdx
    split_ifs <;> omega
  · intro e he he'
    refine ⟨?_, ?_, ?_⟩
    · intro s hs hs'
      rw [hm.coe e he he' s hs hs', hm.voe e he he' s hs hs']
      refine ⟨Hex.coe_isCell hnx he he', ?_⟩
      have hC := Hex.isCell_edge he he'
      have := Hex.voe_E (nx := p.nx) (ny := p.ny) (c := e / 3) (a := e % 3) (s := s) (by omega)
        (by omega) (by omega)
      rw [← Hex.eq_E_lo] at this
      rw [this]
      exact Hex.V_range hnx hC _
    · rw [hm.neoe e he he']; norm_num [maxedges]
    · intro s hs hs'
      rw [hm.neoe e he he'] at hs'
      rw [hm.eoe e he he' s hs hs']
      have hC := Hex.isCell_edge he he'
      have hc0 := Hex.coe_isCell hnx he he' (s := 0)
      unfold Hex.eoe
      split_ifs
      · exact Hex.E_range hnx hc0 _ (by omega) (by omega)
      · exact Hex.E_range hnx hC _ (by omega) (by omega)
  · intro v h0 h1 s hs hs'
    rw [hm.cov v h0 h1 s hs hs', hm.eov v h0 h1 s hs hs']
    exact ⟨Hex.cov_isCell hnx h0 h1, eov_range hnx h0 h1⟩

/-- The table entries that the model reads: every entry of every mesh table inside its extents, except
the two unused tail slots of the edge neighbourhood tables (`nedges_on_edge` is 10, the extent 12). -/
def MeshReadI (d : Dims) (a : IArr) (i j : Int) : Prop :=
  a.InB d i j ∧ (a = .edges_on_edge → j < 10)
/-- Real table entries that the model reads. -/
def MeshReadR (d : Dims) (a : RArr) (l i k : Int) : Prop :=
  a.InB d l i k ∧ isMeshR a = true ∧ (a = .weights_on_edge → k < 10)

/-- The construction is race free under every interleaving, all interleavings agree, at least one
terminates, and the result does not depend on what memory held before: two complete executions from
any two memories agree on every entry the model reads. -/
theorem C03_mesh_deterministic {p : MeshParams} (hv : MeshParams.Valid p) (dc : R) (m0 m0' : Mem R) :
    Safe p.dims (compute_mesh_arrays p dc) m0 ∧
    (∃! m, Exec p.dims (compute_mesh_arrays p dc) m0 m) ∧
    ∀ m m', Exec p.dims (compute_mesh_arrays p dc) m0 m →
      Exec p.dims (compute_mesh_arrays p dc) m0' m' →
      (∀ a i j, MeshReadI p.dims a i j → m.int a i j = m'.int a i j) ∧
      (∀ a l i k, MeshReadR p.dims a l i k → m.real a l i k = m'.real a l i k) := by
  have hr := compute_mesh_arrays_runs hv dc m0
  refine ⟨hr.1, ⟨_, (hr.2 _).2 rfl, fun y hy => (hr.2 y).1 hy⟩, ?_⟩
  intro m m' h h'
  have A : IsHexMesh p dc m := Built.hex hv ⟨m0, h⟩
  have B : IsHexMesh p dc m' := Built.hex hv ⟨m0', h'⟩
  constructor
  · rintro a i j ⟨hin, h10⟩
    cases a <;> simp only [IArr.InB, IArr.ext, MeshParams.dims, maxedges, reduceCtorEq, false_imp_iff,
      true_imp_iff] at hin h10
    all_goals obtain ⟨⟨_, _⟩, ⟨_, _⟩⟩ := hin
    all_goals first
      | (have : j = 0 := by omega
         subst this)
      | skip
    case nedges_on_cell => rw [A.neoc i ⟨by omega, by omega⟩, B.neoc i ⟨by omega, by omega⟩]
    case edges_on_cell => rw [A.eoc i ⟨by omega, by omega⟩ j (by omega) (by omega),
        B.eoc i ⟨by omega, by omega⟩ j (by omega) (by omega)]
    case cells_on_cell => rw [A.coc i ⟨by omega, by omega⟩ j (by omega) (by omega),
        B.coc i ⟨by omega, by omega⟩ j (by omega) (by omega)]
    case vertices_on_cell => rw [A.voc i ⟨by omega, by omega⟩ j (by omega) (by omega),
        B.voc i ⟨by omega, by omega⟩ j (by omega) (by omega)]
    case kite_index_on_cell => rw [A.kite i ⟨by omega, by omega⟩ j (by omega) (by omega),
        B.kite i ⟨by omega, by omega⟩ j (by omega) (by omega)]
    case max_level_cell => rw [(A.levels i).1 ⟨by omega, by omega⟩,
        (B.levels i).1 ⟨by omega, by omega⟩]
    case nedges_on_edge => rw [A.neoe i (by omega) (by omega), B.neoe i (by omega) (by omega)]
    case edges_on_edge => rw [A.eoe i (by omega) (by omega) j (by omega) (by omega),
        B.eoe i (by omega) (by omega) j (by omega) (by omega)]
    case cells_on_edge => rw [A.coe i (by omega) (by omega) j (by omega) (by omega),
        B.coe i (by omega) (by omega) j (by omega) (by omega)]
    case vertices_on_edge => rw [A.voe i (by omega) (by omega) j (by omega) (by omega),
        B.voe i (by omega) (by omega) j (by omega) (by omega)]
    case edges_on_vertex => rw [A.eov i (by omega) (by omega) j (by omega) (by omega),
        B.eov i (by omega) (by omega) j (by omega) (by omega)]
    case cells_on_vertex => rw [A.cov i (by omega) (by omega) j (by omega) (by omega),
        B.cov i (by omega) (by omega) j (by omega) (by omega)]
    case max_level_edge_bot => rw [((A.levels i).2.1 (by omega) (by omega)).1,
        ((B.levels i).2.1 (by omega) (by omega)).1]
    case max_level_edge_top => rw [((A.levels i).2.1 (by omega) (by omega)).2,
        ((B.levels i).2.1 (by omega) (by omega)).2]
    case max_level_vertex_bot => rw [((A.levels i).2.2 (by omega) (by omega)).1,
        ((B.levels i).2.2 (by omega) (by omega)).1]
    case max_level_vertex_top => rw [((A.levels i).2.2 (by omega) (by omega)).2,
        ((B.levels i).2.2 (by omega) (by omega)).2]
  · rintro a l i k ⟨hin, hM, h10⟩
    cases a <;> simp only [RArr.InB, RArr.ext, MeshParams.dims, maxedges, reduceCtorEq,
      false_imp_iff, true_imp_iff, isMeshR, Bool.false_eq_true] at hin hM h10
    all_goals obtain ⟨⟨_, _⟩, ⟨_, _⟩, ⟨_, _⟩⟩ := hin
    all_goals
      have hl : l = 0 := by omega
      subst hl
    all_goals first
      | (have : k = 0 := by omega
         subst this)
      | skip
    case area_cell => rw [A.area_cell i ⟨by omega, by omega⟩, B.area_cell i ⟨by omega, by omega⟩]
    case x_cell => rw [A.x_cell i ⟨by omega, by omega⟩, B.x_cell i ⟨by omega, by omega⟩]
    case y_cell => rw [A.y_cell i ⟨by omega, by omega⟩, B.y_cell i ⟨by omega, by omega⟩]
    case edge_sign_on_cell => rw [A.sign_cell i ⟨by omega, by omega⟩ k (by omega) (by omega),
        B.sign_cell i ⟨by omega, by omega⟩ k (by omega) (by omega)]
    case weights_on_edge => rw [A.woe i (by omega) (by omega) k (by omega) (by omega),
        B.woe i (by omega) (by omega) k (by omega) (by omega)]
    case kiteareas_on_vertex => rw [A.kitearea i (by omega) (by omega) k (by omega) (by omega),
        B.kitearea i (by omega) (by omega) k (by omega) (by omega)]
    case edge_sign_on_vertex => rw [A.sign_vertex i (by omega) (by omega) k (by omega) (by omega),
        B.sign_vertex i (by omega) (by omega) k (by omega) (by omega)]
    case edge_mask => rw [A.mask i (by omega) (by omega) k (by omega) (by assumption),
        B.mask i (by omega) (by omega) k (by omega) (by assumption)]
    case mesh_scaling_del2 => rw [A.del2 i (by omega) (by omega), B.del2 i (by omega) (by omega)]
    case mesh_scaling_del4 => rw [A.del4 i (by omega) (by omega), B.del4 i (by omega) (by omega)]
    case dc_edge => rw [A.dc_edge i (by omega) (by omega), B.dc_edge i (by omega) (by omega)]
    case dv_edge => rw [A.dv_edge i (by omega) (by omega), B.dv_edge i (by omega) (by omega)]
    case angle_edge => rw [A.angle_edge i (by omega) (by omega),
        B.angle_edge i (by omega) (by omega)]
    case x_edge => rw [A.x_edge i (by omega) (by omega), B.x_edge i (by omega) (by omega)]
    case y_edge => rw [A.y_edge i (by omega) (by omega), B.y_edge i (by omega) (by omega)]
    case area_triangle => rw [A.area_triangle i (by omega) (by omega),
        B.area_triangle i (by omega) (by omega)]
    case x_vertex => rw [A.x_vertex i (by omega) (by omega), B.x_vertex i (by omega) (by omega)]
    case y_vertex => rw [A.y_vertex i (by omega) (by omega), B.y_vertex i (by omega) (by omega)]
    case z_cell => rw [((A.flat i).1 ⟨by omega, by omega⟩).1, ((B.flat i).1 ⟨by omega, by omega⟩).1]
    case lat_cell => rw [((A.flat i).1 ⟨by omega, by omega⟩).2.1,
        ((B.flat i).1 ⟨by omega, by omega⟩).2.1]
    case lon_cell => rw [((A.flat i).1 ⟨by omega, by omega⟩).2.2,
        ((B.flat i).1 ⟨by omega, by omega⟩).2.2]
    case z_edge => rw [((A.flat i).2.1 (by omega) (by omega)).1,
        ((B.flat i).2.1 (by omega) (by omega)).1]
    case lat_edge => rw [((A.flat i).2.1 (by omega) (by omega)).2.1,
        ((B.flat i).2.1 (by omega) (by omega)).2.1]
    case lon_edge => rw [((A.flat i).2.1 (by omega) (by omega)).2.2,
        ((B.flat i).2.1 (by omega) (by omega)).2.2]
    case z_vertex => rw [((A.flat i).2.2 (by omega) (by omega)).1,
        ((B.flat i).2.2 (by omega) (by omega)).1]
    case lat_vertex => rw [((A.flat i).2.2 (by omega) (by omega)).2.1,
        ((B.flat i).2.2 (by omega) (by omega)).2.1]
    case lon_vertex => rw [((A.flat i).2.2 (by omega) (by omega)).2.2,
        ((B.flat i).2.2 (by omega) (by omega)).2.2]

/-- Different prior contents, same hypotheses: the theorem compares runs from two memories. -/
example : ∃ m m' : Mem ℝ, m ≠ m' ∧
    (∃ x, Exec p46.dims (compute_mesh_arrays p46 (1 : ℝ)) m x) ∧
    (∃ x, Exec p46.dims (compute_mesh_arrays p46 (1 : ℝ)) m' x) ∧
    MeshReadI p46.dims .edges_on_cell 23 5 ∧ MeshReadR p46.dims .weights_on_edge 0 71 9 := by
  refine ⟨⟨fun _ _ _ => 0, fun _ _ _ _ => 0⟩, ⟨fun _ _ _ => 1, fun _ _ _ _ => 0⟩, ?_,
    ⟨_, (compute_mesh_arrays_runs p46_valid 1 _).exec⟩,
    ⟨_, (compute_mesh_arrays_runs p46_valid 1 _).exec⟩, ?_, ?_⟩
  · intro h
    have := congrArg (fun m => m.int .edges_on_cell 0 0) h
    simp at this
  · simp [MeshReadI, IArr.InB, IArr.ext, MeshParams.dims, p46, maxedges]
  · simp [MeshReadR, RArr.InB, RArr.ext, MeshParams.dims, p46, maxedges, isMeshR]

/-! ### C04 -/

/-- Every edge is a side of exactly two cell slots: one among the first three sides of the cell
`cells_on_edge(e, 1)`, one among the last three sides of the cell `cells_on_edge(e, 0)`. -/
theorem C04_edge_in_two_slots {p : MeshParams} (hv : MeshParams.Valid p) {dc : R} {m : Mem R}
    (hb : Built p dc m) (e : Int) (he : 0 ≤ e) (he' : e < p.dims.nedges) :
    (∃ j, (0 ≤ j ∧ j < 3) ∧ m.int .edges_on_cell (m.int .cells_on_edge e 1) j = e ∧
      ∀ c j', (0 ≤ c ∧ c < p.dims.ncells) → (0 ≤ j' ∧ j' < 3) → m.int .edges_on_cell c j' = e →
        c = m.int .cells_on_edge e 1 ∧ j' = j) ∧
    (∃ j, (3 ≤ j ∧ j < 6) ∧ m.int .edges_on_cell (m.int .cells_on_edge e 0) j = e ∧
      ∀ c j', (0 ≤ c ∧ c < p.dims.ncells) → (3 ≤ j' ∧ j' < 6) → m.int .edges_on_cell c j' = e →
        c = m.int .cells_on_edge e 0 ∧ j' = j) := by
  have hm := hb.hex hv
  have hnx := hv.nx_pos
  simp only [MeshParams.dims] at he' ⊢
  have hC := Hex.isCell_edge he he'
  have c0 := Hex.coe_isCell hnx he he' (s := 0)
  have c1 := Hex.coe_isCell hnx he he' (s := 1)
  rw [hm.coe e he he' 0 (by omega) (by omega), hm.coe e he he' 1 (by omega) (by omega)]
  constructor
  · refine ⟨e % 3, by omega, ?_, ?_⟩
    · rw [hm.eoc _ c1 _ (by omega) (by omega)]
      show Hex.E _ _ (e / 3) _ = e
      exact (Hex.eq_E_lo e).symm
    · rintro c j hc ⟨h0, h3⟩ h
      rw [hm.eoc c hc j h0 (by omega)] at h
      constructor
      · rw [← h, Hex.coe_E_lo h0 h3]
      · rw [← h, Hex.E_mod h0 (by omega)]; omega
  · refine ⟨e % 3 + 3, by omega, ?_, ?_⟩
    · rw [hm.eoc _ c0 _ (by omega) (by omega)]
      exact (Hex.eq_E_hi hnx hC).symm
    · rintro c j hc ⟨h3, h6⟩ h
      rw [hm.eoc c hc j (by omega) h6] at h
      constructor
      · rw [← h, Hex.coe_E_hi hnx hc h3 h6]
      · rw [← h, Hex.E_mod (by omega) h6]; omega

/-- An edge on the seam of the example mesh: edge 0 is side 0 of cell 0 and side 3 of cell 3. -/
example (dc : R) (m : Mem R) (hb : Built p46 dc m) :
    m.int .edges_on_cell 0 0 = 0 ∧ m.int .edges_on_cell 3 3 = 0 ∧ (0 : Int) < p46.dims.nedges := by
  have hm := hb.hex p46_valid
  refine ⟨?_, ?_, by simp [MeshParams.dims, p46]⟩
  · rw [hm.eoc 0 (by simp [Hex.IsCell, p46]) 0 (by norm_num) (by norm_num)]; rfl
  · rw [hm.eoc 3 (by simp [Hex.IsCell, p46]) 3 (by norm_num) (by norm_num)]; rfl

/-! ### C05 -/

/-- With at least two rows and two columns: the two cells of an edge differ, the sign of the edge is +1
in every slot of the first cell that holds it, and −1 in every slot of the second. -/
theorem C05_signs_opposite {p : MeshParams} (hv : MeshParams.Valid p) (hnx : 2 ≤ p.nx)
    (hny : 2 ≤ p.ny) {dc : R} {m : Mem R} (hb : Built p dc m) (e : Int) (he : 0 ≤ e)
    (he' : e < p.dims.nedges) :
    m.int .cells_on_edge e 0 ≠ m.int .cells_on_edge e 1 ∧
    (∀ j, 0 ≤ j → j < 6 → m.int .edges_on_cell (m.int .cells_on_edge e 0) j = e →
      m.real .edge_sign_on_cell 0 (m.int .cells_on_edge e 0) j = lit 1) ∧
    (∀ j, 0 ≤ j → j < 6 → m.int .edges_on_cell (m.int .cells_on_edge e 1) j = e →
      m.real .edge_sign_on_cell 0 (m.int .cells_on_edge e 1) j = lit (-1)) := by
  have hm := hb.hex hv
  simp only [MeshParams.dims] at he' ⊢
  have hC := Hex.isCell_edge he he'
  have c0 := Hex.coe_isCell hv.nx_pos he he' (s := 0)
  have c1 := Hex.coe_isCell hv.nx_pos he he' (s := 1)
  rw [hm.coe e he he' 0 (by omega) (by omega), hm.coe e he he' 1 (by omega) (by omega)]
  have hne : Hex.coe p.nx p.ny e 0 ≠ Hex.coe p.nx p.ny e 1 := by
    show Hex.inv _ _ _ (e / 3) ≠ e / 3
    exact Hex.inv_ne hnx hny hC _
  refine ⟨hne, ?_, ?_⟩
  · intro j h0 h6 h
    rw [hm.eoc _ c0 j h0 h6] at h
    rw [hm.sign_cell _ c0 j h0 h6, h, if_pos rfl]
  · intro j h0 h6 h
    rw [hm.eoc _ c1 j h0 h6] at h
    rw [hm.sign_cell _ c1 j h0 h6, h, if_neg hne]

/-- With one column or one row the two slots of some edge carry the same sign +1: the signed sum over
the two slots of that edge is not zero. -/
theorem C05_signs_fail_thin {p : MeshParams} (hv : MeshParams.Valid p)
    (hthin : p.nx = 1 ∨ p.ny = 1) {dc : R} {m : Mem R} (hb : Built p dc m) :
    ∃ e c j c' j', (0 ≤ e ∧ e < p.dims.nedges) ∧ (0 ≤ c ∧ c < p.dims.ncells) ∧
      (0 ≤ c' ∧ c' < p.dims.ncells) ∧ (0 ≤ j ∧ j < 6) ∧ (0 ≤ j' ∧ j' < 6) ∧ j ≠ j' ∧
      m.int .edges_on_cell c j = e ∧ m.int .edges_on_cell c' j' = e ∧
      m.real .edge_sign_on_cell 0 c j = lit 1 ∧ m.real .edge_sign_on_cell 0 c' j' = lit 1 := by
  have hm := hb.hex hv
  have hpos : 1 ≤ p.nx * p.ny := by
    have := mul_le_mul hv.nx_pos hv.ny_pos (by norm_num) (by linarith [hv.nx_pos])
    linarith
  have h0C : Hex.IsCell p.nx p.ny 0 := ⟨le_rfl, by omega⟩
  have key : ∀ a : Int, 0 ≤ a → a < 3 → Hex.inv p.nx p.ny (a + 3) 0 = 0 →
      ∃ e c j c' j', (0 ≤ e ∧ e < p.dims.nedges) ∧ (0 ≤ c ∧ c < p.dims.ncells) ∧
      (0 ≤ c' ∧ c' < p.dims.ncells) ∧ (0 ≤ j ∧ j < 6) ∧ (0 ≤ j' ∧ j' < 6) ∧ j ≠ j' ∧
      m.int .edges_on_cell c j = e ∧ m.int .edges_on_cell c' j' = e ∧
      m.real .edge_sign_on_cell 0 c j = lit 1 ∧ m.real .edge_sign_on_cell 0 c' j' = lit 1 := by
    intro a ha ha3 hinv
    have hnb : Hex.nb p.nx p.ny (a + 3) 0 = 0 := by
      conv_lhs => rw [← hinv]
      exact Hex.nb_inv hv.nx_pos h0C
    have hE1 : Hex.E p.nx p.ny 0 a = a := by unfold Hex.E; rw [if_pos ha3]; ring
    have hE2 : Hex.E p.nx p.ny 0 (a + 3) = a := by
      unfold Hex.E; rw [if_neg (by omega), hnb]; ring
    have hcoe : Hex.coe p.nx p.ny a 0 = 0 := by
      show Hex.inv p.nx p.ny (a % 3 + 3) (a / 3) = 0
      rw [show a % 3 = a by omega, show a / 3 = 0 by omega, hinv]
    refine ⟨a, 0, a, 0, a + 3, ⟨ha, ?_⟩, h0C, h0C, ⟨ha, by omega⟩, ⟨by omega, by omega⟩, by omega,
      ?_, ?_, ?_, ?_⟩
    · simp only [MeshParams.dims]; omega
    · rw [hm.eoc 0 h0C a ha (by omega), hE1]
    · rw [hm.eoc 0 h0C _ (by omega) (by omega), hE2]
    · rw [hm.sign_cell 0 h0C a ha (by omega), hE1, hcoe, if_pos rfl]
    · rw [hm.sign_cell 0 h0C _ (by omega) (by omega), hE2, hcoe, if_pos rfl]
  rcases hthin with h | h
  · apply key 0 (by omega) (by omega)
    simp [Hex.inv, Hex.inI, Hex.inR, Hex.mx, Hex.cid, Hex.col, Hex.row, h]
  · apply key 1 (by omega) (by omega)
    simp [Hex.inv, Hex.inI, Hex.inR, Hex.mx, Hex.cid, Hex.col, Hex.row, h]

example : MeshParams.Valid ⟨1, 4, 1, 0, 1⟩ ∧ MeshParams.Valid ⟨4, 1, 1, 0, 1⟩ := by
  constructor <;> constructor <;> simp
example : 2 ≤ p46.nx ∧ 2 ≤ p46.ny := by simp [p46]

/-! ### C06 -/

/-- With an even number of rows the neighbour table is symmetric: neighbour `j`'s neighbour `j+3` is
the cell itself, and neighbour `j` shares side `j`. -/
theorem C06_neighbours_symmetric {p : MeshParams} (hv : MeshParams.Valid p) (hny : p.ny % 2 = 0)
    {dc : R} {m : Mem R} (hb : Built p dc m) (c : Int) (hc : 0 ≤ c) (hc' : c < p.dims.ncells)
    (j : Int) (h0 : 0 ≤ j) (h6 : j < 6) :
    m.int .cells_on_cell (m.int .cells_on_cell c j) ((j + 3) % 6) = c ∧
    (m.int .cells_on_edge (m.int .edges_on_cell c j) 0 = c ∧
        m.int .cells_on_edge (m.int .edges_on_cell c j) 1 = m.int .cells_on_cell c j ∨
      m.int .cells_on_edge (m.int .edges_on_cell c j) 1 = c ∧
        m.int .cells_on_edge (m.int .edges_on_cell c j) 0 = m.int .cells_on_cell c j) := by
  have hm := hb.hex hv
  have hnx := hv.nx_pos
  have hC : Hex.IsCell p.nx p.ny c := ⟨hc, hc'⟩
  have hE := Hex.E_range hnx hC j h0 h6
  rw [hm.coc c hC j h0 h6, hm.eoc c hC j h0 h6,
    hm.coc _ (Hex.nb_isCell hnx hC) _ (by omega) (by omega),
    hm.coe _ hE.1 hE.2 0 (by omega) (by omega), hm.coe _ hE.1 hE.2 1 (by omega) (by omega)]
  refine ⟨Hex.nb_nb hnx hny hC h0 h6, ?_⟩
  by_cases h3 : j < 3
  · refine Or.inr ⟨Hex.coe_E_lo h0 h3, ?_⟩
    show Hex.inv _ _ (Hex.E p.nx p.ny c j % 3 + 3) (Hex.E p.nx p.ny c j / 3) = _
    rw [Hex.E_mod h0 h6, Hex.E_div_lo h0 h3, Hex.inv_eq_nb hnx hny hC (by omega) (by omega)]
    congr 1
    omega
  · refine Or.inl ⟨Hex.coe_E_hi hnx hC (by omega) h6, ?_⟩
    show Hex.E p.nx p.ny c j / 3 = _
    exact Hex.E_div_hi (by omega) h6

/-- With an odd number of rows, at least three, and at least two columns both statements fail at the
seam between the last and the first row. -/
theorem C06_neighbours_fail_odd {p : MeshParams} (hv : MeshParams.Valid p) (hnx : 2 ≤ p.nx)
    (hny : 3 ≤ p.ny) (hodd : p.ny % 2 = 1) {dc : R} {m : Mem R} (hb : Built p dc m) :
    ∃ c j, (0 ≤ c ∧ c < p.dims.ncells) ∧ (0 ≤ j ∧ j < 6) ∧
      m.int .cells_on_cell (m.int .cells_on_cell c j) ((j + 3) % 6) ≠ c ∧
      m.int .cells_on_edge (m.int .edges_on_cell c j) 1 = c ∧
      m.int .cells_on_edge (m.int .edges_on_cell c j) 0 ≠ m.int .cells_on_cell c j := by
  have hm := hb.hex hv
  have hpos : 1 ≤ p.nx * p.ny := by
    have := mul_le_mul hv.nx_pos hv.ny_pos (by norm_num) (by linarith [hv.nx_pos])
    linarith
  have hC : Hex.IsCell p.nx p.ny 0 := ⟨le_rfl, by omega⟩
  have hE := Hex.E_range hv.nx_pos hC 1 (by norm_num) (by norm_num)
  have h00 : (0 : Int) = Hex.cid p.nx 0 0 := by simp [Hex.cid]
  have hn1 : Hex.nb p.nx p.ny 1 0 = Hex.cid p.nx (p.nx - 1) (p.ny - 1) := by
    conv_lhs => rw [h00, Hex.nb_cid le_rfl (by omega)]
    simp [Hex.nbI, Hex.nbR, Hex.mx]
  have hn4 : Hex.nb p.nx p.ny 4 (Hex.cid p.nx (p.nx - 1) (p.ny - 1)) = Hex.cid p.nx (p.nx - 1) 0 := by
    rw [Hex.nb_cid (by omega) (by omega)]
    have : (p.ny - 1) % 2 = 0 := by omega
    simp [Hex.nbI, Hex.nbR, Hex.px, this]
  have hi4 : Hex.inv p.nx p.ny 4 0 = Hex.cid p.nx 0 (p.ny - 1) := by
    conv_lhs => rw [h00, Hex.inv_cid le_rfl (by omega)]
    have : (p.ny - 1) % 2 = 0 := by omega
    simp [Hex.inI, Hex.inR, Hex.mx, this]
  refine ⟨0, 1, hC, by omega, ?_, ?_, ?_⟩
  · rw [hm.coc 0 hC 1 (by omega) (by omega), hm.coc _ (Hex.nb_isCell hv.nx_pos hC) _ (by omega)
      (by omega)]
    show Hex.nb p.nx p.ny 4 (Hex.nb p.nx p.ny 1 0) ≠ 0
    rw [hn1, hn4]
    simp only [Hex.cid]; omega
  · rw [hm.eoc 0 hC 1 (by omega) (by omega), hm.coe _ hE.1 hE.2 1 (by omega) (by omega),
      Hex.coe_E_lo (by omega) (by omega)]
  · rw [hm.eoc 0 hC 1 (by omega) (by omega), hm.coe _ hE.1 hE.2 0 (by omega) (by omega),
      hm.coc 0 hC 1 (by omega) (by omega), hn1]
    show Hex.inv p.nx p.ny (Hex.E p.nx p.ny 0 1 % 3 + 3) (Hex.E p.nx p.ny 0 1 / 3) ≠ _
    rw [Hex.E_mod (by omega) (by omega), Hex.E_div_lo (by omega) (by omega)]
    show Hex.inv p.nx p.ny 4 0 ≠ _
    rw [hi4]
    intro h
    have := (Hex.cid_inj le_rfl (by omega) (by omega) (by omega) h).1
    omega

/-- `test/double_vortex.cpp` builds such a mesh. -/
example : MeshParams.Valid ⟨29, 29, 1, 0, 1⟩ ∧ (3 : Int) ≤ 29 ∧ (29 : Int) % 2 = 1 := by
  refine ⟨?_, by norm_num⟩
  constructor <;> simp

/-! ### C07 -/

/-- Vertex incidence is consistent in both directions. -/
theorem C07_vertex_incidence {p : MeshParams} (hv : MeshParams.Valid p) {dc : R} {m : Mem R}
    (hb : Built p dc m) :
    (∀ v, 0 ≤ v → v < p.dims.nvertices → ∀ s, 0 ≤ s → s < 3 →
      ∃ t, (t = 0 ∨ t = 1) ∧ m.int .vertices_on_edge (m.int .edges_on_vertex v s) t = v) ∧
    (∀ e, 0 ≤ e → e < p.dims.nedges →
      m.int .vertices_on_edge e 0 ≠ m.int .vertices_on_edge e 1 ∧
      (∀ t, t = 0 ∨ t = 1 → ∃ s, (0 ≤ s ∧ s < 3) ∧
        m.int .edges_on_vertex (m.int .vertices_on_edge e t) s = e ∧
        ∀ s', 0 ≤ s' → s' < 3 → m.int .edges_on_vertex (m.int .vertices_on_edge e t) s' = e →
          s' = s)) ∧
    (∀ v, 0 ≤ v → v < p.dims.nvertices → ∀ s, 0 ≤ s → s < 3 →
      ∃ j, (0 ≤ j ∧ j < 6) ∧ m.int .vertices_on_cell (m.int .cells_on_vertex v s) j = v) ∧
    (∀ c, 0 ≤ c → c < p.dims.ncells → ∀ j, 0 ≤ j → j < 6 →
      ∃ s, (0 ≤ s ∧ s < 3) ∧ m.int .cells_on_vertex (m.int .vertices_on_cell c j) s = c) := by
  have hm := hb.hex hv
  have hnx := hv.nx_pos
  simp only [MeshParams.dims]
  refine ⟨?_, ?_, ?_, ?_⟩
  · intro v h0 h1 s hs hs'
    have hV := Hex.isCell_vertex h0 h1
    have hr := eov_range hnx h0 h1 (s := s)
    have ht : Hex.eovEnd v s = 0 ∨ Hex.eovEnd v s = 1 := by
      unfold Hex.eovEnd; split_ifs <;> simp
    refine ⟨Hex.eovEnd v s, ht, ?_⟩
    rw [hm.eov v h0 h1 s hs hs', hm.voe _ hr.1 hr.2 _ (by omega) (by omega),
      Hex.voe_eov hnx hV hs hs']
  · intro e he he'
    have hC := Hex.isCell_edge he he'
    refine ⟨?_, ?_⟩
    · rw [hm.voe e he he' 0 (by omega) (by omega), hm.voe e he he' 1 (by omega) (by omega)]
      exact Hex.voe_ne
    · intro t ht
      have hs : 0 ≤ Hex.eovSlot e ∧ Hex.eovSlot e < 3 := by
        unfold Hex.eovSlot; split_ifs <;> omega
      have hvr := Hex.voe_isVertex hnx hC ht
      rw [hm.voe e he he' t (by omega) (by omega)]
      refine ⟨Hex.eovSlot e, hs, ?_, ?_⟩
      · rw [hm.eov _ hvr.1 hvr.2 _ hs.1 hs.2, Hex.eov_voe hnx hC ht]
      · intro s' h0 h3 h
        rw [hm.eov _ hvr.1 hvr.2 _ h0 h3] at h
        rw [← h, Hex.eov_mod h0 h3]
  · intro v h0 h1 s hs hs'
    have hV := Hex.isCell_vertex h0 h1
    obtain ⟨a, ha0, ha6, ha, -⟩ := Hex.eq_V hnx hV hs hs'
    refine ⟨a, ⟨ha0, ha6⟩, ?_⟩
    rw [hm.cov v h0 h1 s hs hs', hm.voc _ (Hex.cov_isCell hnx h0 h1) a ha0 ha6, ← ha]
  · intro c hc hc' j h0 h6
    have hC : Hex.IsCell p.nx p.ny c := ⟨hc, hc'⟩
    have hs : 0 ≤ Hex.covSlot j ∧ Hex.covSlot j < 3 := by
      unfold Hex.covSlot; split_ifs <;> omega
    have hvr := Hex.V_range hnx hC j
    refine ⟨Hex.covSlot j, hs, ?_⟩
    rw [hm.voc c hC j h0 h6, hm.cov _ hvr.1 hvr.2 _ hs.1 hs.2, Hex.cov_V hnx hC h0 h6]

/-- The tables at the last vertex of the example mesh (on the seam). -/
example (dc : R) (m : Mem R) (hb : Built p46 dc m) :
    m.int .edges_on_vertex 47 1 = 68 ∧ m.int .cells_on_vertex 47 1 = 19 ∧
    (47 : Int) < p46.dims.nvertices := by
  have hm := hb.hex p46_valid
  refine ⟨?_, ?_, by simp [MeshParams.dims, p46]⟩
  · rw [hm.eov 47 (by norm_num) (by simp [p46]) 1 (by norm_num) (by norm_num)]; rfl
  · rw [hm.cov 47 (by norm_num) (by simp [p46]) 1 (by norm_num) (by norm_num)]; rfl

/-! ### C08 -/

/-- The kite index is the position of the cell in the corner's cell list: it holds the cell, and with
at least two rows and columns no other position does. -/
theorem C08_kite_index {p : MeshParams} (hv : MeshParams.Valid p) {dc : R} {m : Mem R}
    (hb : Built p dc m) (c : Int) (hc : 0 ≤ c) (hc' : c < p.dims.ncells) (j : Int) (h0 : 0 ≤ j)
    (h6 : j < 6) :
    (0 ≤ m.int .kite_index_on_cell c j ∧ m.int .kite_index_on_cell c j < 3) ∧
    m.int .cells_on_vertex (m.int .vertices_on_cell c j) (m.int .kite_index_on_cell c j) = c ∧
    (2 ≤ p.nx → 2 ≤ p.ny → ∀ s, 0 ≤ s → s < 3 →
      m.int .cells_on_vertex (m.int .vertices_on_cell c j) s = c →
      s = m.int .kite_index_on_cell c j) := by
  have hm := hb.hex hv
  have hnx := hv.nx_pos
  have hC : Hex.IsCell p.nx p.ny c := ⟨hc, hc'⟩
  have hvr := Hex.V_range hnx hC j
  have hcV := Hex.cov_V hnx hC h0 h6
  have hk : (0 ≤ m.int .kite_index_on_cell c j ∧ m.int .kite_index_on_cell c j < 3) ∧
      Hex.cov p.nx p.ny (Hex.V p.nx p.ny c j) (m.int .kite_index_on_cell c j) = c := by
    rw [hm.kite c hC j h0 h6]
    unfold kiteIdx
    split_ifs with h2 h1
    · exact ⟨by omega, h2⟩
    · exact ⟨by omega, h1⟩
    · refine ⟨by omega, ?_⟩
      have : Hex.covSlot j = 0 ∨ Hex.covSlot j = 1 ∨ Hex.covSlot j = 2 := by
        unfold Hex.covSlot; split_ifs <;> simp
      rcases this with h | h | h <;> rw [h] at hcV
      · exact hcV
      · exact absurd hcV h1
      · exact absurd hcV h2
  refine ⟨hk.1, ?_, ?_⟩
  · rw [hm.voc c hC j h0 h6, hm.cov _ hvr.1 hvr.2 _ hk.1.1 hk.1.2, hk.2]
  · intro hx hy s hs hs' h
    rw [hm.voc c hC j h0 h6, hm.cov _ hvr.1 hvr.2 _ hs hs'] at h
    exact Hex.cov_inj hx hy (Hex.isCell_vertex hvr.1 hvr.2) ⟨hs, hs'⟩ hk.1 (h.trans hk.2.symm)

/-- Corner 2 of cell 0 in the example mesh lies across the seam (vertex 40) and lists the cell second. -/
example (dc : R) (m : Mem R) (hb : Built p46 dc m) :
    m.int .vertices_on_cell 0 2 = 40 ∧ m.int .kite_index_on_cell 0 2 = 1 := by
  have hm := hb.hex p46_valid
  have hC : Hex.IsCell p46.nx p46.ny 0 := by simp [Hex.IsCell, p46]
  constructor
  · rw [hm.voc 0 hC 2 (by norm_num) (by norm_num)]; rfl
  · rw [hm.kite 0 hC 2 (by norm_num) (by norm_num)]; rfl

/-! ### C11 -/

/-- The circulation sign of an edge is −1 at its first and +1 at its second end point. -/
theorem C11_vertex_signs {p : MeshParams} (hv : MeshParams.Valid p) {dc : R} {m : Mem R}
    (hb : Built p dc m) (e : Int) (he : 0 ≤ e) (he' : e < p.dims.nedges) (s : Int) (h0 : 0 ≤ s)
    (h3 : s < 3) :
    (m.int .edges_on_vertex (m.int .vertices_on_edge e 0) s = e →
      m.real .edge_sign_on_vertex 0 (m.int .vertices_on_edge e 0) s = lit (-1)) ∧
    (m.int .edges_on_vertex (m.int .vertices_on_edge e 1) s = e →
      m.real .edge_sign_on_vertex 0 (m.int .vertices_on_edge e 1) s = lit 1) := by
  have hm := hb.hex hv
  have hnx := hv.nx_pos
  simp only [MeshParams.dims] at he'
  have hC := Hex.isCell_edge he he'
  have r0 := Hex.voe_isVertex hnx hC (Or.inl rfl)
  have r1 := Hex.voe_isVertex hnx hC (Or.inr rfl)
  rw [hm.voe e he he' 0 (by omega) (by omega), hm.voe e he he' 1 (by omega) (by omega)]
  rw [hm.eov _ r0.1 r0.2 s h0 h3, hm.eov _ r1.1 r1.2 s h0 h3]
  constructor
  · intro h
    rw [hm.sign_vertex _ r0.1 r0.2 s h0 h3, h, if_pos rfl]
  · intro h
    rw [hm.sign_vertex _ r1.1 r1.2 s h0 h3, h, if_neg Hex.voe_ne]

/-- Both implications are met for every edge: C07 gives the slot. -/
example (dc : R) (m : Mem R) (hb : Built p46 dc m) :
    m.int .edges_on_vertex (m.int .vertices_on_edge 5 0) 1 = 5 ∧
    m.int .edges_on_vertex (m.int .vertices_on_edge 5 1) 1 = 5 := by
  have hm := hb.hex p46_valid
  constructor
  · rw [hm.voe 5 (by norm_num) (by simp [p46]) 0 (by norm_num) (by norm_num)]
    rw [show Hex.voe p46.nx p46.ny 5 0 = 5 from rfl,
      hm.eov 5 (by norm_num) (by simp [p46]) 1 (by norm_num) (by norm_num)]; rfl
  · rw [hm.voe 5 (by norm_num) (by simp [p46]) 1 (by norm_num) (by norm_num)]
    rw [show Hex.voe p46.nx p46.ny 5 1 = 42 from rfl,
      hm.eov 42 (by norm_num) (by simp [p46]) 1 (by norm_num) (by norm_num)]; rfl

end Props
end Omega
