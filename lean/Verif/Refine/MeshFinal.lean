import Verif.Refine.MeshGeom

/-!
# Refinement of the edge, vertex and finalisation kernels of the mesh constructor
-/

set_option linter.unusedSectionVars false
set_option linter.unusedVariables false

namespace Omega
namespace Refine

open Prog Model

variable {R : Type} [Scalar R]

/-- owner in a one-dimensional launch over the first index of each array -/
def owner1 : Loc → Idx
  | .int _ i _ => (i, 0, 0)
  | .real _ _ i _ => (i, 0, 0)

/-! ### compute_edge_arrays -/

/-- contents stored by "compute_edge_arrays" -/
def edgeT (dc : R) : Mem R where
  int _ _ _ := 10
  real a _ _ _ :=
    match a with
    | .dc_edge => dc
    | .dv_edge => dc * Scalar.sqrt (lit 3) / lit 3
    | _ => lit 0

/-- locations written by "compute_edge_arrays" -/
def edgeP (d : Dims) : Loc → Bool
  | .int .nedges_on_edge i j => decide (IArr.InB d .nedges_on_edge i j)
  | .real .dc_edge l i k => decide (RArr.InB d .dc_edge l i k)
  | .real .dv_edge l i k => decide (RArr.InB d .dv_edge l i k)
  | .real .lat_edge l i k => decide (RArr.InB d .lat_edge l i k)
  | .real .lon_edge l i k => decide (RArr.InB d .lon_edge l i k)
  | _ => false

theorem edgeArrays_runs (d : Dims) (dc : R) (m : Mem R) :
    (par1 d.nedges (edgeArraysBody dc) : Cmd R).Runs d m (m.patch (edgeP d) (edgeT dc)) := by
  refine Cmd.runs_pinv _ owner1 _ ?_ ?_
  · rintro (⟨a, i, j⟩ | ⟨a, l, i, k⟩) hP
    · cases a <;> simp only [edgeP, decide_eq_true_eq, reduceCtorEq] at hP
      simp only [IArr.InB, IArr.ext] at hP
      exact ⟨hP.1, by simp [owner1, par1], by simp [owner1, par1]⟩
    · cases a <;> simp only [edgeP, decide_eq_true_eq, reduceCtorEq] at hP <;>
        simp only [RArr.InB, RArr.ext] at hP <;>
        exact ⟨hP.2.1, by simp [owner1, par1], by simp [owner1, par1]⟩
  · rintro ⟨e, y, z⟩ ⟨⟨h1, h2⟩, ⟨h3, h4⟩, hz, hz'⟩
    simp only [par1] at h1 h2 h3 h4 hz hz'
    obtain rfl : z = 0 := by omega
    obtain rfl : y = 0 := by omega
    show Wp d _ (edgeArraysBody dc e) m _
    have b0 : IArr.InB d .nedges_on_edge e 0 := by simp only [IArr.InB, IArr.ext]; omega
    have b1 : RArr.InB d .dc_edge 0 e 0 := by simp only [RArr.InB, RArr.ext]; omega
    have b2 : RArr.InB d .dv_edge 0 e 0 := by simp only [RArr.InB, RArr.ext]; omega
    have b3 : RArr.InB d .lat_edge 0 e 0 := by simp only [RArr.InB, RArr.ext]; omega
    have b4 : RArr.InB d .lon_edge 0 e 0 := by simp only [RArr.InB, RArr.ext]; omega
    refine wp_bind (wp_mono (wp_pwrI1 (T := edgeT dc) ownPerm_own PInv.start b0
      ⟨decide_eq_true b0, rfl⟩ rfl) fun _ M0 h0 => ?_)
    refine wp_bind (wp_mono (wp_pwr1 ownPerm_own h0 b1 ⟨decide_eq_true b1, rfl⟩ rfl)
      fun _ M1 h1 => ?_)
    refine wp_bind (wp_rd1 b1 (ownPerm_own_ne ⟨decide_eq_true b1, rfl⟩) ?_)
    rw [h1.real_on (by simp [Ins])]
    refine wp_bind (wp_mono (wp_pwr1 ownPerm_own h1 b2 ⟨decide_eq_true b2, rfl⟩ rfl)
      fun _ M2 h2 => ?_)
    refine wp_bind (wp_mono (wp_pwr1 ownPerm_own h2 b3 ⟨decide_eq_true b3, rfl⟩ rfl)
      fun _ M3 h3 => ?_)
    refine (wp_mono (wp_pwr1 ownPerm_own h3 b4 ⟨decide_eq_true b4, rfl⟩ rfl)
      fun _ M4 h4 => ⟨_, h4, ?_⟩)
    rintro (⟨a, i', j'⟩ | ⟨a, l', i', k'⟩) hP he
    · cases a <;> simp only [edgeP, decide_eq_true_eq, reduceCtorEq] at hP
      simp only [IArr.InB, IArr.ext] at hP
      simp only [owner1, Prod.mk.injEq, and_true] at he
      obtain rfl : j' = 0 := by omega
      subst he; simp [Ins]
    · cases a <;> simp only [edgeP, decide_eq_true_eq, reduceCtorEq] at hP <;>
        simp only [RArr.InB, RArr.ext] at hP <;>
        simp only [owner1, Prod.mk.injEq, and_true] at he <;>
        (obtain rfl : l' = 0 := by omega) <;> (obtain rfl : k' = 0 := by omega) <;>
        subst he <;> simp [Ins]

/-! ### compute_vertex_arrays -/

/-- contents stored by "compute_vertex_arrays" -/
def vertT (dc : R) : Mem R where
  int _ _ _ := 0
  real a _ _ _ :=
    match a with
    | .area_triangle => dc * dc * Scalar.sqrt (lit 3) / lit 4
    | .kiteareas_on_vertex => dc * dc * Scalar.sqrt (lit 3) / lit 12
    | _ => lit 0

/-- locations written by "compute_vertex_arrays" -/
def vertP (d : Dims) : Loc → Bool
  | .real .lat_vertex l i k => decide (RArr.InB d .lat_vertex l i k)
  | .real .lon_vertex l i k => decide (RArr.InB d .lon_vertex l i k)
  | .real .area_triangle l i k => decide (RArr.InB d .area_triangle l i k)
  | .real .kiteareas_on_vertex l i k => decide (RArr.InB d .kiteareas_on_vertex l i k)
  | _ => false

theorem vertexArrays_runs (d : Dims) (dc : R) (m : Mem R) :
    (par1 d.nvertices (vertexArraysBody dc) : Cmd R).Runs d m (m.patch (vertP d) (vertT dc)) := by
  refine Cmd.runs_pinv _ owner1 _ ?_ ?_
  · rintro (⟨a, i, j⟩ | ⟨a, l, i, k⟩) hP
    · simp [vertP] at hP
    · cases a <;> simp only [vertP, decide_eq_true_eq, reduceCtorEq] at hP <;>
        simp only [RArr.InB, RArr.ext] at hP <;>
        exact ⟨hP.2.1, by simp [owner1, par1], by simp [owner1, par1]⟩
  · rintro ⟨v, y, z⟩ ⟨⟨h1, h2⟩, ⟨h3, h4⟩, hz, hz'⟩
    simp only [par1] at h1 h2 h3 h4 hz hz'
    obtain rfl : z = 0 := by omega
    obtain rfl : y = 0 := by omega
    show Wp d _ (vertexArraysBody dc v) m _
    have b1 : RArr.InB d .lat_vertex 0 v 0 := by simp only [RArr.InB, RArr.ext]; omega
    have b2 : RArr.InB d .lon_vertex 0 v 0 := by simp only [RArr.InB, RArr.ext]; omega
    have b3 : RArr.InB d .area_triangle 0 v 0 := by simp only [RArr.InB, RArr.ext]; omega
    refine wp_bind (wp_mono (wp_pwr1 (T := vertT dc) ownPerm_own PInv.start b1
      ⟨decide_eq_true b1, rfl⟩ rfl) fun _ M0 h0 => ?_)
    refine wp_bind (wp_mono (wp_pwr1 ownPerm_own h0 b2 ⟨decide_eq_true b2, rfl⟩ rfl)
      fun _ M1 h1 => ?_)
    refine wp_bind (wp_mono (wp_pwr1 ownPerm_own h1 b3 ⟨decide_eq_true b3, rfl⟩ rfl)
      fun _ M2 h2 => ?_)
    refine wp_bind (wp_forI (by omega) (fun j _ M => ∃ W, PInv
      (fun l => vertP d l = true ∧ owner1 l = (v, 0, 0)) (vertT dc) m W M ∧
      W (.real .lat_vertex 0 v 0) ∧ W (.real .lon_vertex 0 v 0) ∧ W (.real .area_triangle 0 v 0) ∧
      ∀ a, 0 ≤ a → a < j → W (.real .kiteareas_on_vertex 0 v a))
      ⟨_, h2, by simp [Ins], by simp [Ins], by simp [Ins], fun a h0 h1 => by omega⟩ ?_ ?_)
    · rintro j - M h0 h3 ⟨W, hI, w1, w2, w3, w4⟩
      have b4 : RArr.InB d .kiteareas_on_vertex 0 v j := by simp only [RArr.InB, RArr.ext]; omega
      refine wp_mono (wp_pwr2 ownPerm_own hI b4 ⟨decide_eq_true b4, rfl⟩ rfl) fun _ M' h' =>
        ⟨_, h', Or.inr w1, Or.inr w2, Or.inr w3, fun a ha0 ha1 => ?_⟩
      by_cases e : a = j
      · subst e; exact Or.inl rfl
      · exact Or.inr (w4 a ha0 (by omega))
    · rintro - M ⟨W, hI, w1, w2, w3, w4⟩
      refine wp_pure ⟨W, hI, ?_⟩
      rintro (⟨a, i', j'⟩ | ⟨a, l', i', k'⟩) hP he
      · simp [vertP] at hP
      · cases a <;> simp only [vertP, decide_eq_true_eq, reduceCtorEq] at hP <;>
          simp only [RArr.InB, RArr.ext] at hP <;>
          simp only [owner1, Prod.mk.injEq, and_true] at he <;>
          (obtain rfl : l' = 0 := by omega)
        case kiteareas_on_vertex => subst he; exact w4 _ hP.2.2.1 hP.2.2.2
        all_goals (obtain rfl : k' = 0 := by omega); subst he; assumption

/-! ### finalize_cell -/

/-- Kite index found by the search loop of "finalize_cell": the last match wins. -/
def kiteIdx (cov : Int → Int → Int) (v c : Int) : Int :=
  if cov v 2 = c then 2 else if cov v 1 = c then 1 else 0

/-- contents stored by "finalize_cell" -/
def fcT (nx ny : Int) : Mem R where
  int _ i j := kiteIdx (Hex.cov nx ny) (Hex.V nx ny i j) i
  real _ _ i k := if Hex.coe nx ny (Hex.E nx ny i k) 0 = i then lit 1 else lit (-1)

/-- locations written by "finalize_cell" -/
def fcP (d : Dims) : Loc → Bool
  | .int .kite_index_on_cell i j => decide (IArr.InB d .kite_index_on_cell i j)
  | .real .edge_sign_on_cell l i k => decide (RArr.InB d .edge_sign_on_cell l i k)
  | _ => false

/-- The tables needed by finalisation are the closed forms. -/
structure TablesOK (p : MeshParams) (m : Mem R) : Prop where
  neoc : ∀ c, Hex.IsCell p.nx p.ny c → m.int .nedges_on_cell c 0 = 6
  eoc : ∀ c, Hex.IsCell p.nx p.ny c → ∀ j, 0 ≤ j → j < 6 →
    m.int .edges_on_cell c j = Hex.E p.nx p.ny c j
  voc : ∀ c, Hex.IsCell p.nx p.ny c → ∀ j, 0 ≤ j → j < 6 →
    m.int .vertices_on_cell c j = Hex.V p.nx p.ny c j
  coe : ∀ e, 0 ≤ e → e < 3 * (p.nx * p.ny) → ∀ s, 0 ≤ s → s < 2 →
    m.int .cells_on_edge e s = Hex.coe p.nx p.ny e s
  voe : ∀ e, 0 ≤ e → e < 3 * (p.nx * p.ny) → ∀ s, 0 ≤ s → s < 2 →
    m.int .vertices_on_edge e s = Hex.voe p.nx p.ny e s
  cov : ∀ v, 0 ≤ v → v < 2 * (p.nx * p.ny) → ∀ s, 0 ≤ s → s < 3 →
    m.int .cells_on_vertex v s = Hex.cov p.nx p.ny v s
  eov : ∀ v, 0 ≤ v → v < 2 * (p.nx * p.ny) → ∀ s, 0 ≤ s → s < 3 →
    m.int .edges_on_vertex v s = Hex.eov p.nx p.ny v s

theorem finalizeCell_runs {p : MeshParams} (hv : MeshParams.Valid p) (m : Mem R)
    (hT : TablesOK p m) :
    (par1 p.dims.ncells finalizeCellBody : Cmd R).Runs p.dims m
      (m.patch (fcP p.dims) (fcT p.nx p.ny)) := by
  have hnx := hv.nx_pos
  refine Cmd.runs_pinv _ owner1 _ ?_ ?_
  · rintro (⟨a, i, j⟩ | ⟨a, l, i, k⟩) hP
    · cases a <;> simp only [fcP, decide_eq_true_eq, reduceCtorEq] at hP
      simp only [IArr.InB, IArr.ext] at hP
      exact ⟨hP.1, by simp [owner1, par1], by simp [owner1, par1]⟩
    · cases a <;> simp only [fcP, decide_eq_true_eq, reduceCtorEq] at hP <;>
        simp only [RArr.InB, RArr.ext] at hP <;>
        exact ⟨hP.2.1, by simp [owner1, par1], by simp [owner1, par1]⟩
  · rintro ⟨c, y, z⟩ ⟨⟨h1, h2⟩, ⟨h3, h4⟩, hz, hz'⟩
    simp only [par1] at h1 h2 h3 h4 hz hz'
    obtain rfl : z = 0 := by omega
    obtain rfl : y = 0 := by omega
    have hc : Hex.IsCell p.nx p.ny c := ⟨h1, h2⟩
    show Wp p.dims _ (finalizeCellBody c) m _
    have b0 : IArr.InB p.dims .nedges_on_cell c 0 := by
      simp only [IArr.InB, IArr.ext]; omega
    refine wp_bind (wp_rdI1 b0 (ownPerm_off rfl) ?_)
    rw [hT.neoc c hc]
    refine wp_bind (wp_forI (by omega) (fun j _ M => ∃ W, PInv
      (fun l => fcP p.dims l = true ∧ owner1 l = (c, 0, 0)) (fcT p.nx p.ny) m W M ∧
      (∀ a i j, W (.int a i j) → False) ∧
      ∀ a, 0 ≤ a → a < j → W (.real .edge_sign_on_cell 0 c a))
      ⟨_, PInv.start, fun _ _ _ h => h, fun a h0 h1 => by omega⟩ ?_ ?_)
    · rintro j - M h0 h6 ⟨W, hI, hni, w1⟩
      have hE := Hex.E_range hnx hc j h0 h6
      have bs : RArr.InB p.dims .edge_sign_on_cell 0 c j := by
        simp only [RArr.InB, RArr.ext, maxedges]; omega
      have bc : IArr.InB p.dims .cells_on_edge (Hex.E p.nx p.ny c j) 0 := by
        simp only [IArr.InB, IArr.ext, MeshParams.dims]; omega
      refine wp_bind (wp_rdI2 (inb_cell6 hc h0 h6).1 (ownPerm_off rfl) ?_)
      rw [hI.int_off (fun h => hni _ _ _ h), hT.eoc c hc j h0 h6]
      refine wp_bind (wp_rdI2 bc (ownPerm_off rfl) ?_)
      rw [hI.int_off (fun h => hni _ _ _ h), hT.coe _ hE.1 hE.2 0 (by omega) (by omega)]
      refine wp_mono (wp_pwr2 ownPerm_own hI bs ⟨decide_eq_true bs, rfl⟩ rfl) fun _ M' h' =>
        ⟨_, h', ?_, fun a ha0 ha1 => ?_⟩
      · rintro a i j (h | h)
        · cases h
        · exact hni _ _ _ h
      · by_cases e : a = j
        · subst e; exact Or.inl rfl
        · exact Or.inr (w1 a ha0 (by omega))
    rintro - M1 ⟨W1, hI1, hni1, w1⟩
    refine wp_bind (wp_forI (by omega) (fun j _ M => ∃ W, PInv
      (fun l => fcP p.dims l = true ∧ owner1 l = (c, 0, 0)) (fcT p.nx p.ny) m W M ∧
      (∀ a i j, W (.int a i j) → a = .kite_index_on_cell) ∧
      (∀ l, W1 l → W l) ∧
      ∀ a, 0 ≤ a → a < j → W (.int .kite_index_on_cell c a))
      ⟨_, hI1, fun _ _ _ h => (hni1 _ _ _ h).elim, fun _ h => h, fun a h0 h1 => by omega⟩ ?_ ?_)
    · rintro j - M h0 h6 ⟨W, hI, hni, hup, w2⟩
      have hV := Hex.V_range hnx hc j
      have bk : IArr.InB p.dims .kite_index_on_cell c j := by
        simp only [IArr.InB, IArr.ext, maxedges]; omega
      have ho : fcP p.dims (.int .kite_index_on_cell c j) = true ∧
          owner1 (.int .kite_index_on_cell c j) = (c, 0, 0) := ⟨decide_eq_true bk, rfl⟩
      refine wp_bind (wp_rdI2 (inb_cell6 hc h0 h6).2.1 (ownPerm_off rfl) ?_)
      rw [hI.int_off (fun h => by simpa using hni _ _ _ h), hT.voc c hc j h0 h6]
      refine wp_mono (wp_forI (m := M) (by omega)
        (Q := fun _ M' => M' = M.setI .kite_index_on_cell c j
          (kiteIdx (Hex.cov p.nx p.ny) (Hex.V p.nx p.ny c j) c))
        (fun l _ M' =>
        ((∃ q, 0 ≤ q ∧ q < l ∧ Hex.cov p.nx p.ny (Hex.V p.nx p.ny c j) q = c ∧
          (∀ q', q < q' → q' < l → Hex.cov p.nx p.ny (Hex.V p.nx p.ny c j) q' ≠ c) ∧
          M' = M.setI .kite_index_on_cell c j q) ∨
        ((∀ q', 0 ≤ q' → q' < l → Hex.cov p.nx p.ny (Hex.V p.nx p.ny c j) q' ≠ c) ∧ M' = M)))
        (Or.inr ⟨fun q' h0 h1 => by omega, rfl⟩) ?_ ?_) ?_
      · rintro l - M' hl0 hl3 hinv
        have bv : IArr.InB p.dims .cells_on_vertex (Hex.V p.nx p.ny c j) l := by
          simp only [IArr.InB, IArr.ext, MeshParams.dims]; omega
        have hrd : M'.int .cells_on_vertex (Hex.V p.nx p.ny c j) l =
            Hex.cov p.nx p.ny (Hex.V p.nx p.ny c j) l := by
          have : M'.int .cells_on_vertex (Hex.V p.nx p.ny c j) l =
              M.int .cells_on_vertex (Hex.V p.nx p.ny c j) l := by
            rcases hinv with ⟨q, -, -, -, -, rfl⟩ | ⟨-, rfl⟩
            · simp [Mem.setI]
            · rfl
          rw [this, hI.int_off (fun h => by simpa using hni _ _ _ h),
            hT.cov _ hV.1 hV.2 l hl0 hl3]
        refine wp_bind (wp_rdI2 bv (ownPerm_off rfl) ?_)
        rw [hrd]
        split_ifs with hm
        · refine wp_wrI2 bk (ownPerm_own _ ho) (Or.inl ⟨l, hl0, by omega, hm,
            fun q' h1 h2 => by omega, ?_⟩)
          rcases hinv with ⟨q, -, -, -, -, rfl⟩ | ⟨-, rfl⟩
          · apply Mem.ext'
            · funext b i' j'
              simp only [Mem.setI]; split_ifs <;> rfl
            · rfl
          · rfl
        · refine wp_pure' ?_
          rcases hinv with ⟨q, hq0, hq1, hq2, hq3, hM⟩ | ⟨hno, hM⟩
          · refine Or.inl ⟨q, hq0, by omega, hq2, fun q' h1 h2 => ?_, hM⟩
            by_cases e : q' = l
            · subst e; exact hm
            · exact hq3 q' h1 (by omega)
          · refine Or.inr ⟨fun q' h1 h2 => ?_, hM⟩
            by_cases e : q' = l
            · subst e; exact hm
            · exact hno q' h1 (by omega)
      · rintro - M' hinv
        have hex : Hex.cov p.nx p.ny (Hex.V p.nx p.ny c j) (Hex.covSlot j) = c :=
          Hex.cov_V hnx hc h0 h6
        have hsl : 0 ≤ Hex.covSlot j ∧ Hex.covSlot j < 3 := by
          unfold Hex.covSlot; split_ifs <;> omega
        rcases hinv with ⟨q, hq0, hq1, hq2, hq3, hM⟩ | ⟨hno, -⟩
        · rw [hM]; congr 1
          obtain rfl | rfl | rfl : q = 0 ∨ q = 1 ∨ q = 2 := by omega
          · have a1 := hq3 1 (by omega) (by omega)
            have a2 := hq3 2 (by omega) (by omega)
            simp [kiteIdx, a1, a2]
          · have a2 := hq3 2 (by omega) (by omega)
            simp [kiteIdx, a2, hq2]
          · simp [kiteIdx, hq2]
        · exact absurd hex (hno _ hsl.1 hsl.2)
      · rintro - M' rfl
        refine ⟨_, hI.setI ho rfl, ?_, fun l hl => Or.inr (hup l hl), fun a ha0 ha1 => ?_⟩
        · rintro a i' j' (h | h)
          · cases h; rfl
          · exact hni _ _ _ h
        · by_cases e : a = j
          · subst e; exact Or.inl rfl
          · exact Or.inr (w2 a ha0 (by omega))
    rintro - M2 ⟨W2, hI2, hni2, hup, w2⟩
    refine wp_pure ⟨W2, hI2, ?_⟩
    rintro (⟨a, i', j'⟩ | ⟨a, l', i', k'⟩) hP he
    · cases a <;> simp only [fcP, decide_eq_true_eq, reduceCtorEq] at hP
      simp only [IArr.InB, IArr.ext, maxedges] at hP
      simp only [owner1, Prod.mk.injEq, and_true] at he
      subst he; exact w2 _ hP.2.1 hP.2.2
    · cases a <;> simp only [fcP, decide_eq_true_eq, reduceCtorEq] at hP
      simp only [RArr.InB, RArr.ext, maxedges] at hP
      simp only [owner1, Prod.mk.injEq, and_true] at he
      obtain rfl : l' = 0 := by omega
      subst he; exact hup _ (w1 _ hP.2.2.1 hP.2.2.2)

/-! ### finalize_vertex -/

/-- contents stored by "finalize_vertex" -/
def fvT (nx ny : Int) : Mem R where
  int _ _ _ := 0
  real _ _ i k := if Hex.voe nx ny (Hex.eov nx ny i k) 0 = i then lit (-1) else lit 1

/-- locations written by "finalize_vertex" -/
def fvP (d : Dims) : Loc → Bool
  | .real .edge_sign_on_vertex l i k => decide (RArr.InB d .edge_sign_on_vertex l i k)
  | _ => false

theorem eov_range {nx ny : Int} (hnx : 1 ≤ nx) {v s : Int} (h0 : 0 ≤ v) (h1 : v < 2 * (nx * ny)) :
    0 ≤ Hex.eov nx ny v s ∧ Hex.eov nx ny v s < 3 * (nx * ny) := by
  have h := Hex.isCell_vertex h0 h1
  have h2 := Hex.inv_isCell hnx h (j := 2)
  have h3 := Hex.inv_isCell hnx h (j := 3)
  unfold Hex.IsCell at *
  unfold Hex.eov; split_ifs <;> omega

theorem finalizeVertex_runs {p : MeshParams} (hv : MeshParams.Valid p) (m : Mem R)
    (hT : TablesOK p m) :
    (par1 p.dims.nvertices finalizeVertexBody : Cmd R).Runs p.dims m
      (m.patch (fvP p.dims) (fvT p.nx p.ny)) := by
  have hnx := hv.nx_pos
  refine Cmd.runs_pinv _ owner1 _ ?_ ?_
  · rintro (⟨a, i, j⟩ | ⟨a, l, i, k⟩) hP
    · simp [fvP] at hP
    · cases a <;> simp only [fvP, decide_eq_true_eq, reduceCtorEq] at hP <;>
        simp only [RArr.InB, RArr.ext] at hP <;>
        exact ⟨hP.2.1, by simp [owner1, par1], by simp [owner1, par1]⟩
  · rintro ⟨v, y, z⟩ ⟨⟨h1, h2⟩, ⟨h3, h4⟩, hz, hz'⟩
    simp only [par1] at h1 h2 h3 h4 hz hz'
    obtain rfl : z = 0 := by omega
    obtain rfl : y = 0 := by omega
    simp only [MeshParams.dims] at h2
    show Wp p.dims _ (finalizeVertexBody v) m _
    refine wp_bind (wp_forI (by omega) (fun j _ M => ∃ W, PInv
      (fun l => fvP p.dims l = true ∧ owner1 l = (v, 0, 0)) (fvT p.nx p.ny) m W M ∧
      (∀ a i j, W (.int a i j) → False) ∧
      ∀ a, 0 ≤ a → a < j → W (.real .edge_sign_on_vertex 0 v a))
      ⟨_, PInv.start, fun _ _ _ h => h, fun a h0 h1 => by omega⟩ ?_ ?_)
    · rintro j - M h0 h3 ⟨W, hI, hni, w1⟩
      have hE := eov_range hnx h1 h2 (s := j)
      have bs : RArr.InB p.dims .edge_sign_on_vertex 0 v j := by
        simp only [RArr.InB, RArr.ext, MeshParams.dims]; omega
      have be : IArr.InB p.dims .edges_on_vertex v j := by
        simp only [IArr.InB, IArr.ext, MeshParams.dims]; omega
      have bc : IArr.InB p.dims .vertices_on_edge (Hex.eov p.nx p.ny v j) 0 := by
        simp only [IArr.InB, IArr.ext, MeshParams.dims]; omega
      refine wp_bind (wp_rdI2 be (ownPerm_off rfl) ?_)
      rw [hI.int_off (fun h => hni _ _ _ h), hT.eov v h1 h2 j h0 h3]
      refine wp_bind (wp_rdI2 bc (ownPerm_off rfl) ?_)
      rw [hI.int_off (fun h => hni _ _ _ h), hT.voe _ hE.1 hE.2 0 (by omega) (by omega)]
      refine wp_mono (wp_pwr2 ownPerm_own hI bs ⟨decide_eq_true bs, rfl⟩ rfl) fun _ M' h' =>
        ⟨_, h', ?_, fun a ha0 ha1 => ?_⟩
      · rintro a i j (h | h)
        · cases h
        · exact hni _ _ _ h
      · by_cases e : a = j
        · subst e; exact Or.inl rfl
        · exact Or.inr (w1 a ha0 (by omega))
    rintro - M1 ⟨W1, hI1, hni1, w1⟩
    refine wp_pure ⟨W1, hI1, ?_⟩
    rintro (⟨a, i', j'⟩ | ⟨a, l', i', k'⟩) hP he
    · simp [fvP] at hP
    · cases a <;> simp only [fvP, decide_eq_true_eq, reduceCtorEq] at hP
      simp only [RArr.InB, RArr.ext] at hP
      simp only [owner1, Prod.mk.injEq, and_true] at he
      obtain rfl : l' = 0 := by omega
      subst he; exact w1 _ hP.2.2.1 hP.2.2.2

/-! ### deep_copy -/

/-- locations of a real view -/
def arrP (d : Dims) (a : RArr) : Loc → Bool
  | .real b l i k => decide (b = a) && decide (RArr.InB d a l i k)
  | _ => false
/-- locations of an integer view -/
def iarrP (d : Dims) (a : IArr) : Loc → Bool
  | .int b i j => decide (b = a) && decide (IArr.InB d a i j)
  | _ => false

/-- memory holding one real value everywhere -/
def constR (v : R) : Mem R := ⟨fun _ _ _ => 0, fun _ _ _ _ => v⟩
/-- memory holding one integer everywhere -/
def constI (v : Int) : Mem R := ⟨fun _ _ _ => v, fun _ _ _ _ => lit 0⟩

theorem par3_real_runs (d : Dims) (a : RArr) (body : Int → Int → Int → Prog R Unit) (m T : Mem R)
    (h : ∀ l i k perm, RArr.InB d a l i k → perm (.real a l i k) = .rw →
      (∀ b, b ≠ a → ∀ l i k, perm (.real b l i k) ≠ .none) →
      Wp d perm (body l i k) m (fun _ M => M = m.setR a l i k (T.real a l i k))) :
    (par3 (a.ext d).1 (a.ext d).2.1 (a.ext d).2.2 body : Cmd R).Runs d m (m.patch (arrP d a) T) := by
  refine Cmd.runs_pinv (arrP d a) (fun loc => match loc with
    | .real _ l i k => (l, i, k) | .int _ _ _ => (0, 0, 0)) _ ?_ ?_
  · rintro (⟨b, i, j⟩ | ⟨b, l, i, k⟩) hP
    · simp [arrP] at hP
    · simp only [arrP, Bool.and_eq_true, decide_eq_true_eq] at hP
      exact hP.2
  · rintro ⟨l, i, k⟩ hx
    have hb : RArr.InB d a l i k := hx
    have ho : arrP d a (.real a l i k) = true := by
      simp only [arrP, decide_true, Bool.true_and]; exact decide_eq_true hb
    refine wp_mono (h l i k _ hb (ownPerm_own _ ⟨ho, rfl⟩) ?_) ?_
    · intro b hne l' i' k'
      exact ownPerm_off (by simp [arrP, hne])
    · rintro - M rfl
      refine ⟨_, PInv.start.setR ⟨ho, rfl⟩ rfl, ?_⟩
      rintro (⟨b, i', j'⟩ | ⟨b, l', i', k'⟩) hP he
      · simp [arrP] at hP
      · simp only [arrP, Bool.and_eq_true, decide_eq_true_eq] at hP
        simp only [Prod.mk.injEq] at he
        obtain ⟨rfl, rfl, rfl⟩ := he
        obtain ⟨rfl, -⟩ := hP
        exact Or.inl rfl

theorem fillR_runs (d : Dims) (a : RArr) (v : R) (m : Mem R) :
    (fillR d a v).Runs d m (m.patch (arrP d a) (constR v)) :=
  par3_real_runs d a _ m _ fun _ _ _ _ hb hp _ => wp_wr3 hb hp rfl

/-- the contents of one view, as another view -/
def shiftT (m : Mem R) (src : RArr) : Mem R := ⟨m.int, fun _ l i k => m.real src l i k⟩

theorem copyR_runs (d : Dims) (dst src : RArr) (hne : src ≠ dst) (hext : src.ext d = dst.ext d)
    (m : Mem R) : (copyR d dst src).Runs d m (m.patch (arrP d dst) (shiftT m src)) := by
  refine par3_real_runs d dst _ m _ fun l i k perm hb hp hro => ?_
  have hb' : RArr.InB d src l i k := by unfold RArr.InB at *; rw [hext]; exact hb
  exact wp_bind (wp_rd3 hb' (hro src hne l i k) (wp_wr3 hb hp rfl))

theorem fillI_runs (d : Dims) (a : IArr) (v : Int) (m : Mem R) :
    (fillI d a v).Runs d m (m.patch (iarrP d a) (constI v)) := by
  refine Cmd.runs_pinv (iarrP d a) (fun loc => match loc with
    | .int _ i j => (i, j, 0) | .real _ _ _ _ => (0, 0, 0)) _ ?_ ?_
  · rintro (⟨b, i, j⟩ | ⟨b, l, i, k⟩) hP
    · simp only [iarrP, Bool.and_eq_true, decide_eq_true_eq] at hP
      exact ⟨hP.2.1, hP.2.2, by simp [fillI, par2]⟩
    · simp [iarrP] at hP
  · rintro ⟨i, j, z⟩ ⟨h1, h2, hz, hz'⟩
    simp only [fillI, par2] at h1 h2 hz hz'
    obtain rfl : z = 0 := by omega
    have hb : IArr.InB d a i j := ⟨h1, h2⟩
    have ho : iarrP d a (.int a i j) = true := by
      simp only [iarrP, decide_true, Bool.true_and]; exact decide_eq_true hb
    refine wp_mono (wp_pwrI2 (T := constI v) ownPerm_own PInv.start hb ⟨ho, rfl⟩ rfl)
      fun _ M hM => ⟨_, hM, ?_⟩
    rintro (⟨b, i', j'⟩ | ⟨b, l', i', k'⟩) hP he
    · simp only [iarrP, Bool.and_eq_true, decide_eq_true_eq] at hP
      simp only [Prod.mk.injEq, and_true] at he
      obtain ⟨rfl, rfl⟩ := he
      obtain ⟨rfl, -⟩ := hP
      exact Or.inl rfl
    · simp [iarrP] at hP

end Refine
end Omega
