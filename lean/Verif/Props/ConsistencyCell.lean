import Verif.Lib.Jets
import Verif.Props.Convergence
import Verif.Props.Trisk

/-!
# C71: the discrete equations are second-order consistent with the shallow-water equations
-/

set_option linter.unusedVariables false
set_option linter.unusedSectionVars false

namespace Omega
noncomputable section
namespace Props

open Prog Model Refine Hex Taylor Jets

variable {D : ℝ} {T : MeshParams → ℝ → Type}

/-- a mesh built by the mesh class with a spacing of at most `D`, and data `tag` that may depend on it -/
structure MeshOf (D : ℝ) (T : MeshParams → ℝ → Type) where
  p : MeshParams
  dc : ℝ
  m : Mem ℝ
  tag : T p dc
  valid : MeshParams.Valid p
  two : 2 ≤ p.nx
  even : p.ny % 2 = 0
  pos : 0 < dc
  le : dc ≤ D
  built : Built p dc m

namespace MeshOf
variable (M : MeshOf D T)

/-- period of the domain in the first direction -/
def P : ℝ := periodX M.p.nx M.dc
/-- period of the domain in the second direction -/
def Q : ℝ := periodY M.p.ny M.dc
theorem two_y : 2 ≤ M.p.ny := by have := M.valid.ny_pos; have := M.even; omega
theorem geo2 : Geo2 M.p.nx M.p.ny M.p.dims.nlayers M.dc M.m.mesh :=
  M.built.geo2 M.valid M.two M.two_y M.pos
theorem geo : Geo M.p.nx M.p.ny M.p.dims.nlayers M.dc M.m.mesh := M.built.geo M.valid M.pos
end MeshOf

variable {P Q : ℝ}

/-- a cell of such a mesh -/
structure CellIx (D : ℝ) (T : MeshParams → ℝ → Type) extends MeshOf D T where
  c : Int
  lo : 0 ≤ c
  hi : c < p.dims.ncells
/-- an edge of such a mesh -/
structure EdgeIx (D : ℝ) (T : MeshParams → ℝ → Type) extends MeshOf D T where
  e : Int
  lo : 0 ≤ e
  hi : e < p.dims.nedges

/-- the spacing -/
def dcC : Spacing (CellIx D T) := ⟨fun i => i.dc, D, fun i => i.pos, fun i => i.le⟩
/-- the spacing -/
def dcE : Spacing (EdgeIx D T) := ⟨fun i => i.dc, D, fun i => i.pos, fun i => i.le⟩

theorem CellIx.isCell (i : CellIx D T) : IsCell i.p.nx i.p.ny i.c := ⟨i.lo, i.hi⟩

/-- position -/
def CellIx.x (i : CellIx D T) : ℝ × ℝ := cellAt i.m i.c
/-- position -/
def EdgeIx.x (i : EdgeIx D T) : ℝ × ℝ := edgeAt i.m i.e

theorem per_shift {φ : ℝ × ℝ → ℝ} (h : Periodic2 P Q φ) (w : ℝ × ℝ) :
    Periodic2 P Q (fun x => φ (x + w)) := by
  obtain ⟨w1, w2⟩ := w
  constructor
  · intro x y
    simpa [add_right_comm] using h.1 (x + w1) (y + w2)
  · intro x y
    simpa [add_right_comm] using h.2 (x + w1) (y + w2)

theorem norm_dir1 {j : Int} (h0 : 0 ≤ j) (h6 : j < 6) : ‖dir j‖ ≤ 1 := by
  have := norm_dir (dc := 2) (by norm_num) h0 h6
  norm_num at this
  exact this

/-! ### Edge quantities as functions of the position -/

/-- An edge quantity at a side of a cell. -/
theorem at_side (M : MeshOf D T) {u : Int → ℝ} {G : Int → ℝ × ℝ → ℝ} (hG : ∀ a, Periodic2 M.P M.Q (G a))
    (hu : ∀ e, 0 ≤ e → e < M.p.dims.nedges → u e = G (e % 3) (edgeAt M.m e)) {c : Int}
    (hc : IsCell M.p.nx M.p.ny c) {j : Int} (h0 : 0 ≤ j) (h6 : j < 6) :
    u (E M.p.nx M.p.ny c j) = G (j % 3) (cellAt M.m c + (M.dc / 2) • dir j) := by
  have hr := E_range M.valid.nx_pos hc j h0 h6
  rw [hu _ hr.1 hr.2, E_mod h0 h6]
  exact edge_of_cell M.valid M.even M.built (hG _) hc h0 h6

/-- The discrete divergence at a cell, in terms of opposite sides. -/
theorem div_sides (M : MeshOf D T) {u : Int → ℝ} {G : Int → ℝ × ℝ → ℝ} (hG : ∀ a, Periodic2 M.P M.Q (G a))
    (hu : ∀ e, 0 ≤ e → e < M.p.dims.nedges → u e = G (e % 3) (edgeAt M.m e)) {c : Int}
    (hc : IsCell M.p.nx M.p.ny c) :
    Spec.div M.m u c = 2 / (3 * M.dc) *
      ((G 0 (cellAt M.m c - M.dc • ((1 / 2 : ℝ) • dir 0)) - G 0 (cellAt M.m c + M.dc • ((1 / 2 : ℝ) • dir 0))) +
       (G 1 (cellAt M.m c - M.dc • ((1 / 2 : ℝ) • dir 1)) - G 1 (cellAt M.m c + M.dc • ((1 / 2 : ℝ) • dir 1))) +
       (G 2 (cellAt M.m c - M.dc • ((1 / 2 : ℝ) • dir 2)) - G 2 (cellAt M.m c + M.dc • ((1 / 2 : ℝ) • dir 2)))) := by
  rw [spec_div M.geo2 u hc]
  unfold Dv
  have S := fun j a b => at_side M hG hu hc (j := j) a b
  rw [S 0 (by omega) (by omega), S 1 (by omega) (by omega), S 2 (by omega) (by omega),
    S 3 (by omega) (by omega), S 4 (by omega) (by omega), S 5 (by omega) (by omega)]
  have d3 := dir_opp (j := 0) (by omega) (by omega)
  have d4 := dir_opp (j := 1) (by omega) (by omega)
  have d5 := dir_opp (j := 2) (by omega) (by omega)
  norm_num at d3 d4 d5
  rw [d3, d4, d5]
  norm_num only
  simp only [smul_smul, smul_neg, ← sub_eq_add_neg, mul_one_div]
  ring

/-- mean of a cell function on an edge of type `a` at `z` -/
def meanF (dc : ℝ) (φ : ℝ × ℝ → ℝ) (a : Int) (z : ℝ × ℝ) : ℝ :=
  (φ (z + (dc / 2) • dir a) + φ (z - (dc / 2) • dir a)) / 2
/-- normal component against the direction `dir a` at `z` -/
def normF (U W : ℝ × ℝ → ℝ) (a : Int) (z : ℝ × ℝ) : ℝ := -((dir a).1 * U z + (dir a).2 * W z)
/-- difference quotient of a cell function on an edge of type `a` at `z` -/
def gradF (dc : ℝ) (φ : ℝ × ℝ → ℝ) (a : Int) (z : ℝ × ℝ) : ℝ :=
  (φ (z - (dc / 2) • dir a) - φ (z + (dc / 2) • dir a)) / dc

theorem mean_edge (M : MeshOf D T) {φ : ℝ × ℝ → ℝ} (h : Periodic2 M.P M.Q φ) {e : Int} (h0 : 0 ≤ e)
    (h1 : e < M.p.dims.nedges) :
    Spec.mean M.m (fun c => φ (cellAt M.m c)) e = meanF M.dc φ (e % 3) (edgeAt M.m e) := by
  rw [spec_mean M.geo _ h0 h1]
  obtain ⟨k0, k1⟩ := cells_of_edge M.valid M.even M.built h h0 h1
  unfold Mn meanF
  beta_reduce
  rw [k0, k1, normal_eq M.valid M.built h0 h1, smul_neg, sub_neg_eq_add, ← sub_eq_add_neg]

theorem grad_edge (M : MeshOf D T) {φ : ℝ × ℝ → ℝ} (h : Periodic2 M.P M.Q φ) {e : Int} (h0 : 0 ≤ e)
    (h1 : e < M.p.dims.nedges) :
    Spec.grad M.m (fun c => φ (cellAt M.m c)) e = gradF M.dc φ (e % 3) (edgeAt M.m e) := by
  rw [spec_grad M.geo _ h0 h1]
  obtain ⟨k0, k1⟩ := cells_of_edge M.valid M.even M.built h h0 h1
  unfold Gr gradF
  beta_reduce
  rw [k0, k1, normal_eq M.valid M.built h0 h1, smul_neg, sub_neg_eq_add, ← sub_eq_add_neg]

theorem norm_edge (M : MeshOf D T) (U W : ℝ × ℝ → ℝ) {e : Int} (h0 : 0 ≤ e)
    (h1 : e < M.p.dims.nedges) : normalOf M.m U W e = normF U W (e % 3) (edgeAt M.m e) := by
  unfold normalOf normF
  rw [normal_eq M.valid M.built h0 h1]
  simp only [Prod.fst_neg, Prod.snd_neg]
  ring

theorem per_meanF (dc : ℝ) {φ : ℝ × ℝ → ℝ} (h : Periodic2 P Q φ) (a : Int) :
    Periodic2 P Q (meanF dc φ a) := by
  have h1 := per_shift h ((dc / 2) • dir a)
  have h2 := per_shift h (-((dc / 2) • dir a))
  have a1 := h1.1
  have b1 := h1.2
  have a2 := h2.1
  have b2 := h2.2
  beta_reduce at a1 a2 b1 b2
  constructor
  · intro x y
    unfold meanF
    rw [sub_eq_add_neg, sub_eq_add_neg, a1 x y, a2 x y]
  · intro x y
    unfold meanF
    rw [sub_eq_add_neg, sub_eq_add_neg, b1 x y, b2 x y]

theorem per_gradF (dc : ℝ) {φ : ℝ × ℝ → ℝ} (h : Periodic2 P Q φ) (a : Int) :
    Periodic2 P Q (gradF dc φ a) := by
  have h1 := per_shift h ((dc / 2) • dir a)
  have h2 := per_shift h (-((dc / 2) • dir a))
  have a1 := h1.1
  have b1 := h1.2
  have a2 := h2.1
  have b2 := h2.2
  beta_reduce at a1 a2 b1 b2
  constructor
  · intro x y
    unfold gradF
    rw [sub_eq_add_neg (x + P, y), sub_eq_add_neg (x, y), a1 x y, a2 x y]
  · intro x y
    unfold gradF
    rw [sub_eq_add_neg (x, y + Q), sub_eq_add_neg (x, y), b1 x y, b2 x y]

theorem per_normF {U W : ℝ × ℝ → ℝ} (hU : Periodic2 P Q U) (hW : Periodic2 P Q W) (a : Int) :
    Periodic2 P Q (normF U W a) :=
  ⟨fun x y => by unfold normF; rw [hU.1, hW.1], fun x y => by unfold normF; rw [hU.2, hW.2]⟩

theorem per_mul {f g : ℝ × ℝ → ℝ} (hf : Periodic2 P Q f) (hg : Periodic2 P Q g) :
    Periodic2 P Q (fun z => f z * g z) :=
  ⟨fun x y => by simp only [hf.1, hg.1], fun x y => by simp only [hf.2, hg.2]⟩

/-! ### Cells -/

/-- The divergence of a flux whose values on opposite sides have paired expansions. -/
theorem div_order {u : CellIx D T → Int → ℝ} {G : CellIx D T → Int → ℝ × ℝ → ℝ}
    (hG : ∀ i a, Periodic2 i.P i.Q (G i a))
    (hu : ∀ i e, 0 ≤ e → e < i.p.dims.nedges → u i e = G i (e % 3) (edgeAt i.m e))
    {c0 c1 : Int → CellIx D T → ℝ}
    (hJ : ∀ j, j = 0 ∨ j = 1 ∨ j = 2 → J3 dcC
      (fun i => -G i j (i.x + i.dc • ((1 / 2 : ℝ) • dir j)))
      (fun i => -G i j (i.x - i.dc • ((1 / 2 : ℝ) • dir j))) (c0 j) (c1 j)) :
    Ord dcC 2 (fun i => Spec.div i.m (u i) i.c - 4 / 3 * (c1 0 i + c1 1 i + c1 2 i)) := by
  have h0 := (hJ 0 (by simp)).diff
  have h1 := (hJ 1 (by simp)).diff
  have h2 := (hJ 2 (by simp)).diff
  refine (((h0.add h1).add h2).div.cmul (2 / 3)).congr fun i => ?_
  have hd : (dcC.val i : ℝ) = i.dc := rfl
  have hp := i.pos.ne'
  rw [div_sides i.toMeshOf (hG i) (hu i) i.isCell, hd]
  simp only [CellIx.x]
  field_simp
  ring

/-- Fields, one for each mesh: differentiable to the order needed with bounds that do not depend on the
mesh, and periodic. -/
structure Smooth (n : ℕ) (φ : MeshOf D T → ℝ × ℝ → ℝ) : Prop extends Fam n φ where
  per : ∀ M, Periodic2 M.P M.Q (φ M)

/-- the mesh of a cell -/
abbrev CellIx.M (i : CellIx D T) : MeshOf D T := i.toMeshOf
/-- the mesh of an edge -/
abbrev EdgeIx.M (i : EdgeIx D T) : MeshOf D T := i.toMeshOf

namespace Smooth
variable {n : ℕ} {f g : MeshOf D T → ℝ × ℝ → ℝ}

theorem mul (hf : Smooth n f) (hg : Smooth n g) : Smooth n (fun M z => f M z * g M z) :=
  ⟨hf.toFam.mul hg.toFam, fun M => per_mul (hf.per M) (hg.per M)⟩
theorem add (hf : Smooth n f) (hg : Smooth n g) : Smooth n (fun M z => f M z + g M z) :=
  ⟨hf.toFam.add hg.toFam, fun M => ⟨fun x y => by simp only [(hf.per M).1, (hg.per M).1],
    fun x y => by simp only [(hf.per M).2, (hg.per M).2]⟩⟩
theorem cmul (a : ℝ) (hf : Smooth n f) : Smooth n (fun M z => a * f M z) :=
  ⟨hf.toFam.cmul a, fun M => ⟨fun x y => by simp only [(hf.per M).1],
    fun x y => by simp only [(hf.per M).2]⟩⟩
theorem const (a : ℝ) : Smooth n (fun (_ : MeshOf D T) _ => a) :=
  ⟨Fam.const _ (Bdd.const a), fun M => ⟨fun _ _ => rfl, fun _ _ => rfl⟩⟩
theorem mono {k : ℕ} (hf : Smooth n f) (h : k ≤ n) : Smooth k f := ⟨hf.toFam.mono h, hf.per⟩
theorem diff (hf : Smooth n f) (h : 1 ≤ n) (M : MeshOf D T) : Differentiable ℝ (f M) :=
  (hf.smooth M).differentiable (by exact_mod_cast (by omega : n ≠ 0))
theorem fderiv (hf : Smooth (n + 1) f) (v : ℝ × ℝ) : Smooth n (fun M z => fderiv ℝ (f M) z v) := by
  refine ⟨hf.toFam.fderiv v, fun M => ⟨fun x y => ?_, fun x y => ?_⟩⟩
  · have : (fun z => f M (z + (M.P, 0))) = f M := by
      funext ⟨a, b⟩
      simpa using (hf.per M).1 a b
    have k := fderiv_comp_add_right (𝕜 := ℝ) (f := f M) (x := (x, y)) ((M.P, 0) : ℝ × ℝ)
    rw [this] at k
    beta_reduce
    rw [k]
    simp
  · have : (fun z => f M (z + (0, M.Q))) = f M := by
      funext ⟨a, b⟩
      simpa using (hf.per M).2 a b
    have k := fderiv_comp_add_right (𝕜 := ℝ) (f := f M) (x := (x, y)) ((0, M.Q) : ℝ × ℝ)
    rw [this] at k
    beta_reduce
    rw [k]
    simp
/-- over the cells of the meshes -/
theorem cells (hf : Smooth n f) : Fam n (fun i : CellIx D T => f i.M) := hf.toFam.comp _
/-- over the edges of the meshes -/
theorem edges (hf : Smooth n f) : Fam n (fun i : EdgeIx D T => f i.M) := hf.toFam.comp _

end Smooth

/-- Means on opposite sides of a cell. -/
theorem mean_J3 {φ : MeshOf D T → ℝ × ℝ → ℝ} (h : Smooth 3 φ) {j : Int} (h0 : 0 ≤ j) (h6 : j < 6) :
    J3 (dcC : Spacing (CellIx D T)) (fun i => meanF i.dc (φ i.M) j (i.x + i.dc • ((1 / 2 : ℝ) • dir j)))
      (fun i => meanF i.dc (φ i.M) j (i.x - i.dc • ((1 / 2 : ℝ) • dir j))) (fun i => φ i.M i.x)
      (fun i => 1 / 2 * fderiv ℝ (φ i.M) i.x (dir j)) := by
  have t := J3.taylor (dcC : Spacing (CellIx D T)) h.cells (fun i => i.x)
    (fun _ => dir j) (fun _ => norm_dir1 h0 h6)
  have c := J3.const (δ := (dcC : Spacing (CellIx D T))) (fun i => φ i.M i.x)
    (bdd_val h.cells _)
  refine ((t.add c).smul (fun _ => 1 / 2) (Bdd.const _)).congr (fun i => ?_) (fun i => ?_)
    (fun i => by ring) (fun i => by ring)
  · unfold meanF
    rw [show i.x + i.dc • ((1 / 2 : ℝ) • dir j) + (i.dc / 2) • dir j = i.x + i.dc • dir j by
      rw [smul_smul, add_assoc, ← add_smul]; congr 2; ring,
      show i.x + i.dc • ((1 / 2 : ℝ) • dir j) - (i.dc / 2) • dir j = i.x by
      rw [smul_smul, add_sub_assoc, ← sub_smul, show i.dc * (1 / 2) - i.dc / 2 = 0 by ring, zero_smul,
        add_zero]]
    show _ = 1 / 2 * (φ i.M (i.x + i.dc • dir j) + φ i.M i.x)
    ring
  · unfold meanF
    rw [show i.x - i.dc • ((1 / 2 : ℝ) • dir j) - (i.dc / 2) • dir j = i.x - i.dc • dir j by
      rw [smul_smul, sub_sub, ← add_smul]; congr 2; ring,
      show i.x - i.dc • ((1 / 2 : ℝ) • dir j) + (i.dc / 2) • dir j = i.x by
      rw [smul_smul, sub_add, ← sub_smul, show i.dc * (1 / 2) - i.dc / 2 = 0 by ring, zero_smul,
        sub_zero]]
    show _ = 1 / 2 * (φ i.M (i.x - i.dc • dir j) + φ i.M i.x)
    ring

/-- Normal components on opposite sides of a cell. -/
theorem norm_J3 {U W : MeshOf D T → ℝ × ℝ → ℝ} (hU : Smooth 3 U) (hW : Smooth 3 W) {j : Int} (h0 : 0 ≤ j)
    (h6 : j < 6) :
    J3 (dcC : Spacing (CellIx D T)) (fun i => -normF (U i.M) (W i.M) j (i.x + i.dc • ((1 / 2 : ℝ) • dir j)))
      (fun i => -normF (U i.M) (W i.M) j (i.x - i.dc • ((1 / 2 : ℝ) • dir j)))
      (fun i => (dir j).1 * U i.M i.x + (dir j).2 * W i.M i.x)
      (fun i => 1 / 2 * ((dir j).1 * fderiv ℝ (U i.M) i.x (dir j) + (dir j).2 * fderiv ℝ (W i.M) i.x (dir j))) := by
  have hv : ‖(1 / 2 : ℝ) • dir j‖ ≤ 1 := by
    rw [norm_smul]
    have := norm_dir1 h0 h6
    have := norm_nonneg (dir j)
    norm_num
    linarith
  have t1 := J3.taylor (dcC : Spacing (CellIx D T)) hU.cells (fun i => i.x)
    (fun _ => (1 / 2 : ℝ) • dir j) (fun _ => hv)
  have t2 := J3.taylor (dcC : Spacing (CellIx D T)) hW.cells (fun i => i.x)
    (fun _ => (1 / 2 : ℝ) • dir j) (fun _ => hv)
  refine ((t1.smul (fun _ => (dir j).1) (Bdd.const _)).add
    (t2.smul (fun _ => (dir j).2) (Bdd.const _))).congr (fun i => ?_) (fun i => ?_) (fun i => rfl)
    (fun i => ?_)
  · unfold normF; rw [neg_neg]; rfl
  · unfold normF; rw [neg_neg]; rfl
  · rw [map_smul, map_smul, smul_eq_mul, smul_eq_mul]; ring

theorem fderiv_mul2 {f g : ℝ × ℝ → ℝ} (hf : Differentiable ℝ f) (hg : Differentiable ℝ g) (z v : ℝ × ℝ) :
    fderiv ℝ (fun w => f w * g w) z v = f z * fderiv ℝ g z v + g z * fderiv ℝ f z v := by
  rw [fderiv_fun_mul (hf z) (hg z)]
  simp

/-- The sum over the three directions is the divergence. -/
theorem sum_dirs (a b : ℝ × ℝ →L[ℝ] ℝ) :
    ((dir 0).1 * a (dir 0) + (dir 0).2 * b (dir 0)) + ((dir 1).1 * a (dir 1) + (dir 1).2 * b (dir 1)) +
      ((dir 2).1 * a (dir 2) + (dir 2).2 * b (dir 2)) = 3 / 2 * (a (1, 0) + b (0, 1)) := by
  unfold dir
  norm_num [DX, DY]
  have L : ∀ (f : ℝ × ℝ →L[ℝ] ℝ) x y, f (x, y) = x * f (1, 0) + y * f (0, 1) := fun f x y => lin_pt f x y
  have hs : √3 ^ 2 = 3 := Real.sq_sqrt (by norm_num)
  rw [L a (-1), L a (-(1 / 2)), L b (-(1 / 2)), L a (1 / 2), L b (1 / 2)]
  ring_nf
  rw [hs]
  ring

/-- The thickness equation: the discrete divergence of the mass flux. -/
theorem mass_flux_order {H U W : MeshOf D T → ℝ × ℝ → ℝ} (hH : Smooth 3 H) (hU : Smooth 3 U)
    (hW : Smooth 3 W) :
    Ord (dcC : Spacing (CellIx D T)) 2 (fun i => Spec.div i.m (fun e =>
        Spec.mean i.m (fun c => H i.M (cellAt i.m c)) e * normalOf i.m (U i.M) (W i.M) e) i.c -
      divAt (fun z => H i.M z * U i.M z) (fun z => H i.M z * W i.M z) i.x) := by
  refine (div_order (u := fun i e => Spec.mean i.m (fun c => H i.M (cellAt i.m c)) e * normalOf i.m (U i.M) (W i.M) e)
    (G := fun i a z => meanF i.dc (H i.M) a z * normF (U i.M) (W i.M) a z)
    (fun i a => per_mul (per_meanF _ (hH.per i.M) a) (per_normF (hU.per i.M) (hW.per i.M) a))
    (fun i e h0 h1 => by
      rw [mean_edge i.toMeshOf (hH.per i.M) h0 h1, norm_edge i.toMeshOf (U i.M) (W i.M) h0 h1])
    (fun j hj => ((mean_J3 hH (j := j) (by omega) (by omega)).mul
      (norm_J3 hU hW (j := j) (by omega) (by omega))).congr (fun i => by ring) (fun i => by ring)
      (fun i => rfl) (fun i => rfl))).congr fun i => ?_
  congr 1
  unfold divAt
  rw [fderiv_mul2 (hH.diff (by omega) i.M) (hU.diff (by omega) i.M),
    fderiv_mul2 (hH.diff (by omega) i.M) (hW.diff (by omega) i.M)]
  have s1 := sum_dirs (fderiv ℝ (U i.M) i.x) (fderiv ℝ (W i.M) i.x)
  have s2 := sum_dirs (U i.M i.x • fderiv ℝ (H i.M) i.x) (W i.M i.x • fderiv ℝ (H i.M) i.x)
  simp only [_root_.smul_apply, smul_eq_mul] at s2
  linear_combination (-2 / 3 * H i.M i.x) * s1 - 2 / 3 * s2

/-- The advective tracer tendency: the discrete divergence of the tracer flux. -/
theorem tracer_flux_order {H q U W : MeshOf D T → ℝ × ℝ → ℝ} (hH : Smooth 3 H) (hq : Smooth 3 q)
    (hU : Smooth 3 U) (hW : Smooth 3 W) :
    Ord (dcC : Spacing (CellIx D T)) 2 (fun i => Spec.div i.m (fun e =>
        Spec.mean i.m (fun c => H i.M (cellAt i.m c)) e * Spec.mean i.m (fun c => q i.M (cellAt i.m c)) e *
          normalOf i.m (U i.M) (W i.M) e) i.c -
      divAt (fun z => H i.M z * q i.M z * U i.M z) (fun z => H i.M z * q i.M z * W i.M z) i.x) := by
  refine (div_order (u := fun i e => Spec.mean i.m (fun c => H i.M (cellAt i.m c)) e *
      Spec.mean i.m (fun c => q i.M (cellAt i.m c)) e * normalOf i.m (U i.M) (W i.M) e)
    (G := fun i a z => meanF i.dc (H i.M) a z * meanF i.dc (q i.M) a z * normF (U i.M) (W i.M) a z)
    (fun i a => per_mul (per_mul (per_meanF _ (hH.per i.M) a) (per_meanF _ (hq.per i.M) a))
      (per_normF (hU.per i.M) (hW.per i.M) a))
    (fun i e h0 h1 => by
      rw [mean_edge i.toMeshOf (hH.per i.M) h0 h1, mean_edge i.toMeshOf (hq.per i.M) h0 h1,
        norm_edge i.toMeshOf (U i.M) (W i.M) h0 h1])
    (fun j hj => (((mean_J3 hH (j := j) (by omega) (by omega)).mul
      (mean_J3 hq (j := j) (by omega) (by omega))).mul
      (norm_J3 hU hW (j := j) (by omega) (by omega))).congr (fun i => by ring) (fun i => by ring)
      (fun i => rfl) (fun i => rfl))).congr fun i => ?_
  congr 1
  unfold divAt
  have hHq := (hH.mul hq).diff (by omega) i.M
  rw [fderiv_mul2 hHq (hU.diff (by omega) i.M), fderiv_mul2 hHq (hW.diff (by omega) i.M),
    fderiv_mul2 (hH.diff (by omega) i.M) (hq.diff (by omega) i.M),
    fderiv_mul2 (hH.diff (by omega) i.M) (hq.diff (by omega) i.M)]
  have s1 := sum_dirs (fderiv ℝ (U i.M) i.x) (fderiv ℝ (W i.M) i.x)
  have s2 := sum_dirs (U i.M i.x • fderiv ℝ (H i.M) i.x) (W i.M i.x • fderiv ℝ (H i.M) i.x)
  have s3 := sum_dirs (U i.M i.x • fderiv ℝ (q i.M) i.x) (W i.M i.x • fderiv ℝ (q i.M) i.x)
  simp only [_root_.smul_apply, smul_eq_mul] at s2 s3
  linear_combination (-2 / 3 * (H i.M i.x * q i.M i.x)) * s1 - 2 / 3 * q i.M i.x * s2 - 2 / 3 * H i.M i.x * s3

/-- Difference quotients on opposite sides of a cell. -/
theorem grad_J3 {φ : MeshOf D T → ℝ × ℝ → ℝ} (h : Smooth 4 φ) {j : Int} (h0 : 0 ≤ j) (h6 : j < 6) :
    J3 (dcC : Spacing (CellIx D T)) (fun i => -gradF i.dc (φ i.M) j (i.x + i.dc • ((1 / 2 : ℝ) • dir j)))
      (fun i => -gradF i.dc (φ i.M) j (i.x - i.dc • ((1 / 2 : ℝ) • dir j)))
      (fun i => fderiv ℝ (φ i.M) i.x (dir j)) (fun i => iteratedFDeriv ℝ 2 (φ i.M) i.x (fun _ => dir j) / 2) := by
  refine (J3.slope (dcC : Spacing (CellIx D T)) h.cells (fun i => i.x)
    (fun _ => dir j) (fun _ => norm_dir1 h0 h6)).congr (fun i => ?_) (fun i => ?_) (fun i => rfl)
    (fun i => rfl)
  · unfold gradF
    rw [show i.x + i.dc • ((1 / 2 : ℝ) • dir j) + (i.dc / 2) • dir j = i.x + i.dc • dir j by
      rw [smul_smul, add_assoc, ← add_smul]; congr 2; ring,
      show i.x + i.dc • ((1 / 2 : ℝ) • dir j) - (i.dc / 2) • dir j = i.x by
      rw [smul_smul, add_sub_assoc, ← sub_smul, show i.dc * (1 / 2) - i.dc / 2 = 0 by ring, zero_smul,
        add_zero]]
    show _ = (φ i.M (i.x + i.dc • dir j) - φ i.M i.x) / i.dc
    ring
  · unfold gradF
    rw [show i.x - i.dc • ((1 / 2 : ℝ) • dir j) - (i.dc / 2) • dir j = i.x - i.dc • dir j by
      rw [smul_smul, sub_sub, ← add_smul]; congr 2; ring,
      show i.x - i.dc • ((1 / 2 : ℝ) • dir j) + (i.dc / 2) • dir j = i.x by
      rw [smul_smul, sub_add, ← sub_smul, show i.dc * (1 / 2) - i.dc / 2 = 0 by ring, zero_smul,
        sub_zero]]
    show _ = (φ i.M i.x - φ i.M (i.x - i.dc • dir j)) / i.dc
    ring

theorem fderiv_fderiv {φ : ℝ × ℝ → ℝ} (h : ContDiff ℝ 2 φ) (z v w : ℝ × ℝ) :
    fderiv ℝ (fun y => fderiv ℝ φ y v) z w = fderiv ℝ (fderiv ℝ φ) z w v := by
  have hd : DifferentiableAt ℝ (fderiv ℝ φ) z :=
    (h.fderiv_right (m := 1) (by norm_num)).differentiable (by norm_num) z
  rw [fderiv_clm_apply hd (differentiableAt_const v)]
  simp

theorem diff_fderiv {φ : ℝ × ℝ → ℝ} (h : ContDiff ℝ 2 φ) (v : ℝ × ℝ) :
    Differentiable ℝ (fun y => fderiv ℝ φ y v) :=
  ((h.fderiv_right (m := 1) (by norm_num)).clm_apply contDiff_const).differentiable (by norm_num)

/-- The diffusive tracer tendency. -/
theorem tracer_diff_order {H q : MeshOf D T → ℝ × ℝ → ℝ} (hH : Smooth 3 H) (hq : Smooth 4 q) :
    Ord (dcC : Spacing (CellIx D T)) 2 (fun i => Spec.div i.m (fun e =>
        Spec.mean i.m (fun c => H i.M (cellAt i.m c)) e * Spec.grad i.m (fun c => q i.M (cellAt i.m c)) e) i.c -
      divAt (fun z => H i.M z * fderiv ℝ (q i.M) z (1, 0)) (fun z => H i.M z * fderiv ℝ (q i.M) z (0, 1)) i.x) := by
  refine (div_order (u := fun i e => Spec.mean i.m (fun c => H i.M (cellAt i.m c)) e *
      Spec.grad i.m (fun c => q i.M (cellAt i.m c)) e)
    (G := fun i a z => meanF i.dc (H i.M) a z * gradF i.dc (q i.M) a z)
    (fun i a => per_mul (per_meanF _ (hH.per i.M) a) (per_gradF _ (hq.per i.M) a))
    (fun i e h0 h1 => by
      rw [mean_edge i.toMeshOf (hH.per i.M) h0 h1, grad_edge i.toMeshOf (hq.per i.M) h0 h1])
    (fun j hj => ((mean_J3 hH (j := j) (by omega) (by omega)).mul
      (grad_J3 hq (j := j) (by omega) (by omega))).congr (fun i => by ring) (fun i => by ring)
      (fun i => rfl) (fun i => rfl))).congr fun i => ?_
  congr 1
  unfold divAt
  have hq2 : ContDiff ℝ 2 (q i.M) := (hq.smooth i.M).of_le (by norm_num)
  rw [fderiv_mul2 (hH.diff (by omega) i.M) (diff_fderiv hq2 _),
    fderiv_mul2 (hH.diff (by omega) i.M) (diff_fderiv hq2 _), fderiv_fderiv hq2, fderiv_fderiv hq2]
  simp only [iteratedFDeriv_two_apply]
  set A := fderiv ℝ (fderiv ℝ (q i.M)) i.x with hA
  have L : ∀ v : ℝ × ℝ, A v v = v.1 * A v (1, 0) + v.2 * A v (0, 1) := fun v => lin_pt (A v) v.1 v.2
  have L' : ∀ v : ℝ × ℝ, fderiv ℝ (q i.M) i.x v = v.1 * fderiv ℝ (q i.M) i.x (1, 0) + v.2 * fderiv ℝ (q i.M) i.x (0, 1) :=
    fun v => lin_pt (fderiv ℝ (q i.M) i.x) v.1 v.2
  have s1 := sum_dirs (A.flip (1, 0)) (A.flip (0, 1))
  have s2 := sum_dirs (fderiv ℝ (q i.M) i.x (1, 0) • fderiv ℝ (H i.M) i.x) (fderiv ℝ (q i.M) i.x (0, 1) • fderiv ℝ (H i.M) i.x)
  simp only [_root_.smul_apply, smul_eq_mul, ContinuousLinearMap.flip_apply] at s1 s2
  rw [L (dir 0), L (dir 1), L (dir 2), L' (dir 0), L' (dir 1), L' (dir 2)]
  linear_combination (-2 / 3 * H i.M i.x) * s1 - 2 / 3 * s2

end Props
end
end Omega
