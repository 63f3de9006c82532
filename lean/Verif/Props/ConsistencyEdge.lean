import Verif.Props.ConsistencyCell

/-!
# C71, the terms of the velocity equation
-/

set_option linter.unusedVariables false
set_option linter.unusedSectionVars false

namespace Omega
noncomputable section
namespace Props

open Prog Model Refine Hex Taylor Jets

variable {P Q D : ℝ} {T : MeshParams → ℝ → Type}

/-- type of the edge -/
def EdgeIx.a (i : EdgeIx D T) : Int := i.e % 3

theorem EdgeIx.a_cases (i : EdgeIx D T) : i.a = 0 ∨ i.a = 1 ∨ i.a = 2 := by unfold EdgeIx.a; omega
theorem EdgeIx.norm_dir (i : EdgeIx D T) : ‖dir i.a‖ ≤ 1 := by
  have := i.a_cases
  exact norm_dir1 (by omega) (by omega)

/-! ### Gradient of the kinetic energy -/

/-- kinetic energy of a cell as a function of the position -/
def keF (dc : ℝ) (U W : ℝ × ℝ → ℝ) (y : ℝ × ℝ) : ℝ :=
  1 / 6 * ((normF U W 0 (y + (dc / 2) • dir 0) ^ 2 + normF U W 0 (y - (dc / 2) • dir 0) ^ 2) +
    (normF U W 1 (y + (dc / 2) • dir 1) ^ 2 + normF U W 1 (y - (dc / 2) • dir 1) ^ 2) +
    (normF U W 2 (y + (dc / 2) • dir 2) ^ 2 + normF U W 2 (y - (dc / 2) • dir 2) ^ 2))

theorem per_keF (dc : ℝ) {U W : ℝ × ℝ → ℝ} (hU : Periodic2 P Q U) (hW : Periodic2 P Q W) :
    Periodic2 P Q (keF dc U W) := by
  have k : ∀ j w, (∀ x y, normF U W j ((x + P, y) + w) = normF U W j ((x, y) + w)) ∧
      (∀ x y, normF U W j ((x, y + Q) + w) = normF U W j ((x, y) + w)) := fun j w =>
    per_shift (per_normF hU hW j) w
  constructor
  · intro x y
    unfold keF
    simp only [sub_eq_add_neg, (k _ _).1 x y]
  · intro x y
    unfold keF
    simp only [sub_eq_add_neg, (k _ _).2 x y]

theorem ke_cell (M : MeshOf D T) {U W : ℝ × ℝ → ℝ} (hU : Periodic2 M.P M.Q U) (hW : Periodic2 M.P M.Q W)
    {c : Int} (hc : IsCell M.p.nx M.p.ny c) :
    Spec.kinetic M.m (normalOf M.m U W) c = keF M.dc U W (cellAt M.m c) := by
  rw [spec_kinetic M.geo _ hc]
  unfold Sd keF
  beta_reduce
  have S := fun j a b => at_side M (per_normF hU hW) (fun e h0 h1 => norm_edge M U W h0 h1) hc
    (j := j) a b
  rw [S 0 (by omega) (by omega), S 1 (by omega) (by omega), S 2 (by omega) (by omega),
    S 3 (by omega) (by omega), S 4 (by omega) (by omega), S 5 (by omega) (by omega)]
  have d3 := dir_opp (j := 0) (by omega) (by omega)
  have d4 := dir_opp (j := 1) (by omega) (by omega)
  have d5 := dir_opp (j := 2) (by omega) (by omega)
  norm_num at d3 d4 d5
  rw [d3, d4, d5]
  norm_num only
  simp only [smul_neg, ← sub_eq_add_neg]
  ring

theorem grad_congr_cells (M : MeshOf D T) {φ ψ : Int → ℝ}
    (h : ∀ c, IsCell M.p.nx M.p.ny c → φ c = ψ c) {e : Int} (h0 : 0 ≤ e) (h1 : e < M.p.dims.nedges) :
    Spec.grad M.m φ e = Spec.grad M.m ψ e := by
  rw [spec_grad M.geo _ h0 h1, spec_grad M.geo _ h0 h1]
  unfold Gr
  rw [h (coe M.p.nx M.p.ny e 0) (coe_isCell M.valid.nx_pos h0 h1), h (coe M.p.nx M.p.ny e 1)
    (by rw [coe_one]; exact isCell_edge h0 h1)]

theorem norm_half_sum {v w : ℝ × ℝ} (h : ‖v‖ ≤ 1) (h' : ‖w‖ ≤ 1) :
    ‖(1 / 2 : ℝ) • (v + w)‖ ≤ 1 ∧ ‖(1 / 2 : ℝ) • (v - w)‖ ≤ 1 := by
  have h1 := norm_add_le v w
  have h2 := norm_sub_le v w
  rw [norm_smul, norm_smul]
  norm_num
  constructor <;> linarith

theorem smooth_normF {n : ℕ} {U W : MeshOf D T → ℝ × ℝ → ℝ} (hU : Smooth n U) (hW : Smooth n W) (a : Int) :
    Smooth n (fun M => normF (U M) (W M) a) := by
  have := ((hU.cmul (dir a).1).add (hW.cmul (dir a).2)).cmul (-1)
  have e : (fun M z => -1 * ((dir a).1 * U M z + (dir a).2 * W M z)) = fun M => normF (U M) (W M) a := by
    funext M z; unfold normF; ring
  rwa [e] at this

/-- The gradient of the kinetic energy. -/
theorem ke_order {U W : MeshOf D T → ℝ × ℝ → ℝ} (hU : Smooth 3 U) (hW : Smooth 3 W) :
    Ord (dcE : Spacing (EdgeIx D T)) 2 (fun i =>
      Spec.grad i.m (Spec.kinetic i.m (normalOf i.m (U i.M) (W i.M))) i.e -
        normalOf i.m (fun z => fderiv ℝ (fun w => (U i.M w ^ 2 + W i.M w ^ 2) / 2) z (1, 0))
          (fun z => fderiv ℝ (fun w => (U i.M w ^ 2 + W i.M w ^ 2) / 2) z (0, 1)) i.e) := by
  have hg : ∀ j, Smooth 3 (fun M z => normF (U M) (W M) j z ^ 2) := fun j => by
    have := (smooth_normF hU hW j).mul (smooth_normF hU hW j)
    simpa only [sq] using this
  have t : ∀ j : Int, 0 ≤ j → j < 3 → J3 (dcE : Spacing (EdgeIx D T))
      (fun i => normF (U i.M) (W i.M) j (i.x + i.dc • ((1 / 2 : ℝ) • (dir i.a + dir j))) ^ 2 +
        normF (U i.M) (W i.M) j (i.x + i.dc • ((1 / 2 : ℝ) • (dir i.a - dir j))) ^ 2)
      (fun i => normF (U i.M) (W i.M) j (i.x - i.dc • ((1 / 2 : ℝ) • (dir i.a + dir j))) ^ 2 +
        normF (U i.M) (W i.M) j (i.x - i.dc • ((1 / 2 : ℝ) • (dir i.a - dir j))) ^ 2)
      (fun i => 2 * normF (U i.M) (W i.M) j i.x ^ 2)
      (fun i => fderiv ℝ (fun z => normF (U i.M) (W i.M) j z ^ 2) i.x (dir i.a)) := by
    intro j h0 h3
    have t1 := J3.taylor (dcE : Spacing (EdgeIx D T)) (hg j).edges (fun i => i.x)
      (fun i => (1 / 2 : ℝ) • (dir i.a + dir j))
      (fun i => (norm_half_sum i.norm_dir (norm_dir1 h0 (by omega))).1)
    have t2 := J3.taylor (dcE : Spacing (EdgeIx D T)) (hg j).edges (fun i => i.x)
      (fun i => (1 / 2 : ℝ) • (dir i.a - dir j))
      (fun i => (norm_half_sum i.norm_dir (norm_dir1 h0 (by omega))).2)
    refine (t1.add t2).congr (fun i => rfl) (fun i => rfl) (fun i => by ring) (fun i => ?_)
    rw [← map_add, ← smul_add, show dir i.a + dir j + (dir i.a - dir j) = (2 : ℝ) • dir i.a by
      rw [two_smul]; abel, smul_smul]
    norm_num
  have J := (((t 0 (by omega) (by omega)).add (t 1 (by omega) (by omega))).add
    (t 2 (by omega) (by omega)))
  refine (J.diff.div.cmul (-1 / 6)).congr fun i => ?_
  have hd : (dcE.val i : ℝ) = i.dc := rfl
  have hp := i.pos.ne'
  rw [grad_congr_cells i.toMeshOf (fun c hc => ke_cell i.toMeshOf (hU.per i.M) (hW.per i.M) hc) i.lo i.hi,
    grad_edge i.toMeshOf (per_keF i.dc (hU.per i.M) (hW.per i.M)) i.lo i.hi, norm_edge i.toMeshOf _ _ i.lo i.hi]
  show gradF i.dc (keF i.dc (U i.M) (W i.M)) i.a i.x - normF _ _ i.a i.x = _
  unfold gradF keF
  have e1 : ∀ j, i.x - (i.dc / 2) • dir i.a + (i.dc / 2) • dir j =
      i.x - i.dc • ((1 / 2 : ℝ) • (dir i.a - dir j)) := fun j => by
    ext <;> simp <;> ring
  have e2 : ∀ j, i.x - (i.dc / 2) • dir i.a - (i.dc / 2) • dir j =
      i.x - i.dc • ((1 / 2 : ℝ) • (dir i.a + dir j)) := fun j => by
    ext <;> simp <;> ring
  have e3 : ∀ j, i.x + (i.dc / 2) • dir i.a + (i.dc / 2) • dir j =
      i.x + i.dc • ((1 / 2 : ℝ) • (dir i.a + dir j)) := fun j => by
    ext <;> simp <;> ring
  have e4 : ∀ j, i.x + (i.dc / 2) • dir i.a - (i.dc / 2) • dir j =
      i.x + i.dc • ((1 / 2 : ℝ) • (dir i.a - dir j)) := fun j => by
    ext <;> simp <;> ring
  simp only [e1, e2, e3, e4]
  have hK : (fun w => (U i.M w ^ 2 + W i.M w ^ 2) / 2) = fun w => 1 / 3 * (normF (U i.M) (W i.M) 0 w ^ 2 + normF (U i.M) (W i.M) 1 w ^ 2
      + normF (U i.M) (W i.M) 2 w ^ 2) := by
    funext w
    have hs : √3 ^ 2 = 3 := Real.sq_sqrt (by norm_num)
    unfold normF dir
    norm_num [DX, DY]
    ring_nf
    rw [hs]
    ring
  have hn : ∀ j, DifferentiableAt ℝ (fun z => normF (U i.M) (W i.M) j z ^ 2) i.x := fun j =>
    (hg j).diff (by omega) i.M _
  have hF : ∀ v, fderiv ℝ (fun w => (U i.M w ^ 2 + W i.M w ^ 2) / 2) i.x v = 1 / 3 *
      (fderiv ℝ (fun z => normF (U i.M) (W i.M) 0 z ^ 2) i.x v + fderiv ℝ (fun z => normF (U i.M) (W i.M) 1 z ^ 2) i.x v +
        fderiv ℝ (fun z => normF (U i.M) (W i.M) 2 z ^ 2) i.x v) := by
    intro v
    rw [hK, fderiv_const_mul (((hn 0).fun_add (hn 1)).fun_add (hn 2)),
      fderiv_fun_add ((hn 0).fun_add (hn 1)) (hn 2),
      fderiv_fun_add (hn 0) (hn 1)]
    rfl
  have hN : normF (fun z => fderiv ℝ (fun w => (U i.M w ^ 2 + W i.M w ^ 2) / 2) z (1, 0))
      (fun z => fderiv ℝ (fun w => (U i.M w ^ 2 + W i.M w ^ 2) / 2) z (0, 1)) i.a i.x =
      -fderiv ℝ (fun w => (U i.M w ^ 2 + W i.M w ^ 2) / 2) i.x (dir i.a) := by
    unfold normF
    rw [show fderiv ℝ (fun w => (U i.M w ^ 2 + W i.M w ^ 2) / 2) i.x (dir i.a) = _ from
      lin_pt _ (dir i.a).1 (dir i.a).2]
  rw [hN, hF, hd]
  field_simp
  ring

/-! ### Vertices -/

/-- from a vertex with an even number to its edge of type `a`, in units of the spacing -/
def spokeV (a : Int) : ℝ × ℝ := (√3 / 6 * (if a = 1 then 1 else -1)) • (DY a * √3 / 2, -DX a)
/-- the orientation of a vertex -/
def sgnV (v : Int) : ℝ := if v % 2 = 0 then 1 else -1
/-- from a vertex with an even number to its cells -/
def kiteV (s : Int) : ℝ × ℝ :=
  if s = 0 then spokeV 0 - (1 / 2 : ℝ) • dir 0 else if s = 1 then spokeV 2 - (1 / 2 : ℝ) • dir 2
  else spokeV 0 + (1 / 2 : ℝ) • dir 0

theorem norm_spokeV {a : Int} (h : a = 0 ∨ a = 1 ∨ a = 2) : ‖spokeV a‖ ≤ 1 := by
  have hw := w_pos
  have hw2 := sqrt3_le
  have hs := w_sq
  have e2 : ‖((DY a * √3 / 2, -DX a) : ℝ × ℝ)‖ ≤ 1 := by
    rcases h with rfl | rfl | rfl
    all_goals
      unfold DX DY
      apply norm_pt <;> rw [abs_le] <;> norm_num <;> constructor <;> linarith
  unfold spokeV
  rw [norm_smul]
  have e1 : ‖√3 / 6 * (if a = 1 then (1 : ℝ) else -1)‖ ≤ 1 := by
    rw [Real.norm_eq_abs, abs_mul, abs_of_pos (by positivity : 0 < √3 / 6)]
    split_ifs <;> norm_num <;> linarith
  exact mul_le_one₀ e1 (norm_nonneg _) e2

theorem kite_odd : spokeV 1 - (1 / 2 : ℝ) • dir 1 = kiteV 1 := by
  have hs := w_sq
  unfold kiteV spokeV dir
  ext
  · simp [DX, DY]
    linear_combination (-1 / 6 : ℝ) * hs
  · simp [DX, DY]
    ring

/-- Edges of a vertex. -/
theorem edge_at_vertex (M : MeshOf D T) {φ : ℝ × ℝ → ℝ} (h : Periodic2 M.P M.Q φ) {v : Int} (h0 : 0 ≤ v)
    (h1 : v < 2 * (M.p.nx * M.p.ny)) {s : Int} (a : 0 ≤ s) (b : s < 3) :
    Hex.eov M.p.nx M.p.ny v s % 3 = (if s = 0 then 0 else if s = 1 then 2 else 1) ∧
    (0 ≤ Hex.eov M.p.nx M.p.ny v s ∧ Hex.eov M.p.nx M.p.ny v s < M.p.dims.nedges) ∧
    φ (edgeAt M.m (Hex.eov M.p.nx M.p.ny v s)) = φ (vertAt M.m v +
      (sgnV v * M.dc) • spokeV (if s = 0 then 0 else if s = 1 then 2 else 1)) := by
  have hnx := M.valid.nx_pos
  have hvc := isCell_vertex h0 h1
  have hm : Hex.eov M.p.nx M.p.ny v s % 3 = (if s = 0 then 0 else if s = 1 then 2 else 1) := by
    unfold Hex.eov; split_ifs <;> omega
  have hs : eovEnd v s = 0 ∨ eovEnd v s = 1 := by unfold eovEnd; split_ifs <;> simp
  have hr := eov_isCell hnx h0 h1 (s := s)
  have he : 0 ≤ Hex.eov M.p.nx M.p.ny v s ∧ Hex.eov M.p.nx M.p.ny v s < 3 * (M.p.nx * M.p.ny) := by
    unfold IsCell at hr; omega
  refine ⟨hm, he, ?_⟩
  have k := edge_of_vertex M.valid M.even M.built h he.1 he.2 hs
  rw [voe_eov hnx hvc a b, hm] at k
  rw [k]
  congr 2
  unfold spokeV sgnV eovEnd
  rw [smul_smul]
  congr 1
  obtain rfl | rfl | rfl : s = 0 ∨ s = 1 ∨ s = 2 := by omega
  all_goals
    by_cases hp : v % 2 = 0
    all_goals
      simp [hp]
      ring

/-- The cells of a vertex. -/
theorem cells_at_vertex (M : MeshOf D T) {φ : ℝ × ℝ → ℝ} (h : Periodic2 M.P M.Q φ) {v : Int} (h0 : 0 ≤ v)
    (h1 : v < 2 * (M.p.nx * M.p.ny)) :
    φ (cellAt M.m (Hex.cov M.p.nx M.p.ny v 0)) + φ (cellAt M.m (Hex.cov M.p.nx M.p.ny v 1)) +
      φ (cellAt M.m (Hex.cov M.p.nx M.p.ny v 2)) =
    φ (vertAt M.m v + (sgnV v * M.dc) • kiteV 0) + φ (vertAt M.m v + (sgnV v * M.dc) • kiteV 1) +
      φ (vertAt M.m v + (sgnV v * M.dc) • kiteV 2) := by
  have hnx := M.valid.nx_pos
  have hvc := isCell_vertex h0 h1
  have A : ∀ s : Int, 0 ≤ s → s < 3 → ∀ t : ℝ, φ (edgeAt M.m (Hex.eov M.p.nx M.p.ny v s) + t •
      dir (if s = 0 then 0 else if s = 1 then 2 else 1)) = φ (vertAt M.m v + ((sgnV v * M.dc) •
      spokeV (if s = 0 then 0 else if s = 1 then 2 else 1) + t •
      dir (if s = 0 then 0 else if s = 1 then 2 else 1))) := by
    intro s a b t
    have := (edge_at_vertex M (per_shift h (t • dir (if s = 0 then 0 else if s = 1 then 2 else 1)))
      h0 h1 a b).2.2
    rw [this, add_assoc]
  have B : ∀ s : Int, 0 ≤ s → s < 3 →
      φ (cellAt M.m (coe M.p.nx M.p.ny (Hex.eov M.p.nx M.p.ny v s) 0)) = φ (vertAt M.m v +
        ((sgnV v * M.dc) • spokeV (if s = 0 then 0 else if s = 1 then 2 else 1) + (M.dc / 2) •
        dir (if s = 0 then 0 else if s = 1 then 2 else 1))) ∧
      φ (cellAt M.m (coe M.p.nx M.p.ny (Hex.eov M.p.nx M.p.ny v s) 1)) = φ (vertAt M.m v +
        ((sgnV v * M.dc) • spokeV (if s = 0 then 0 else if s = 1 then 2 else 1) + (-(M.dc / 2)) •
        dir (if s = 0 then 0 else if s = 1 then 2 else 1))) := by
    intro s a b
    obtain ⟨hm, he, -⟩ := edge_at_vertex M h h0 h1 a b
    obtain ⟨k0, k1⟩ := cells_of_edge M.valid M.even M.built h he.1 he.2
    rw [k0, k1, normal_eq M.valid M.built he.1 he.2, hm, ← A s a b, ← A s a b, smul_neg,
      sub_neg_eq_add, neg_smul]
    exact ⟨rfl, rfl⟩
  by_cases hp : v % 2 = 0
  · have c0 : Hex.cov M.p.nx M.p.ny v 0 = coe M.p.nx M.p.ny (Hex.eov M.p.nx M.p.ny v 0) 1 := by
      simp [Hex.cov, coe, Hex.eov, hp]
    have c1 : Hex.cov M.p.nx M.p.ny v 1 = coe M.p.nx M.p.ny (Hex.eov M.p.nx M.p.ny v 1) 1 := by
      simp [Hex.cov, coe, Hex.eov, hp]; omega
    have c2 : Hex.cov M.p.nx M.p.ny v 2 = coe M.p.nx M.p.ny (Hex.eov M.p.nx M.p.ny v 0) 0 := by
      simp [Hex.cov, coe, Hex.eov, hp]
    rw [c0, c1, c2, (B 0 (by omega) (by omega)).2, (B 1 (by omega) (by omega)).2,
      (B 0 (by omega) (by omega)).1]
    simp only [kiteV, sgnV, hp, if_true, one_mul]
    norm_num only
    simp only [if_false, smul_sub, smul_add, smul_smul, neg_smul, ← sub_eq_add_neg, mul_one_div]
  · have c0 : Hex.cov M.p.nx M.p.ny v 0 = coe M.p.nx M.p.ny (Hex.eov M.p.nx M.p.ny v 0) 0 := by
      simp [Hex.cov, coe, Hex.eov, hp]
    have c1 : Hex.cov M.p.nx M.p.ny v 1 = coe M.p.nx M.p.ny (Hex.eov M.p.nx M.p.ny v 2) 0 := by
      have e1 : (3 * (v / 2) + 1) % 3 = 1 := by omega
      have e2 : (3 * (v / 2) + 1) / 3 = v / 2 := by omega
      simp [Hex.cov, coe, Hex.eov, hp, e1, e2]
    have c2 : Hex.cov M.p.nx M.p.ny v 2 = coe M.p.nx M.p.ny (Hex.eov M.p.nx M.p.ny v 0) 1 := by
      simp [Hex.cov, coe, Hex.eov, hp]
    rw [c0, c1, c2, (B 0 (by omega) (by omega)).1, (B 2 (by omega) (by omega)).1,
      (B 0 (by omega) (by omega)).2, ← kite_odd]
    refine congrArg₂ (· + ·) (congrArg₂ (· + ·) (congrArg φ ?_) (congrArg φ ?_)) (congrArg φ ?_)
    all_goals ext <;> simp [kiteV, sgnV, hp] <;> ring

/-- potential vorticity at a vertex of orientation `σ`, as a function of the position -/
def pvF (dc f0 : ℝ) (H U W : ℝ × ℝ → ℝ) (σ : ℝ) (y : ℝ × ℝ) : ℝ :=
  (4 * σ / (dc * √3) * (normF U W 0 (y + (σ * dc) • spokeV 0) + normF U W 2 (y + (σ * dc) • spokeV 2) -
    normF U W 1 (y + (σ * dc) • spokeV 1)) + f0) /
  ((H (y + (σ * dc) • kiteV 0) + H (y + (σ * dc) • kiteV 1) + H (y + (σ * dc) • kiteV 2)) / 3)

theorem per_pvF (dc f0 : ℝ) {H U W : ℝ × ℝ → ℝ} (hH : Periodic2 P Q H) (hU : Periodic2 P Q U)
    (hW : Periodic2 P Q W) (σ : ℝ) : Periodic2 P Q (pvF dc f0 H U W σ) := by
  have k : ∀ j w, (∀ x y, normF U W j ((x + P, y) + w) = normF U W j ((x, y) + w)) ∧
      (∀ x y, normF U W j ((x, y + Q) + w) = normF U W j ((x, y) + w)) := fun j w =>
    per_shift (per_normF hU hW j) w
  have l : ∀ w, (∀ x y, H ((x + P, y) + w) = H ((x, y) + w)) ∧
      (∀ x y, H ((x, y + Q) + w) = H ((x, y) + w)) := fun w => per_shift hH w
  constructor
  · intro x y
    unfold pvF
    simp only [(k _ _).1 x y, (l _).1 x y]
  · intro x y
    unfold pvF
    simp only [(k _ _).2 x y, (l _).2 x y]

theorem pv_vertex (M : MeshOf D T) (f0 : ℝ) {H U W : ℝ × ℝ → ℝ} (hH : Periodic2 M.P M.Q H)
    (hU : Periodic2 M.P M.Q U) (hW : Periodic2 M.P M.Q W) {v : Int} (h0 : 0 ≤ v)
    (h1 : v < 2 * (M.p.nx * M.p.ny)) :
    (Spec.curl M.m (normalOf M.m U W) v + f0) / Spec.kiteMean M.m (fun c => H (cellAt M.m c)) v =
      pvF M.dc f0 H U W (sgnV v) (vertAt M.m v) := by
  rw [spec_curl M.geo _ h0 h1, spec_kiteMean M.geo _ h0 h1]
  unfold pvF Mv
  rw [← cells_at_vertex M hH h0 h1]
  congr 2
  have S : ∀ s : Int, 0 ≤ s → s < 3 → normalOf M.m U W (Hex.eov M.p.nx M.p.ny v s) =
      normF U W (if s = 0 then 0 else if s = 1 then 2 else 1) (vertAt M.m v +
      (sgnV v * M.dc) • spokeV (if s = 0 then 0 else if s = 1 then 2 else 1)) := by
    intro s a b
    obtain ⟨hm, he, -⟩ := edge_at_vertex M hU h0 h1 a b
    rw [norm_edge M U W he.1 he.2, hm]
    exact (edge_at_vertex M (per_normF hU hW _) h0 h1 a b).2.2
  have S0 := S 0 (by omega) (by omega)
  have S1 := S 1 (by omega) (by omega)
  have S2 := S 2 (by omega) (by omega)
  norm_num only at S0 S1 S2
  simp only [if_true, if_false] at S0 S1 S2
  unfold Cu
  rw [S0, S1, S2]
  by_cases hp : v % 2 = 0
  · simp only [sgnV, hp, if_true]; ring
  · simp only [sgnV, hp, if_false]; ring

/-- The mean over the two vertices of an edge. -/
theorem vmean_edge (M : MeshOf D T) {Ψ : ℝ → ℝ × ℝ → ℝ} (h : ∀ σ, Periodic2 M.P M.Q (Ψ σ)) {ψ : Int → ℝ}
    (hψ : ∀ v, 0 ≤ v → v < 2 * (M.p.nx * M.p.ny) → ψ v = Ψ (sgnV v) (vertAt M.m v)) {e : Int}
    (h0 : 0 ≤ e) (h1 : e < M.p.dims.nedges) :
    Spec.vmean M.m ψ e = (Ψ 1 (edgeAt M.m e - M.dc • spokeV (e % 3)) +
      Ψ (-1) (edgeAt M.m e + M.dc • spokeV (e % 3))) / 2 := by
  have hnx := M.valid.nx_pos
  have hC := isCell_edge h0 h1
  have e0 : Spec.vertOf M.m e 0 = Hex.voe M.p.nx M.p.ny e 0 := M.geo.voe e h0 h1 0 (by omega) (by omega)
  have e1 : Spec.vertOf M.m e 1 = Hex.voe M.p.nx M.p.ny e 1 := M.geo.voe e h0 h1 1 (by omega) (by omega)
  unfold Spec.vmean
  rw [e0, e1]
  have r0 := voe_isVertex hnx hC (s := 0) (by simp)
  have r1 := voe_isVertex hnx hC (s := 1) (by simp)
  rw [hψ _ r0.1 r0.2, hψ _ r1.1 r1.2]
  have K : ∀ s, s = 0 ∨ s = 1 → ∀ σ, Ψ σ (vertAt M.m (Hex.voe M.p.nx M.p.ny e s)) =
      Ψ σ (edgeAt M.m e + (-(M.dc * √3 / 6 * (if s = 0 then 1 else -1))) •
        (DY (e % 3) * √3 / 2, -DX (e % 3))) := by
    intro s hs σ
    have := edge_of_vertex M.valid M.even M.built (per_shift (h σ)
      ((-(M.dc * √3 / 6 * (if s = 0 then 1 else -1))) • (DY (e % 3) * √3 / 2, -DX (e % 3)))) h0 h1 hs
    rw [this, add_assoc, ← add_smul, add_neg_cancel, zero_smul, add_zero]
  rw [K 0 (by simp), K 1 (by simp)]
  obtain ha | ha | ha : e % 3 = 0 ∨ e % 3 = 1 ∨ e % 3 = 2 := by omega
  · have s0 : sgnV (Hex.voe M.p.nx M.p.ny e 0) = -1 := by
      unfold sgnV Hex.voe; rw [if_neg]; simp [ha]
    have s1 : sgnV (Hex.voe M.p.nx M.p.ny e 1) = 1 := by
      unfold sgnV Hex.voe; rw [if_pos]; simp [ha]
    rw [s0, s1, ha, add_comm]
    unfold spokeV
    norm_num only
    simp only [if_true, if_false, smul_smul, sub_eq_add_neg, ← neg_smul]
    ring_nf
  · have s0 : sgnV (Hex.voe M.p.nx M.p.ny e 0) = 1 := by
      unfold sgnV Hex.voe; rw [if_pos]; simp [ha]
    have s1 : sgnV (Hex.voe M.p.nx M.p.ny e 1) = -1 := by
      unfold sgnV Hex.voe; rw [if_neg]; simp [ha]
    rw [s0, s1, ha]
    unfold spokeV
    norm_num only
    simp only [if_true, if_false, smul_smul, sub_eq_add_neg, ← neg_smul]
    ring_nf
  · have s0 : sgnV (Hex.voe M.p.nx M.p.ny e 0) = -1 := by
      unfold sgnV Hex.voe; rw [if_neg]; simp [ha]
    have s1 : sgnV (Hex.voe M.p.nx M.p.ny e 1) = 1 := by
      unfold sgnV Hex.voe; rw [if_pos]; simp [ha]
    rw [s0, s1, ha, add_comm]
    unfold spokeV
    norm_num only
    simp only [if_true, if_false, smul_smul, sub_eq_add_neg, ← neg_smul]
    ring_nf

end Props
end
end Omega
