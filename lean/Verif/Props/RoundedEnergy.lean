import Verif.Props.RoundedMass

/-!
# C115: the energy diagnostic in rounded arithmetic
-/

set_option linter.unusedVariables false
set_option linter.unusedSectionVars false

namespace Omega
noncomputable section

namespace Props

open Prog Model Refine Hex

variable {R : Type} [Scalar R] {val : R → ℝ} {u : ℝ} {p : MeshParams} {dc : R}

theorem Near.mono' (hu : 0 ≤ u) {n n' : ℕ} {x y : ℝ} (h : Near u n x y) (hn : n ≤ n') : Near u n' x y := by
  unfold Near at h ⊢
  refine h.trans (mul_le_mul_of_nonneg_right ?_ (abs_nonneg _))
  have := pow_le_pow_right₀ (by linarith : (1 : ℝ) ≤ 1 + u) hn
  linarith

theorem Near.divBy (hu : 0 ≤ u) {n : ℕ} {x y b z : ℝ} (h : Near u n x y) (hz : |z - x / b| ≤ u * |x / b|) :
    Near u (n + 1) z (y / b) := by
  rw [div_eq_mul_inv] at hz ⊢
  simpa using Near.mul hu h (near_refl u b⁻¹) hz

theorem Near.chain (hu : 0 ≤ u) {n m : ℕ} {x y z : ℝ} (h : Near u n x y) (h' : Near u m y z) : Near u (n + m) x z := by
  have l := h'.le
  unfold Near at h h' ⊢
  have hn := one_le_pow₀ (by linarith : (1 : ℝ) ≤ 1 + u) (n := n)
  calc |x - z| ≤ |x - y| + |y - z| := abs_sub_le _ _ _
    _ ≤ ((1 + u) ^ n - 1) * ((1 + u) ^ m * |z|) + ((1 + u) ^ m - 1) * |z| :=
        add_le_add (h.trans (mul_le_mul_of_nonneg_left l (by linarith))) h'
    _ = _ := by rw [pow_add]; ring

/-- sums of numbers that are not negative -/
theorem NearSum.near {n : ℕ} {x y : ℝ} (h : NearSum u n x y y) : Near u n x y := by
  unfold Near
  rw [abs_of_nonneg h.nonneg]
  exact h.2

theorem Near.sum {n : ℕ} {x y : ℝ} (h : Near u n x y) (h0 : 0 ≤ y) : NearSum u n x y y := by
  have := NearSum.of_near h
  rwa [abs_of_nonneg h0] at this

/-! ### The energy -/

/-- energy of a column and layer with the exact geometry of regular hexagons: area times `g h² / 2`, and a quarter of
edge length times cell distance times velocity squared for each side of the cell, times thickness -/
def cellEnergy (val : R → ℝ) (dc grav : R) (m : Mem R) (c k : Int) : ℝ :=
  val dc ^ 2 * √3 / 2 * (val grav * val (m.real (.h_cell .state) 0 c k) ^ 2 / 2) +
    val (m.real (.h_cell .state) 0 c k) * ∑ j ∈ Finset.range 6,
      val dc ^ 2 * √3 / 3 * val (m.real (.vn_edge .state) 0 (m.int .edges_on_cell c j) k) ^ 2 / 4

/-- energy of the stored state, exactly -/
def exactEnergy (val : R → ℝ) (p : MeshParams) (dc grav : R) (m : Mem R) : ℝ :=
  ∑ c ∈ upto (p.nx * p.ny), ∑ k ∈ upto p.dims.nlayers, cellEnergy val dc grav m c k

section

variable (hR : Rounded val u) (hv : RunValid p) {m : Mem R} (hm : IsHexMesh p dc m) (hdc : 0 < val dc)
include hR hv hm hdc

theorem sqrt3_near : Near u 1 (val (Scalar.sqrt (lit 3 : R))) √3 := by
  have h3 : val (lit 3 : R) = 3 := by rw [hR.lit 3 (by norm_num)]; norm_num
  have := hR.sqrt (lit 3) (by rw [h3]; norm_num)
  unfold Near
  rw [h3] at this
  rw [abs_of_nonneg (Real.sqrt_nonneg _), pow_one]
  simpa using this

theorem area_near {c : Int} (hc : IsCell p.nx p.ny c) :
    Near u 4 (val (m.real .area_cell 0 c 0)) (val dc ^ 2 * √3 / 2) := by
  have u0 := hR.nonneg
  rw [hm.area_cell c hc]
  have h2 : val (lit 2 : R) = 2 := by rw [hR.lit 2 (by norm_num)]; norm_num
  have a := Near.mul u0 (near_refl u (val dc)) (near_refl u (val dc)) (hR.mul dc dc)
  have b := Near.mul u0 a (sqrt3_near hR hv hm hdc) (hR.mul _ _)
  have d := Near.divBy u0 b (hR.div _ (lit 2) (by rw [h2]; norm_num))
  rw [h2] at d
  rw [sq]
  exact d

theorem dv_near {e : Int} (e0 : 0 ≤ e) (e1 : e < 3 * (p.nx * p.ny)) :
    Near u 3 (val (m.real .dv_edge 0 e 0)) (val dc * √3 / 3) := by
  have u0 := hR.nonneg
  rw [hm.dv_edge e e0 e1]
  have h3 : val (lit 3 : R) = 3 := by rw [hR.lit 3 (by norm_num)]; norm_num
  have b := Near.mul u0 (near_refl u (val dc)) (sqrt3_near hR hv hm hdc) (hR.mul _ _)
  have d := Near.divBy u0 b (hR.div _ (lit 3) (by rw [h3]; norm_num))
  rw [h3] at d
  exact d

theorem near_pos (hu : u ≤ 1 / 1000) {x y : ℝ} (h : Near u 4 x y) (hy : 0 < y) : 0 < x := by
  have u0 := hR.nonneg
  unfold Near at h
  rw [abs_of_pos hy] at h
  have h4 : (1 + u) ^ 4 ≤ 3 / 2 := by
    have : (1 + u) ^ 4 ≤ (1 + 1 / 1000) ^ 4 := pow_le_pow_left₀ (by linarith) (by linarith) 4
    norm_num at this ⊢; linarith
  have := (abs_le.1 h).1
  nlinarith

/-- the kinetic energy of the functor, times the stored area -/
theorem ke_near (hu : u ≤ 1 / 1000) {c k : Int} (hc : IsCell p.nx p.ny c) :
    Near u 14 (val (keF m .state c k)) ((∑ j ∈ Finset.range 6, val dc ^ 2 * √3 / 3 *
      val (m.real (.vn_edge .state) 0 (m.int .edges_on_cell c j) k) ^ 2 / 4) / val (m.real .area_cell 0 c 0)) := by
  have u0 := hR.nonneg
  have h4 : val (lit 4 : R) = 4 := by rw [hR.lit 4 (by norm_num)]; norm_num
  have hz : NearSum u 7 (val (lit 0 : R)) 0 0 := by
    rw [hR.lit 0 (by norm_num)]
    simp [NearSum]
  have key := nearSum_layers hR (r := 7) (q := fun j => val dc ^ 2 * √3 / 3 *
      val (m.real (.vn_edge .state) 0 (m.int .edges_on_cell c j) k) ^ 2 / 4) (w := fun j => val dc ^ 2 * √3 / 3 *
      val (m.real (.vn_edge .state) 0 (m.int .edges_on_cell c j) k) ^ 2 / 4) (g := fun j =>
      m.real .dv_edge 0 (m.int .edges_on_cell c j) 0 * m.real .dc_edge 0 (m.int .edges_on_cell c j) 0 *
      m.real (.vn_edge .state) 0 (m.int .edges_on_cell c j) k *
      m.real (.vn_edge .state) 0 (m.int .edges_on_cell c j) k / lit 4) 6 (fun j hj => by
        have j0 : (0 : Int) ≤ j := Int.natCast_nonneg j
        have j6 : (j : Int) < 6 := by exact_mod_cast hj
        have er : 0 ≤ m.int .edges_on_cell c j ∧ m.int .edges_on_cell c j < 3 * (p.nx * p.ny) := by
          rw [hm.eoc c hc j j0 j6]
          exact E_range hv.toValid.nx_pos hc j j0 j6
        refine Near.sum ?_ (by positivity)
        have a := dv_near hR hv hm hdc er.1 er.2
        have dcn : Near u 0 (val (m.real .dc_edge 0 (m.int .edges_on_cell c j) 0)) (val dc) := by
          rw [hm.dc_edge _ er.1 er.2]; exact near_refl _ _
        have b := Near.mul u0 a dcn (hR.mul _ _)
        have d := Near.mul u0 b (near_refl u (val (m.real (.vn_edge .state) 0 (m.int .edges_on_cell c j) k)))
          (hR.mul _ _)
        have e := Near.mul u0 d (near_refl u (val (m.real (.vn_edge .state) 0 (m.int .edges_on_cell c j) k)))
          (hR.mul _ _)
        have f := Near.divBy u0 e (hR.div _ (lit 4) (by rw [h4]; norm_num))
        rw [h4] at f
        rw [show ∀ v : ℝ, val dc ^ 2 * √3 / 3 * v ^ 2 / 4 = val dc * √3 / 3 * val dc * v * v / 4 from fun v => by ring]
        exact f) le_rfl hz
  rw [zero_add] at key
  have hA := near_pos hR hv hm hdc hu (area_near hR hv hm hdc hc) (by positivity)
  unfold keF
  rw [hm.neoc c hc]
  exact Near.divBy u0 key.near (hR.div _ _ hA.ne')

/-- one term of the energy sum -/
theorem term_near (hu : u ≤ 1 / 1000) {grav : R} (hg : 0 ≤ val grav) {c k : Int} (hc : IsCell p.nx p.ny c)
    (hh : 0 ≤ val (m.real (.h_cell .state) 0 c k)) :
    0 ≤ cellEnergy val dc grav m c k ∧
    Near u 21 (val (m.real .area_cell 0 c 0 *
      (grav * m.real (.h_cell .state) 0 c k * m.real (.h_cell .state) 0 c k / lit 2 +
        m.real (.h_cell .state) 0 c k * keF m .state c k))) (cellEnergy val dc grav m c k) := by
  have u0 := hR.nonneg
  have h2 : val (lit 2 : R) = 2 := by rw [hR.lit 2 (by norm_num)]; norm_num
  have an := area_near hR hv hm hdc hc
  have hA := near_pos hR hv hm hdc hu an (by positivity)
  have kn := ke_near hR hv hm hdc hu (k := k) hc
  unfold cellEnergy
  set S := ∑ j ∈ Finset.range 6, val dc ^ 2 * √3 / 3 *
    val (m.real (.vn_edge .state) 0 (m.int .edges_on_cell c j) k) ^ 2 / 4 with hS
  have S0 : 0 ≤ S := Finset.sum_nonneg fun j _ => by positivity
  clear_value S
  set h := m.real (.h_cell .state) 0 c k
  set A := m.real .area_cell 0 c 0
  have x1 := Near.mul u0 (near_refl u (val grav)) (near_refl u (val h)) (hR.mul _ _)
  have x2 := Near.mul u0 x1 (near_refl u (val h)) (hR.mul _ _)
  have x3 := Near.divBy u0 x2 (hR.div _ (lit 2) (by rw [h2]; norm_num))
  rw [h2] at x3
  have y1 := Near.mul u0 (near_refl u (val h)) kn (hR.mul _ _)
  have s := (Near.sum (Near.mono' u0 x3 (by norm_num : 3 ≤ 15)) (by positivity)).add hR
    (Near.sum (Near.mono' u0 y1 (by norm_num : 0 + 14 + 1 ≤ 15)) (by positivity))
  have t := Near.mul u0 (near_refl u (val A)) s.near (hR.mul _ _)
  have P0 : 0 ≤ val dc ^ 2 * √3 / 2 * (val grav * val h ^ 2 / 2) := by positivity
  have Q0 : 0 ≤ val h * S := by positivity
  refine ⟨by positivity, ?_⟩
  refine Near.mono' u0 (Near.chain u0 t (m := 4) ?_) (by norm_num)
  have e : val A * (val grav * val h * val h / 2 + val h * (S / val A)) -
      (val dc ^ 2 * √3 / 2 * (val grav * val h ^ 2 / 2) + val h * S) =
      (val A - val dc ^ 2 * √3 / 2) * (val grav * val h ^ 2 / 2) := by
    field_simp
    ring
  unfold Near at an ⊢
  rw [e, abs_mul, abs_of_nonneg (show 0 ≤ val grav * val h ^ 2 / 2 by positivity), abs_of_nonneg (add_nonneg P0 Q0)]
  rw [abs_of_nonneg (show 0 ≤ val dc ^ 2 * √3 / 2 by positivity)] at an
  have g4 : 0 ≤ (1 + u) ^ 4 - 1 := by
    have := one_le_pow₀ (by linarith : (1 : ℝ) ≤ 1 + u) (n := 4)
    linarith
  calc _ ≤ ((1 + u) ^ 4 - 1) * (val dc ^ 2 * √3 / 2) * (val grav * val h ^ 2 / 2) :=
        mul_le_mul_of_nonneg_right an (by positivity)
    _ = ((1 + u) ^ 4 - 1) * (val dc ^ 2 * √3 / 2 * (val grav * val h ^ 2 / 2)) := by ring
    _ ≤ _ := mul_le_mul_of_nonneg_left (by linarith) g4

end

/-- **C115.**  `energy_integral` in rounded arithmetic: whatever the order in which the threads add, the result has a
relative error of at most `(1+u)^n - 1` against the energy of the stored state on exact hexagons, `n` being the largest
number of roundings on a path of the reduction tree if a term comes with 21. -/
theorem C115_energy_rounding (hR : Rounded val u) (hu : u ≤ 1 / 1000) (hv : RunValid p) (hdc : 0 < val dc)
    {prm : Params R} {m : Mem R} (hr : Ready p dc prm m) {grav : R} (hg : 0 ≤ val grav)
    (hh : ∀ c k, 0 ≤ c → c < p.dims.ncells → 0 ≤ k → k < p.dims.nlayers → 0 ≤ val (m.real (.h_cell .state) 0 c k))
    {T : RTree} (hT : T.Covers p.dims.ncells) {v : R} (he : T.eval p.dims (energy_body grav .state) m = some v) :
    0 ≤ exactEnergy val p dc grav m ∧
    |val v - exactEnergy val p dc grav m| ≤
      ((1 + u) ^ roundings 21 p.dims.nlayers.toNat T - 1) * exactEnergy val p dc grav m := by
  have hx := (hr.hex hv.toValid).1
  have hl := levels_of_hex hx
  have L0 : 0 ≤ p.dims.nlayers := layers_nonneg hv
  rw [eval_eq (f := energyF grav m .state) (fun i a h0 h1 => wp_energy (ready_ok hv hr).2 hl grav .state a h0 h1) T
    hT.mem] at he
  have hv' := Option.some.inj he
  rw [← hv']
  have tn := fun (c : Int) (h0 : 0 ≤ c) (h1 : c < p.dims.ncells) (k : ℕ) (hk : k < p.dims.nlayers.toNat) =>
    term_near hR hv hx hdc hu hg (k := k) (c := c) ⟨h0, h1⟩ (hh c k h0 h1 (Int.natCast_nonneg k) (by omega))
  have key := nearSum_tree hR (N := p.dims.ncells) 21 p.dims.nlayers.toNat (f := energyF grav m .state)
    (g := fun c k => m.real .area_cell 0 c 0 *
      (grav * m.real (.h_cell .state) 0 c k * m.real (.h_cell .state) 0 c k / lit 2 +
        m.real (.h_cell .state) 0 c k * keF m .state c k))
    (q := cellEnergy val dc grav m) (w := cellEnergy val dc grav m)
    (fun c h0 h1 a => by
      unfold energyF
      rw [(hx.levels c).1 ⟨h0, h1⟩, Int.toNat_of_nonneg L0])
    (fun c h0 h1 k hk => Near.sum (tn c h0 h1 k hk).2 (tn c h0 h1 k hk).1) T hT.mem
  rw [covers_sum hT] at key
  have e1 : ∀ c, ∑ k ∈ Finset.range p.dims.nlayers.toNat, cellEnergy val dc grav m c k =
      ∑ k ∈ upto p.dims.nlayers, cellEnergy val dc grav m c k := fun c => Hex.sum_upto _ _
  rw [Finset.sum_congr rfl fun c _ => e1 c] at key
  exact ⟨key.nonneg, key.2⟩

/-- **C115.**  The reported energy of a wet layer is not negative, and two evaluations of the same state, however the
threads split the work, differ by at most the sum of the two rounding bounds. -/
theorem C115_energy_reported (hR : Rounded val u) (hu : u ≤ 1 / 1000) (hv : RunValid p) (hdc : 0 < val dc)
    {prm : Params R} {m : Mem R} (hr : Ready p dc prm m) {grav : R} (hg : 0 ≤ val grav)
    (hh : ∀ c k, 0 ≤ c → c < p.dims.ncells → 0 ≤ k → k < p.dims.nlayers → 0 ≤ val (m.real (.h_cell .state) 0 c k))
    {T T' : RTree} (hT : T.Covers p.dims.ncells) (hT' : T'.Covers p.dims.ncells) {n : ℕ}
    (hn : roundings 21 p.dims.nlayers.toNat T ≤ n) (hn' : roundings 21 p.dims.nlayers.toNat T' ≤ n)
    (hnu : n * u ≤ 1 / 2) {v v' : R}
    (he : T.eval p.dims (energy_body grav .state) m = some v)
    (he' : T'.eval p.dims (energy_body grav .state) m = some v') :
    0 ≤ val v ∧ (val v = 0 → exactEnergy val p dc grav m = 0) ∧
    |val v - exactEnergy val p dc grav m| ≤ 2 * n * u * exactEnergy val p dc grav m ∧
    |val v - val v'| ≤ 4 * n * u * exactEnergy val p dc grav m := by
  have u0 := hR.nonneg
  have lin : ∀ j : ℕ, j ≤ n → (1 + u) ^ j - 1 ≤ 2 * n * u ∧ (1 + u) ^ j - 1 ≤ 3 / 4 := by
    intro j hj
    have h1 : (1 + u) ^ j ≤ (1 + u) ^ n := pow_le_pow_right₀ (by linarith) hj
    have h2 : (1 + u) ^ n ≤ Real.exp (n * u) := by
      rw [Real.exp_nat_mul]
      exact pow_le_pow_left₀ (by linarith) (by linarith [Real.add_one_le_exp u]) n
    have x0 : 0 ≤ n * u := by positivity
    have h3 := Real.abs_exp_sub_one_sub_id_le (x := n * u) (by rw [abs_of_nonneg x0]; linarith)
    have h4 := (abs_le.1 h3).2
    have h5 : (n * u) ^ 2 ≤ 1 / 2 * (n * u) := by nlinarith
    constructor
    · linarith
    · linarith
  obtain ⟨e0, b⟩ := C115_energy_rounding hR hu hv hdc hr hg hh hT he
  obtain ⟨-, b'⟩ := C115_energy_rounding hR hu hv hdc hr hg hh hT' he'
  set E := exactEnergy val p dc grav m
  obtain ⟨l1, l2⟩ := lin _ hn
  obtain ⟨l1', l2'⟩ := lin _ hn'
  have c1 := b.trans (mul_le_mul_of_nonneg_right l1 e0)
  have c1' := b'.trans (mul_le_mul_of_nonneg_right l1' e0)
  have c2 := (abs_le.1 (b.trans (mul_le_mul_of_nonneg_right l2 e0))).1
  refine ⟨by linarith, fun h => by rw [h] at c2; linarith, c1, ?_⟩
  have := abs_sub_le (val v) E (val v')
  rw [abs_sub_comm E] at this
  linarith

/-- doubles (without overflow): a moving layer of varying depth, reduced by one thread and by two -/
example : ∃ (m : Mem Fl) (prm : Params Fl) (u : ℝ) (v v' : Fl) (T T' : RTree), Rounded Fl.val u ∧ u ≤ 1 / 1000 ∧
    RunValid p46 ∧ 0 < Fl.val (lit 1) ∧ Ready p46 (lit 1 : Fl) prm m ∧ 0 < Fl.val prm.grav ∧
    (∀ c k, 0 ≤ c → c < p46.dims.ncells → 0 ≤ k → k < p46.dims.nlayers →
      0 < Fl.val (m.real (.h_cell .state) 0 c k)) ∧
    Fl.val (m.real (.vn_edge .state) 0 1 0) ≠ 0 ∧
    T.Covers p46.dims.ncells ∧ T'.Covers p46.dims.ncells ∧ T ≠ T' ∧
    roundings 21 p46.dims.nlayers.toNat T ≤ 117 ∧ roundings 21 p46.dims.nlayers.toNat T' ≤ 117 ∧
    ((117 : ℕ) : ℝ) * u ≤ 1 / 2 ∧
    T.eval p46.dims (energy_body prm.grav .state) m = some v ∧
    T'.eval p46.dims (energy_body prm.grav .state) m = some v' := by
  let prm : Params Fl := ⟨lit 1, lit 9, lit 0, lit 0, lit 0, lit 0, false, false⟩
  obtain ⟨m, hr, hx, -⟩ := exists_ready p46_run.toValid (lit 1 : Fl) prm
    ⟨fun c _ => lit (c % 5 + 10), fun e _ => lit (e % 3), fun _ _ _ => lit 0⟩
    ⟨fun _ _ => lit 0, fun _ _ => lit 0, fun _ _ _ => lit 0⟩
  have hR := fl_rounded
  have hl : p46.dims.nlayers = 4 := p46_layers
  let T : RTree := .leaf ((List.range 24).map Int.ofNat)
  let T' : RTree := .node (.leaf ((List.range 12).map Int.ofNat)) (.leaf ((List.range 12).map fun i => Int.ofNat (12 + i)))
  have hT : T.Covers p46.dims.ncells := List.Perm.refl _
  have hT' : T'.Covers p46.dims.ncells := List.Perm.refl _
  have ev : ∀ T : RTree, T.Covers p46.dims.ncells → ∃ v, T.eval p46.dims (energy_body prm.grav .state) m = some v :=
    fun T hT => ⟨_, eval_eq (f := energyF prm.grav m .state) (fun i a h0 h1 =>
      wp_energy (ready_ok p46_run hr).2 (levels_of_hex (hr.hex p46_run.toValid).1) prm.grav .state a h0 h1) T hT.mem⟩
  obtain ⟨v, e⟩ := ev T hT
  obtain ⟨v', e'⟩ := ev T' hT'
  refine ⟨m, prm, _, v, v', T, T', hR, by norm_num, p46_run, ?_, hr, ?_, fun c k _ _ _ _ => ?_, ?_, hT, hT',
    by simp [T, T'], ?_, ?_, by norm_num, e, e'⟩
  · rw [hR.lit 1 (by norm_num)]; norm_num
  · show 0 < Fl.val (lit 9)
    rw [hR.lit 9 (by norm_num)]; norm_num
  · have : m.real (.h_cell .state) 0 c k = lit (c % 5 + 10) := congrFun (congrFun (congrArg Fld.h hx) c) k
    have b : |c % 5 + 10| < 2 ^ 53 := by rw [abs_of_nonneg (by omega)]; omega
    rw [this, hR.lit _ b]
    exact_mod_cast (by omega : 0 < c % 5 + 10)
  · have : m.real (.vn_edge .state) 0 1 0 = lit (1 % 3) := congrFun (congrFun (congrArg Fld.vn hx) 1) 0
    rw [this, hR.lit _ (by norm_num)]; norm_num
  · simp only [T, roundings, List.length_map, List.length_range]
    rw [hl]; decide
  · simp only [T', roundings, List.length_map, List.length_range]
    rw [hl]; decide

end Props
end
end Omega
