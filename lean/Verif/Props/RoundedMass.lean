import Verif.Props.Rounding

/-!
# C77: mass and circulation diagnostics in rounded arithmetic
-/

set_option linter.unusedVariables false
set_option linter.unusedSectionVars false

namespace Omega
noncomputable section

namespace Props

open Prog Model Refine Hex

variable {R : Type} [Scalar R] {val : R → ℝ} {u : ℝ} {p : MeshParams} {dc : R}

/-! ### Sums in any order -/

/-- `x` is a sum with exact value `A` and sum of absolute values `Q`, each term having seen at most `n` roundings -/
def NearSum (u : ℝ) (n : ℕ) (x A Q : ℝ) : Prop := |A| ≤ Q ∧ |x - A| ≤ ((1 + u) ^ n - 1) * Q

theorem NearSum.nonneg {n : ℕ} {x A Q : ℝ} (h : NearSum u n x A Q) : 0 ≤ Q := (abs_nonneg _).trans h.1

theorem NearSum.mono (hu : 0 ≤ u) {n n' : ℕ} {x A Q : ℝ} (h : NearSum u n x A Q) (hn : n ≤ n') :
    NearSum u n' x A Q := by
  refine ⟨h.1, h.2.trans (mul_le_mul_of_nonneg_right ?_ h.nonneg)⟩
  have := pow_le_pow_right₀ (by linarith : (1 : ℝ) ≤ 1 + u) hn
  linarith

theorem NearSum.of_near {n : ℕ} {x y : ℝ} (h : Near u n x y) : NearSum u n x y |y| := ⟨le_rfl, h⟩

theorem NearSum.le {n : ℕ} {x A Q : ℝ} (h : NearSum u n x A Q) : |x| ≤ (1 + u) ^ n * Q := by
  have := abs_sub_abs_le_abs_sub x A
  have := h.1
  have := h.2
  linarith

theorem NearSum.add (hR : Rounded val u) {n : ℕ} {x y : R} {A Q B P : ℝ} (h : NearSum u n (val x) A Q)
    (h' : NearSum u n (val y) B P) : NearSum u (n + 1) (val (x + y)) (A + B) (Q + P) := by
  have hu := hR.nonneg
  refine ⟨(abs_add_le _ _).trans (add_le_add h.1 h'.1), ?_⟩
  have e : val (x + y) - (A + B) = (val (x + y) - (val x + val y)) + ((val x - A) + (val y - B)) := by ring
  have a := hR.add x y
  have b := (abs_add_le (val x) (val y)).trans (add_le_add h.le h'.le)
  rw [e]
  refine (abs_add_le _ _).trans ((add_le_add (a.trans (mul_le_mul_of_nonneg_left b hu))
    ((abs_add_le _ _).trans (add_le_add h.2 h'.2))).trans (le_of_eq ?_))
  rw [pow_succ]
  ring

/-- the largest number of roundings of a term in a reduction over columns of `L` layers, if the terms come with `r`
roundings -/
def roundings (r L : ℕ) : RTree → ℕ
  | .leaf is => r + is.length * L
  | .node l r' => max (roundings r L l) (roundings r L r') + 1

/-- a loop over layers -/
theorem nearSum_layers (hR : Rounded val u) {g : Int → R} {q w : Int → ℝ} {r : ℕ} (L : ℕ)
    (hg : ∀ k : ℕ, k < L → NearSum u r (val (g k)) (q k) (w k)) {n : ℕ} {a : R} {A Q : ℝ} (h1 : r ≤ n)
    (ha : NearSum u n (val a) A Q) :
    NearSum u (n + L) (val (foldI (L : Int) a fun k a => a + g k)) (A + ∑ k ∈ Finset.range L, q k)
      (Q + ∑ k ∈ Finset.range L, w k) := by
  have hu := hR.nonneg
  induction L with
  | zero =>
    have : foldI ((0 : ℕ) : Int) a (fun k a => a + g k) = a := by simp [foldI, foldFrom]
    rw [this]
    simpa using ha
  | succ L ih =>
    have ih := ih fun k hk => hg k (by omega)
    have hs : foldI ((L + 1 : ℕ) : Int) a (fun k a => a + g k) = foldI (L : Int) a (fun k a => a + g k) + g L := by
      unfold foldI
      rw [Int.toNat_natCast, Int.toNat_natCast, foldFrom_succ_last, zero_add]
    rw [hs, Finset.sum_range_succ, Finset.sum_range_succ, ← add_assoc, ← add_assoc, ← add_assoc]
    exact ih.add hR ((hg L (by omega)).mono hu (by omega))

/-- a reduction tree -/
theorem nearSum_tree (hR : Rounded val u) {g : Int → Int → R} {q w : Int → Int → ℝ} {N : Int} (r L : ℕ) {f : Int → R → R}
    (hf : ∀ i, 0 ≤ i → i < N → ∀ a, f i a = foldI (L : Int) a fun k a => a + g i k)
    (hg : ∀ i, 0 ≤ i → i < N → ∀ k : ℕ, k < L → NearSum u r (val (g i k)) (q i k) (w i k)) (T : RTree)
    (hT : ∀ i ∈ T.idx, 0 ≤ i ∧ i < N) :
    NearSum u (roundings r L T) (val (treeVal f T)) (T.idx.map fun i => ∑ k ∈ Finset.range L, q i k).sum
      (T.idx.map fun i => ∑ k ∈ Finset.range L, w i k).sum := by
  have hu := hR.nonneg
  induction T with
  | leaf is =>
    have key : ∀ (is : List Int), (∀ i ∈ is, 0 ≤ i ∧ i < N) → ∀ (n : ℕ) (a : R) (A Q : ℝ), r ≤ n →
        NearSum u n (val a) A Q → NearSum u (n + is.length * L) (val (is.foldl (fun a i => f i a) a))
          (A + (is.map fun i => ∑ k ∈ Finset.range L, q i k).sum)
          (Q + (is.map fun i => ∑ k ∈ Finset.range L, w i k).sum) := by
      intro is
      induction is with
      | nil =>
        intro _ n a A Q _ h
        simpa using h
      | cons i is ih =>
        intro hi n a A Q h1 h
        have hi' := hi i (by simp)
        have h2 := nearSum_layers hR L (hg i hi'.1 hi'.2) h1 h
        rw [← hf i hi'.1 hi'.2] at h2
        have h3 := ih (fun j hj => hi j (by simp [hj])) _ _ _ _ (by omega) h2
        rw [List.foldl_cons, List.map_cons, List.map_cons, List.sum_cons, List.sum_cons, List.length_cons,
          ← add_assoc, ← add_assoc, show n + (is.length + 1) * L = n + L + is.length * L by ring]
        exact h3
    have h0 : NearSum u r (val (lit 0 : R)) 0 0 := by
      rw [hR.lit 0 (by norm_num)]
      simp [NearSum]
    have := key is hT r (lit 0) 0 0 le_rfl h0
    rw [zero_add, zero_add] at this
    exact this
  | node l r' ihl ihr =>
    have hl := (ihl fun i hi => hT i (by simp [RTree.idx, hi])).mono hu (le_max_left _ (roundings r L r'))
    have hr := (ihr fun i hi => hT i (by simp [RTree.idx, hi])).mono hu (le_max_right (roundings r L l) _)
    have := hl.add hR hr
    simp only [RTree.idx, List.map_append, List.sum_append]
    exact this

theorem covers_sum {T : RTree} {n : Int} (hT : T.Covers n) (g : Int → ℝ) :
    (T.idx.map g).sum = ∑ i ∈ upto n, g i := by
  rw [(hT.map g).sum_eq, List.map_map, ← Hex.sum_upto n g]
  simp only [Finset.sum, Finset.range_val, Multiset.range, Multiset.map_coe, Multiset.sum_coe]
  rfl

/-! ### The mass integral -/

/-- exact area of a cell as stored, times the sum of the thicknesses of all cells and layers -/
def storedMass (val : R → ℝ) (p : MeshParams) (m : Mem R) : ℝ :=
  ∑ c ∈ upto (p.nx * p.ny), ∑ k ∈ upto p.dims.nlayers,
    val (m.real .area_cell 0 c 0) * val (m.real (.h_cell .state) 0 c k)

/-- the same with absolute values -/
def storedAbsMass (val : R → ℝ) (p : MeshParams) (m : Mem R) : ℝ :=
  ∑ c ∈ upto (p.nx * p.ny), ∑ k ∈ upto p.dims.nlayers,
    |val (m.real .area_cell 0 c 0) * val (m.real (.h_cell .state) 0 c k)|

/-- C77. `mass_integral` in rounded arithmetic: whatever the order in which the threads add, the result differs from
the exact sum by at most `(1+u)^n - 1` times the sum of absolute values, `n` being the largest number of roundings on a
path of the reduction tree. -/
theorem C77_mass_integral_rounding (hR : Rounded val u) (hv : RunValid p) {prm : Params R} {m : Mem R}
    (hr : Ready p dc prm m) {T : RTree} (hT : T.Covers p.dims.ncells) {v : R}
    (he : T.eval p.dims (mass_body .state) m = some v) :
    |val v - storedMass val p m| ≤ ((1 + u) ^ roundings 1 p.dims.nlayers.toNat T - 1) * storedAbsMass val p m := by
  have hx := (hr.hex hv.toValid).1
  have hl := levels_of_hex hx
  have L0 : 0 ≤ p.dims.nlayers := layers_nonneg hv
  rw [eval_eq (f := massF m .state) (fun i a h0 h1 => wp_mass hl .state a h0 h1) T hT.mem] at he
  have hv' := Option.some.inj he
  rw [← hv']
  have key := nearSum_tree hR (N := p.dims.ncells) 1 p.dims.nlayers.toNat (f := massF m .state)
    (g := fun c k => m.real .area_cell 0 c 0 * m.real (.h_cell .state) 0 c k)
    (q := fun c k => val (m.real .area_cell 0 c 0) * val (m.real (.h_cell .state) 0 c k))
    (w := fun c k => |val (m.real .area_cell 0 c 0) * val (m.real (.h_cell .state) 0 c k)|)
    (fun c h0 h1 a => by
      unfold massF
      rw [(hx.levels c).1 ⟨h0, h1⟩, Int.toNat_of_nonneg L0])
    (fun c h0 h1 k hk => by
      have := Near.mul hR.nonneg (near_refl u (val (m.real .area_cell 0 c 0)))
        (near_refl u (val (m.real (.h_cell .state) 0 c k))) (hR.mul _ _)
      exact NearSum.of_near (by simpa using this)) T hT.mem
  rw [covers_sum hT, covers_sum hT] at key
  have e1 : ∀ g : Int → ℝ, ∑ k ∈ Finset.range p.dims.nlayers.toNat, g k = ∑ k ∈ upto p.dims.nlayers, g k := fun g =>
    Hex.sum_upto _ g
  have k2 := key.2
  rw [Finset.sum_congr rfl fun c _ => e1 fun k => val (m.real .area_cell 0 c 0) * val (m.real (.h_cell .state) 0 c k),
    Finset.sum_congr rfl fun c _ => e1 fun k => |val (m.real .area_cell 0 c 0) * val (m.real (.h_cell .state) 0 c k)|]
    at k2
  exact k2

theorem ready_after (hv : RunValid p) {prm : Params R} {split : Bool} (sched : List (R × R)) {m m' : Mem R}
    (hr : Ready p dc prm m)
    (he : Exec p.dims ((Stepper.lsrk 5).run p.dims ⟨defaultKernels p.dims.vl, split⟩ (SWModel.ofParams prm) sched)
      m m') : Ready p dc prm m' := by
  induction sched generalizing m with
  | nil =>
    cases he
    exact hr
  | cons q sched ih =>
    obtain ⟨M, -, hM, hrun, -⟩ := five_memories hv hr (split := split) (t := q.1) (dt := q.2) (sched := [])
      (P := fun _ => True) (fun _ _ _ => trivial)
    obtain ⟨m1, e1, e2⟩ := exec_append.1 he
    have hm1 : m1 = M 5 := hrun.unique e1
    subst hm1
    exact ih (hM 5 le_rfl).2 e2

/-- C77. Mass as reported before and after a run of the five-stage stepper, in rounded arithmetic. -/
theorem C77_reported_mass (hR : Rounded val u) (hu : u ≤ 1 / 1000) (hv : RunValid p) (h2x : 2 ≤ p.nx)
    (h2y : 2 ≤ p.ny) (hdc : 0 < val dc) {prm : Params R} (hdh : prm.disable_h = false) {split : Bool} {H V : ℝ}
    (sched : List (R × R)) {m m' : Mem R} (hr : Ready p dc prm m)
    (hb : Throughout p.dims ⟨defaultKernels p.dims.vl, split⟩ (SWModel.ofParams prm) sched m
      fun m => ∀ k, 0 ≤ k → k < p.dims.nlayers → LayerBounds val p k H V m)
    (he : Exec p.dims ((Stepper.lsrk 5).run p.dims ⟨defaultKernels p.dims.vl, split⟩ (SWModel.ofParams prm) sched)
      m m') {T T' : RTree} (hT : T.Covers p.dims.ncells) (hT' : T'.Covers p.dims.ncells) {n : ℕ}
    (hn : roundings 1 p.dims.nlayers.toNat T ≤ n) (hn' : roundings 1 p.dims.nlayers.toNat T' ≤ n) {v v' : R}
    (e : T.eval p.dims (mass_body .state) m = some v) (e' : T'.eval p.dims (mass_body .state) m' = some v') :
    |val v' - val v| ≤ |val (dc * dc * Scalar.sqrt (lit 3) / lit 2)| * (p.nx * p.ny) * p.dims.nlayers * H *
      (2 * ((1 + u) ^ n - 1) + u * (sched.map fun q => 5 + 574 * (|val q.2| * V / val dc)).sum) := by
  have hx := hv.toValid.nx_pos
  have L0 := layers_nonneg hv
  have hr' := ready_after hv sched hr he
  set A := val (dc * dc * Scalar.sqrt (lit 3) / lit 2) with hA
  have hb0 : ∀ k, 0 ≤ k → k < p.dims.nlayers → LayerBounds val p k H V m := hb 0 m (by simpa using Exec.nil m)
  have hb1 : ∀ k, 0 ≤ k → k < p.dims.nlayers → LayerBounds val p k H V m' := by
    refine hb (stages p.dims ⟨defaultKernels p.dims.vl, split⟩ (SWModel.ofParams prm) sched).length m' ?_
    rw [List.take_length, ← run_stages]
    exact he
  have hN : (0 : ℝ) ≤ ((p.nx * p.ny : ℤ) : ℝ) := by exact_mod_cast (by nlinarith : (0 : Int) ≤ p.nx * p.ny)
  have hL : (0 : ℝ) ≤ (p.dims.nlayers : ℝ) := by exact_mod_cast L0
  -- areas are uniform
  have mass : ∀ m, Ready p dc prm m → storedMass val p m =
      A * ∑ k ∈ upto p.dims.nlayers, ∑ c ∈ upto (p.nx * p.ny), val (m.real (.h_cell .state) 0 c k) := fun m hr => by
    unfold storedMass
    rw [Finset.sum_comm, Finset.mul_sum]
    refine Finset.sum_congr rfl fun k _ => ?_
    rw [Finset.mul_sum]
    refine Finset.sum_congr rfl fun c hc => ?_
    rw [(hr.hex hv.toValid).1.area_cell c (mem_cells.1 hc)]
  have absm : ∀ m, Ready p dc prm m → (∀ k, 0 ≤ k → k < p.dims.nlayers → LayerBounds val p k H V m) →
      storedAbsMass val p m ≤ ((p.nx * p.ny : ℤ) : ℝ) * ((p.dims.nlayers : ℝ) * (|A| * H)) := fun m hr hb => by
    unfold storedAbsMass
    have c1 : ∀ n : ℤ, 0 ≤ n → ((upto n).card : ℝ) = n := fun n hn => by
      rw [Int.card_Ico, sub_zero]
      exact_mod_cast Int.toNat_of_nonneg hn
    calc _ ≤ ∑ c ∈ upto (p.nx * p.ny), ∑ k ∈ upto p.dims.nlayers, |A| * H := by
          refine Finset.sum_le_sum fun c hc => Finset.sum_le_sum fun k hk => ?_
          rw [(hr.hex hv.toValid).1.area_cell c (mem_cells.1 hc), abs_mul]
          have hk' := Finset.mem_Ico.1 hk
          exact mul_le_mul_of_nonneg_left ((hb k hk'.1 hk'.2).1 c (mem_cells.1 hc)) (abs_nonneg _)
      _ = _ := by
          rw [Finset.sum_const, Finset.sum_const, nsmul_eq_mul, nsmul_eq_mul, c1 _ L0, c1 _ (by exact_mod_cast hN)]
  have d : |storedMass val p m' - storedMass val p m| ≤ |A| * ((p.dims.nlayers : ℝ) * (((p.nx * p.ny : ℤ) : ℝ) * H * u *
      (sched.map fun q => 5 + 574 * (|val q.2| * V / val dc)).sum)) := by
    rw [mass m hr, mass m' hr', ← mul_sub, abs_mul, ← Finset.sum_sub_distrib]
    refine mul_le_mul_of_nonneg_left ?_ (abs_nonneg _)
    refine abs_sum_upto L0 fun k hk => ?_
    have hk' := Finset.mem_Ico.1 hk
    exact C76_mass_rounding hR hu hv h2x h2y hdc hdh hk'.1 hk'.2 sched hr
      (fun n m'' h => hb n m'' h k hk'.1 hk'.2) he
  have U : (1 : ℝ) ≤ 1 + u := by linarith [hR.nonneg]
  have r : ∀ {T : RTree} {m : Mem R} {v : R}, Ready p dc prm m →
      (∀ k, 0 ≤ k → k < p.dims.nlayers → LayerBounds val p k H V m) → T.Covers p.dims.ncells →
      roundings 1 p.dims.nlayers.toNat T ≤ n → T.eval p.dims (mass_body .state) m = some v →
      |val v - storedMass val p m| ≤ ((1 + u) ^ n - 1) *
        (((p.nx * p.ny : ℤ) : ℝ) * ((p.dims.nlayers : ℝ) * (|A| * H))) := fun hr hb hT hn he => by
    refine (C77_mass_integral_rounding hR hv hr hT he).trans ?_
    have h1 := pow_le_pow_right₀ U hn
    have h2 : (1 : ℝ) ≤ (1 + u) ^ n := one_le_pow₀ U
    refine mul_le_mul (by linarith) (absm _ hr hb) ?_ (by linarith)
    exact Finset.sum_nonneg fun _ _ => Finset.sum_nonneg fun _ _ => abs_nonneg _
  have r0 := r hr hb0 hT hn e
  have r1 := r hr' hb1 hT' hn' e'
  have split3 : val v' - val v = (val v' - storedMass val p m') + ((storedMass val p m' - storedMass val p m) -
    (val v - storedMass val p m)) := by ring
  rw [split3]
  refine (abs_add_le _ _).trans ((add_le_add r1 ((abs_sub _ _).trans (add_le_add d r0))).trans (le_of_eq ?_))
  push_cast
  ring

/-! ### The circulation integral -/

theorem sign_vertex_val (hR : Rounded val u) (hv : MeshParams.Valid p) {m : Mem R} (hm : IsHexMesh p dc m) {i : Int}
    (h0 : 0 ≤ i) (h1 : i < 2 * (p.nx * p.ny)) {j : Int} (j0 : 0 ≤ j) (j3 : j < 3) :
    val (m.real .edge_sign_on_vertex 0 i j) =
      if Hex.voe p.nx p.ny (Hex.eov p.nx p.ny i j) 0 = i then -1 else 1 := by
  rw [hm.sign_vertex i h0 h1 j j0 j3]
  split
  · rw [hR.lit _ (by norm_num)]; norm_num
  · rw [hR.lit _ (by norm_num)]; norm_num

/-- the signs around a vertex -/
theorem sum_signs (hv : MeshParams.Valid p) (F : Int → ℝ) {i : Int} (h0 : 0 ≤ i) (h1 : i < 2 * (p.nx * p.ny)) :
    ∑ j ∈ Finset.range 3, (if Hex.voe p.nx p.ny (Hex.eov p.nx p.ny i j) 0 = i then -1 else 1) * F (Hex.eov p.nx p.ny i j) =
      Cu p.nx p.ny F i := by
  have hc := isCell_vertex h0 h1
  have z0 := voe_eov_zero hv.nx_pos hc (s := 0) (by norm_num) (by norm_num)
  have z1 := voe_eov_zero hv.nx_pos hc (s := 1) (by norm_num) (by norm_num)
  have z2 := voe_eov_zero hv.nx_pos hc (s := 2) (by norm_num) (by norm_num)
  simp only [Finset.sum_range_succ, Finset.sum_range_zero, Nat.cast_zero, Nat.cast_one, Nat.cast_ofNat, z0, z1, z2]
  unfold Cu eovEnd
  rcases Int.emod_two_eq_zero_or_one i with h | h <;> simp [h] <;> ring

/-- C77. `circulation_integral` in rounded arithmetic: whatever the velocity and the order in which the threads add,
the result is the number of vertices and layers times Coriolis parameter times stored area of a triangle, up to
rounding. -/
theorem C77_circulation_rounding (hR : Rounded val u) (hv : RunValid p) {prm : Params R} {m : Mem R}
    (hr : Ready p dc prm m) {V : ℝ} (hV : ∀ e k, 0 ≤ e → e < 3 * (p.nx * p.ny) → 0 ≤ k → k < p.dims.nlayers →
      |val (m.real (.vn_edge .state) 0 e k)| ≤ V) {T : RTree} (hT : T.Covers p.dims.nvertices) {v : R}
    (he : T.eval p.dims (circulation_body .state) m = some v) :
    |val v - 2 * (p.nx * p.ny) * p.dims.nlayers * (val prm.f0 * val (dc * dc * Scalar.sqrt (lit 3) / lit 4))| ≤
      ((1 + u) ^ roundings 6 p.dims.nlayers.toNat T - 1) * (2 * (p.nx * p.ny) * p.dims.nlayers *
        (3 * (|val dc| * V) + |val prm.f0 * val (dc * dc * Scalar.sqrt (lit 3) / lit 4)|)) := by
  have u0 := hR.nonneg
  have hx := hv.toValid.nx_pos
  have hy := hv.toValid.ny_pos
  have hm := (hr.hex hv.toValid).1
  have hf := (hr.hex hv.toValid).2.1
  have hl := levels_of_hex hm
  have L0 := layers_nonneg hv
  have hcn := (ready_ok hv hr).2
  have N0 : (0 : Int) ≤ 2 * (p.nx * p.ny) := by positivity
  rw [eval_eq (f := circulationF m .state) (fun i a h0 h1 => wp_circulation hcn hl .state a h0 h1) T hT.mem] at he
  have hv' := Option.some.inj he
  rw [← hv']
  set F := val prm.f0 * val (dc * dc * Scalar.sqrt (lit 3) / lit 4) with hF
  let s : Int → Int → ℝ := fun i j => if Hex.voe p.nx p.ny (Hex.eov p.nx p.ny i j) 0 = i then -1 else 1
  let t : Int → Int → Int → ℝ := fun i k j =>
    val dc * (s i j * val (m.real (.vn_edge .state) 0 (Hex.eov p.nx p.ny i j) k))
  have key := nearSum_tree hR (N := p.dims.nvertices) 6 p.dims.nlayers.toNat (f := circulationF m .state)
    (g := fun i k => cirF m .state i k + m.real .f_vertex 0 i 0 * m.real .area_triangle 0 i 0)
    (q := fun i k => ∑ j ∈ Finset.range 3, t i k j + F)
    (w := fun i k => ∑ j ∈ Finset.range 3, |t i k j| + |F|)
    (fun i h0 h1 a => by
      unfold circulationF
      rw [((hm.levels i).2.2 h0 h1).1, Int.toNat_of_nonneg L0])
    (fun i h0 h1 k hk => by
      have hFn : Near u 1 (val (m.real .f_vertex 0 i 0 * m.real .area_triangle 0 i 0)) F := by
        rw [hf i h0 h1, hm.area_triangle i h0 h1]
        simpa using Near.mul u0 (near_refl u (val prm.f0))
          (near_refl u (val (dc * dc * Scalar.sqrt (lit 3) / lit 4))) (hR.mul _ _)
      have hz : NearSum u 2 (val (lit 0 : R)) 0 0 := by
        rw [hR.lit 0 (by norm_num)]
        simp [NearSum]
      have hc := nearSum_layers hR (r := 2) (q := t i k) (w := fun j => |t i k j|) (g := fun j =>
        m.real .dc_edge 0 (m.int .edges_on_vertex i j) 0 * m.real .edge_sign_on_vertex 0 i j *
        m.real (.vn_edge .state) 0 (m.int .edges_on_vertex i j) k) 3 (fun j hj => by
          have j0 : (0 : Int) ≤ j := Int.natCast_nonneg j
          have j3 : (j : Int) < 3 := by exact_mod_cast hj
          have ev : m.int .edges_on_vertex i j = Hex.eov p.nx p.ny i j := hm.eov i h0 h1 j j0 j3
          have er := eov_range (ny := p.ny) (s := j) hx h0 h1
          refine NearSum.of_near ?_
          rw [ev, hm.dc_edge _ er.1 er.2]
          have n1 := Near.mul u0 (near_refl u (val dc)) (near_refl u (val (m.real .edge_sign_on_vertex 0 i j)))
            (hR.mul dc (m.real .edge_sign_on_vertex 0 i j))
          have n2 := Near.mul u0 n1 (near_refl u (val (m.real (.vn_edge .state) 0 (Hex.eov p.nx p.ny i j) k))) (hR.mul _ _)
          rw [sign_vertex_val hR hv.toValid hm h0 h1 j0 j3] at n2
          simp only [t, s]
          rw [← mul_assoc]
          exact n2) le_rfl hz
      rw [zero_add, zero_add] at hc
      exact hc.add hR ((NearSum.of_near hFn).mono u0 (by norm_num))) T hT.mem
  rw [covers_sum hT, covers_sum hT] at key
  have e1 : ∀ g : Int → ℝ, ∑ k ∈ Finset.range p.dims.nlayers.toNat, g k = ∑ k ∈ upto p.dims.nlayers, g k := fun g =>
    Hex.sum_upto _ g
  have cN : ((upto p.dims.nvertices).card : ℝ) = 2 * (p.nx * p.ny) := by
    rw [Int.card_Ico, sub_zero]
    have : (((p.dims.nvertices).toNat : ℤ) : ℝ) = ((2 * (p.nx * p.ny) : ℤ) : ℝ) := by
      rw [show p.dims.nvertices = 2 * (p.nx * p.ny) from rfl, Int.toNat_of_nonneg N0]
    rw [Int.cast_natCast] at this
    rw [this]; push_cast; ring
  have cL : ((upto p.dims.nlayers).card : ℝ) = p.dims.nlayers := by
    rw [Int.card_Ico, sub_zero]
    exact_mod_cast Int.toNat_of_nonneg L0
  have exact : ∑ i ∈ upto p.dims.nvertices, ∑ k ∈ Finset.range p.dims.nlayers.toNat,
      (∑ j ∈ Finset.range 3, t i k j + F) = 2 * (p.nx * p.ny) * p.dims.nlayers * F := by
    rw [Finset.sum_congr rfl fun i _ => e1 fun k => ∑ j ∈ Finset.range 3, t i k j + F, Finset.sum_comm]
    rw [Finset.sum_congr rfl fun k _ => by
      rw [Finset.sum_add_distrib, Finset.sum_congr rfl fun i hi => by
        have hi := Finset.mem_Ico.1 hi
        show ∑ j ∈ Finset.range 3, t i k j = val dc * (1 * Cu p.nx p.ny (fun e => val (m.real (.vn_edge .state) 0 e k)) i)
        rw [one_mul, ← sum_signs hv.toValid _ hi.1 hi.2, Finset.mul_sum],
        ← Finset.mul_sum, show upto p.dims.nvertices = upto (2 * (p.nx * p.ny)) from rfl,
        adjoint_vertex hx (fun _ => 1)]]
    simp only [Gv, sub_self, mul_zero, Finset.sum_const_zero, zero_add, Finset.sum_const, nsmul_eq_mul]
    rw [show upto (2 * (p.nx * p.ny)) = upto p.dims.nvertices from rfl, cN, cL]
    ring
  have V0 : ∀ k, 0 ≤ k → k < p.dims.nlayers → 0 ≤ V := fun k h h' =>
    (abs_nonneg _).trans (hV 0 k le_rfl (by nlinarith) h h')
  have size : ∑ i ∈ upto p.dims.nvertices, ∑ k ∈ Finset.range p.dims.nlayers.toNat,
      (∑ j ∈ Finset.range 3, |t i k j| + |F|) ≤ 2 * (p.nx * p.ny) * p.dims.nlayers * (3 * (|val dc| * V) + |F|) := by
    rw [Finset.sum_congr rfl fun i _ => e1 fun k => ∑ j ∈ Finset.range 3, |t i k j| + |F|]
    calc _ ≤ ∑ i ∈ upto p.dims.nvertices, ∑ k ∈ upto p.dims.nlayers, (3 * (|val dc| * V) + |F|) := by
          refine Finset.sum_le_sum fun i hi => Finset.sum_le_sum fun k hk => add_le_add ?_ le_rfl
          have hi := Finset.mem_Ico.1 hi
          have hk := Finset.mem_Ico.1 hk
          calc _ ≤ ∑ j ∈ Finset.range 3, |val dc| * V := by
                refine Finset.sum_le_sum fun j hj => ?_
                have j0 : (0 : Int) ≤ j := Int.natCast_nonneg j
                have j3 : (j : Int) < 3 := by exact_mod_cast Finset.mem_range.1 hj
                have er := eov_range (ny := p.ny) (s := j) hx hi.1 hi.2
                have hs : |s i j| = 1 := by
                  simp only [s]
                  split <;> simp
                simp only [t]
                rw [abs_mul, abs_mul, hs, one_mul]
                exact mul_le_mul_of_nonneg_left (hV _ k er.1 er.2 hk.1 hk.2) (abs_nonneg _)
            _ = _ := by rw [Finset.sum_const, Finset.card_range, nsmul_eq_mul]; norm_num
      _ = _ := by
          rw [Finset.sum_const, Finset.sum_const, nsmul_eq_mul, nsmul_eq_mul, cN, cL]
          ring
  have k2 := key.2
  rw [exact] at k2
  refine k2.trans (mul_le_mul_of_nonneg_left size ?_)
  have : (1 : ℝ) ≤ (1 + u) ^ roundings 6 p.dims.nlayers.toNat T := one_le_pow₀ (by linarith)
  linarith

/-- a run in doubles (without overflow), reduced by one thread before and by two threads after it -/
example : ∃ (m m' : Mem Fl) (prm : Params Fl) (dt v v' w : Fl) (H V : ℝ) (T T' T2 : RTree), RunValid p46 ∧
    Ready p46 (lit 1 : Fl) prm m ∧ prm.disable_h = false ∧ prm.disable_vn = false ∧
    Throughout p46.dims ⟨defaultKernels p46.dims.vl, true⟩ (SWModel.ofParams prm) [(lit 0, dt)] m
      (fun m => ∀ k, 0 ≤ k → k < p46.dims.nlayers → LayerBounds Fl.val p46 k H V m) ∧
    Exec p46.dims ((Stepper.lsrk 5).run p46.dims ⟨defaultKernels p46.dims.vl, true⟩ (SWModel.ofParams prm)
      [(lit 0, dt)]) m m' ∧ T.Covers p46.dims.ncells ∧ T'.Covers p46.dims.ncells ∧ T ≠ T' ∧
    T2.Covers p46.dims.nvertices ∧
    roundings 1 p46.dims.nlayers.toNat T ≤ 1 + 24 * p46.dims.nlayers.toNat ∧
    roundings 1 p46.dims.nlayers.toNat T' ≤ 1 + 24 * p46.dims.nlayers.toNat ∧
    T.eval p46.dims (mass_body .state) m = some v ∧ T'.eval p46.dims (mass_body .state) m' = some v' ∧
    T2.eval p46.dims (circulation_body .state) m = some w := by
  let prm : Params Fl := ⟨lit 1, lit 9, lit 0, lit 0, lit 0, lit 0, false, false⟩
  obtain ⟨m, hr, -⟩ := exists_ready p46_run.toValid (lit 1 : Fl) prm
    ⟨fun c _ => lit (c % 5 + 10), fun e _ => lit (e % 3), fun _ _ _ => lit 0⟩
    ⟨fun _ _ => lit 0, fun _ _ => lit 0, fun _ _ _ => lit 0⟩
  obtain ⟨H, V, hb⟩ := C76_bounds_exist Fl.val p46_run (split := true) [(lit 0, (lit 1 / lit 8 : Fl))] hr
  obtain ⟨M, -, hM, hrun, -⟩ := five_memories p46_run hr (split := true) (t := lit 0) (dt := (lit 1 / lit 8 : Fl))
    (sched := []) (P := fun _ => True) (fun _ _ _ => trivial)
  have hl : p46.dims.nlayers = 4 := p46_layers
  let T : RTree := .leaf ((List.range 24).map Int.ofNat)
  let T' : RTree := .node (.leaf ((List.range 12).map Int.ofNat)) (.leaf ((List.range 12).map fun i => Int.ofNat (12 + i)))
  let T2 : RTree := .leaf ((List.range 48).map Int.ofNat)
  have hT : T.Covers p46.dims.ncells := List.Perm.refl _
  have hT' : T'.Covers p46.dims.ncells := List.Perm.refl _
  have hT2 : T2.Covers p46.dims.nvertices := List.Perm.refl _
  have ev : ∀ m, Ready p46 (lit 1 : Fl) prm m → ∀ T : RTree, T.Covers p46.dims.ncells → ∃ v,
      T.eval p46.dims (mass_body .state) m = some v := fun m hr T hT =>
    ⟨_, eval_eq (f := massF m .state) (fun i a h0 h1 =>
      wp_mass (levels_of_hex (hr.hex p46_run.toValid).1) .state a h0 h1) T hT.mem⟩
  obtain ⟨v, e⟩ := ev m hr T hT
  obtain ⟨v', e'⟩ := ev (M 5) (hM 5 le_rfl).2 T' hT'
  refine ⟨m, M 5, prm, lit 1 / lit 8, v, v', _, H, V, T, T', T2, p46_run, hr, rfl, rfl, hb, ?_, hT, hT', by simp [T, T'],
    hT2, by simp [T, roundings], ?_, e, e', eval_eq (f := circulationF m .state) (fun i a h0 h1 =>
      wp_circulation (ready_ok p46_run hr).2 (levels_of_hex (hr.hex p46_run.toValid).1) .state a h0 h1) T2 hT2.mem⟩
  · have := hrun.exec
    exact exec_append.2 ⟨M 5, this, .nil _⟩
  · simp only [T', roundings, List.length_map, List.length_range]
    rw [hl]
    decide

end Props
end
end Omega
