import Verif.Props.Operators
import Verif.Refine.Diagnostics

/-!
# C17, C18, C21, C22, C41 – C43: conservation along runs, and the integral diagnostics
-/

set_option linter.unusedVariables false
set_option linter.unusedSectionVars false

namespace Omega
noncomputable section

namespace Props

open Prog Model Refine Hex

variable {p : MeshParams} {dc : ℝ} {m : Mem ℝ}

/-! ### The diagnostics as sums -/

theorem sum_below (n : Int) (g : Int → ℝ) : ∑ i ∈ below n, g i = ∑ i ∈ Finset.Ico 0 n, g i :=
  Hex.sum_upto n g

theorem mass_spec {prm : Params ℝ} (hv : MeshParams.Valid p) (hr : Ready p dc prm m) (st : StateId)
    (v : ℝ) : IsMassIntegral p.dims st m v ↔ v = ∑ k ∈ Spec.layers p.dims,
      ∑ c ∈ Spec.cells p.dims, Spec.areaC m c * m.real (.h_cell st) 0 c k := by
  have hx := (hr.hex hv).1
  rw [mass_value (levels_of_hex hx), Finset.sum_comm]
  rw [sum_below p.dims.ncells fun c => ∑ k ∈ below (m.int .max_level_cell c 0),
      m.real .area_cell 0 c 0 * m.real (.h_cell st) 0 c k]
  refine Eq.congr_right (Finset.sum_congr rfl fun c hc => ?_)
  rw [(hx.levels c).1 (mem_cells.mp hc)]
  exact sum_below _ fun k => m.real .area_cell 0 c 0 * m.real (.h_cell st) 0 c k

theorem keF_spec (st : StateId) (c k : Int) :
    keF m st c k = Spec.kinetic m (fun e => m.real (.vn_edge st) 0 e k) c := by
  unfold keF Spec.kinetic
  rw [fold_div (m.int .nedges_on_cell c 0) _ (fun j => Spec.dcE m (Spec.side m c j) *
    Spec.dvE m (Spec.side m c j) * m.real (.vn_edge st) 0 (Spec.side m c j) k ^ 2 / 4) 1, div_one]
  intro j
  simp only [lit_real]; push_cast; ring

theorem energy_spec {prm : Params ℝ} (hv : RunValid p) (hr : Ready p dc prm m) (grav : ℝ)
    (st : StateId) (v : ℝ) : IsEnergyIntegral p.dims grav st m v ↔ v = ∑ k ∈ Spec.layers p.dims,
      ∑ c ∈ Spec.cells p.dims, Spec.areaC m c * (grav * m.real (.h_cell st) 0 c k ^ 2 / 2 +
        m.real (.h_cell st) 0 c k * Spec.kinetic m (fun e => m.real (.vn_edge st) 0 e k) c) := by
  have hx := (hr.hex hv.toValid).1
  rw [energy_value (ready_ok hv hr).2 (levels_of_hex hx), Finset.sum_comm]
  rw [sum_below p.dims.ncells fun c => ∑ k ∈ below (m.int .max_level_cell c 0),
      m.real .area_cell 0 c 0 * (grav * m.real (.h_cell st) 0 c k * m.real (.h_cell st) 0 c k / 2 +
          m.real (.h_cell st) 0 c k * keF m st c k)]
  refine Eq.congr_right (Finset.sum_congr rfl fun c hc => ?_)
  rw [(hx.levels c).1 (mem_cells.mp hc), sum_below _ fun k => m.real .area_cell 0 c 0 *
    (grav * m.real (.h_cell st) 0 c k * m.real (.h_cell st) 0 c k / 2 +
          m.real (.h_cell st) 0 c k * keF m st c k)]
  refine Finset.sum_congr rfl fun k _ => ?_
  rw [keF_spec]; ring

theorem circulation_spec {prm : Params ℝ} (hv : RunValid p) (hdc : 0 < dc) (hr : Ready p dc prm m)
    (st : StateId) (v : ℝ) : IsCirculationIntegral p.dims st m v ↔ v = ∑ k ∈ Spec.layers p.dims,
      ∑ i ∈ Spec.verts p.dims, Spec.areaT m i *
        (Spec.curl m (fun e => m.real (.vn_edge st) 0 e k) i + m.real .f_vertex 0 i 0) := by
  have hx := (hr.hex hv.toValid).1
  have h := Ready.geo hr hv.toValid hdc
  rw [circulation_value (ready_ok hv hr).2 (levels_of_hex hx), Finset.sum_comm]
  rw [sum_below p.dims.nvertices fun i => ∑ k ∈ below (m.int .max_level_vertex_bot i 0),
        (cirF m st i k + m.real .f_vertex 0 i 0 * m.real .area_triangle 0 i 0)]
  refine Eq.congr_right (Finset.sum_congr rfl fun i hi => ?_)
  have hi := Finset.mem_Ico.mp hi
  rw [((hx.levels i).2.2 hi.1 hi.2).1, sum_below _ fun k =>
    (cirF m st i k + m.real .f_vertex 0 i 0 * m.real .area_triangle 0 i 0)]
  refine Finset.sum_congr rfl fun k _ => ?_
  have ha : Spec.areaT m i ≠ 0 := by
    rw [spec_areaT h hi.1 hi.2]; have := w_pos; positivity
  have : cirF m st i k = Spec.areaT m i * Spec.curl m (fun e => m.real (.vn_edge st) 0 e k) i := by
    unfold cirF Spec.curl
    rw [mul_div_cancel₀ _ ha, fold_div 3 _ (fun j => m.real .edge_sign_on_vertex 0 i j *
      Spec.dcE m (Spec.spoke m i j) * m.real (.vn_edge st) 0 (Spec.spoke m i j) k) 1, div_one]
    intro j; ring
  rw [this]; ring

/-! ### C41, C42, C43 -/

/-- Each integral has exactly one possible value, whatever way the parallel reduction splits the
range, orders the iterations of a piece and joins the pieces; and no way of reducing faults. -/
theorem C41_reduction_order {prm : Params ℝ} (hv : RunValid p) (hr : Ready p dc prm m)
    (grav : ℝ) (st : StateId) :
    (∃! v, IsMassIntegral p.dims st m v) ∧ (∃! v, IsEnergyIntegral p.dims grav st m v) ∧
    (∃! v, IsCirculationIntegral p.dims st m v) ∧
    ReduceSafe p.dims p.dims.ncells (mass_body st) m ∧
    ReduceSafe p.dims p.dims.ncells (energy_body grav st) m ∧
    ReduceSafe p.dims p.dims.nvertices (circulation_body st) m := by
  have hl := levels_of_hex (hr.hex hv.toValid).1
  have hc := (ready_ok hv hr).2
  refine ⟨⟨_, (mass_value hl st _).2 rfl, fun v h => (mass_value hl st v).1 h⟩,
    ⟨_, (energy_value hc hl grav st _).2 rfl, fun v h => (energy_value hc hl grav st v).1 h⟩,
    ⟨_, (circulation_value hc hl st _).2 rfl, fun v h => (circulation_value hc hl st v).1 h⟩,
    reduceSafe_of fun i a h0 h1 => wp_mass hl st a h0 h1,
    reduceSafe_of fun i a h0 h1 => wp_energy hc hl grav st a h0 h1,
    reduceSafe_of fun i a h0 h1 => wp_circulation hc hl st a h0 h1⟩

/-- A tree that splits the cells and reverses a piece is covered, so the theorem is not about one
order only. -/
example : (RTree.node (.leaf [3, 1]) (.node (.leaf []) (.leaf [0, 2]))).Covers 4 := by
  unfold RTree.Covers RTree.idx; decide

/-- The energy is the sum of area times `g h^2 / 2 + h K`, `K` being the kinetic energy of the
momentum equation (the one of `Spec.velocityTend`, see C51); it is not negative for non-negative
thickness and gravity. -/
theorem C42_energy {prm : Params ℝ} (hv : RunValid p) (hdc : 0 < dc) (hr : Ready p dc prm m)
    (grav : ℝ) (st : StateId) {v : ℝ} (he : IsEnergyIntegral p.dims grav st m v) :
    v = ∑ k ∈ Spec.layers p.dims, ∑ c ∈ Spec.cells p.dims, Spec.areaC m c *
      (grav * m.real (.h_cell st) 0 c k ^ 2 / 2 +
        m.real (.h_cell st) 0 c k * Spec.kinetic m (fun e => m.real (.vn_edge st) 0 e k) c) ∧
    (0 ≤ grav → (∀ c k, 0 ≤ c → c < p.dims.ncells → 0 ≤ k → k < p.dims.nlayers →
      0 ≤ m.real (.h_cell st) 0 c k) → 0 ≤ v) := by
  refine ⟨(energy_spec hv hr grav st v).1 he, fun hg hh => ?_⟩
  rw [(energy_spec hv hr grav st v).1 he]
  have h := Ready.geo hr hv.toValid hdc
  refine Finset.sum_nonneg fun k hk => Finset.sum_nonneg fun c hc => ?_
  have hk := Finset.mem_Ico.mp hk
  have hc' := Finset.mem_Ico.mp hc
  have hA : 0 < Spec.areaC m c := by
    rw [spec_areaC h (mem_cells.mp hc)]; have := w_pos; positivity
  have hK : 0 ≤ Spec.kinetic m (fun e => m.real (.vn_edge st) 0 e k) c := by
    refine div_nonneg (Finset.sum_nonneg fun j hj => ?_) hA.le
    have hj := Finset.mem_Ico.mp hj
    have hin := (ready_ok hv hr).2.eoc c hc'.1 hc'.2 j hj.1 hj.2
    rw [spec_dcE h hin.1 hin.2, spec_dvE h hin.1 hin.2]
    have := w_pos
    positivity
  have := hh c k hc'.1 hc'.2 hk.1 hk.2
  positivity

theorem layers_split (hv : MeshParams.Valid p) (g : Int → ℝ) :
    ∑ k ∈ Spec.layers p.dims, g k =
      ∑ k ∈ Finset.Ico 0 p.nlayers, g k + ∑ k ∈ Finset.Ico p.nlayers p.dims.nlayers, g k := by
  rw [← Finset.sum_union (Finset.Ico_disjoint_Ico_consecutive _ _ _), Finset.Ico_union_Ico_eq_Ico
    hv.nlayers_nonneg (C01_padding p hv.vl_pos hv.nlayers_nonneg).1.2.1]

/-- The integrals also count the padding layers: the value is the integral over the requested layers
plus the integral over the padding.  If there is padding, the mass therefore depends on values in
layers the user did not ask for. -/
theorem C43_padding_counted (hv : RunValid p) (hdc : 0 < dc) {prm : Params ℝ} :
    (∀ m : Mem ℝ, Ready p dc prm m → ∀ (grav : ℝ) (st : StateId) (vm ve vc : ℝ),
      IsMassIntegral p.dims st m vm → IsEnergyIntegral p.dims grav st m ve →
      IsCirculationIntegral p.dims st m vc →
      let mass := fun k => ∑ c ∈ Spec.cells p.dims, Spec.areaC m c * m.real (.h_cell st) 0 c k
      let energy := fun k => ∑ c ∈ Spec.cells p.dims, Spec.areaC m c *
        (grav * m.real (.h_cell st) 0 c k ^ 2 / 2 +
        m.real (.h_cell st) 0 c k * Spec.kinetic m (fun e => m.real (.vn_edge st) 0 e k) c)
      let circ := fun k => ∑ i ∈ Spec.verts p.dims, Spec.areaT m i *
        (Spec.curl m (fun e => m.real (.vn_edge st) 0 e k) i + m.real .f_vertex 0 i 0)
      let req := Finset.Ico 0 p.nlayers
      let pad := Finset.Ico p.nlayers p.dims.nlayers
      vm = ∑ k ∈ req, mass k + ∑ k ∈ pad, mass k ∧
      ve = ∑ k ∈ req, energy k + ∑ k ∈ pad, energy k ∧
      vc = ∑ k ∈ req, circ k + ∑ k ∈ pad, circ k) ∧
    (¬ p.vl ∣ p.nlayers → ∃ m m' : Mem ℝ, Ready p dc prm m ∧ Ready p dc prm m' ∧
      (∀ a l i k, k < p.nlayers → m'.real a l i k = m.real a l i k) ∧
      ∃ v v', IsMassIntegral p.dims .state m v ∧ IsMassIntegral p.dims .state m' v' ∧ v' ≠ v) := by
  constructor
  · intro m hr grav st vm ve vc h1 h2 h3
    refine ⟨?_, ?_, ?_⟩
    · rw [(mass_spec hv.toValid hr st vm).1 h1, layers_split hv.toValid]
    · rw [(energy_spec hv hr grav st ve).1 h2, layers_split hv.toValid]
    · rw [(circulation_spec hv hdc hr st vc).1 h3, layers_split hv.toValid]
  · intro hdvd
    have hpad := (C01_padding p hv.vl_pos hv.nlayers_nonneg).1
    have hlt : p.nlayers < p.dims.nlayers := by
      rcases hpad.2.1.lt_or_eq with h | h
      · exact h
      · exact absurd (h ▸ hpad.1) hdvd
    obtain ⟨m, hr, h1, h2⟩ := exists_ready hv.toValid dc prm zeroFld zeroFld
    set m' : Mem ℝ := ⟨m.int, fun a l i k => if a = .h_cell .state ∧ p.nlayers ≤ k then
      m.real a l i k + 1 else m.real a l i k⟩ with hm'
    have hs : Static m' m := ⟨rfl, fun b hb => by
      funext l i k
      simp only [hm']
      rw [if_neg]
      rintro ⟨rfl, -⟩
      simp [isDyn, isState] at hb⟩
    have hr' := hr.static hs
    refine ⟨m, m', hr, hr', ?_, _, _, (mass_spec hv.toValid hr _ _).2 rfl,
      (mass_spec hv.toValid hr' _ _).2 rfl, ?_⟩
    · intro a l i k hk
      simp only [hm']
      rw [if_neg (by omega)]
    · have ha : ∀ c ∈ Spec.cells p.dims, 0 < Spec.areaC m c := fun c hc => by
        rw [spec_areaC (Ready.geo hr hv.toValid hdc) (mem_cells.mp hc)]; have := w_pos; positivity
      have hA : ∀ c, Spec.areaC m' c = Spec.areaC m c := fun c => by
        simp [hm', Spec.areaC]
      have hn0 : 0 < p.dims.ncells := by
        have := hv.nx_pos; have := hv.ny_pos
        simp only [MeshParams.dims]; positivity
      have hl0 := hv.nlayers_nonneg
      refine ne_of_gt ?_
      refine Finset.sum_lt_sum (fun k hk => Finset.sum_le_sum fun c hc => ?_)
        ⟨p.nlayers, by simp; omega, Finset.sum_lt_sum_of_nonempty ⟨0, by simp; omega⟩
          fun c hc => ?_⟩
      · rw [hA]
        refine mul_le_mul_of_nonneg_left ?_ (ha c hc).le
        simp only [hm']
        split_ifs <;> simp
      · rw [hA]
        refine mul_lt_mul_of_pos_left ?_ (ha c hc)
        simp [hm']

/-- the example mesh has padding -/
example : ¬ p46.vl ∣ p46.nlayers := by decide

/-! ### Values of the tendency in both modes -/

theorem tend_val (d : Dims) (sw : SWModel ℝ) (mode : AddMode) (t : ℝ) (o s : Fld ℝ) :
    (∀ c k, ((genSys d sw noHook m).tend mode t o s).h c k = if sw.prm.disable_h = true then o.h c k
      else (if mode = .replace then 0 else o.h c k) +
        Spec.thicknessTend m sw (fun i => s.h i k) (fun i => s.vn i k) c) ∧
    (∀ c k, ((genSys d sw noHook m).tend mode t o s).vn c k =
      if sw.prm.disable_vn = true then o.vn c k
      else (if mode = .replace then 0 else o.vn c k) +
        Spec.velocityTend m sw k (fun i => s.h i k) (fun i => s.vn i k) c) ∧
    (∀ l c k, ((genSys d sw noHook m).tend mode t o s).tr l c k =
      (if mode = .replace then 0 else o.tr l c k) +
        Spec.tracerTend m sw (fun i => s.h i k) (fun i => s.vn i k) (fun i => s.tr l i k) c) := by
  have key := tend_increment (genSys d sw noHook m) rfl t o s
  have e1 : ∀ c k, sw.prm.disable_h = false →
      ((genSys d sw noHook m).tend .replace t o s).h c k =
        Spec.thicknessTend m sw (fun i => s.h i k) (fun i => s.vn i k) c := fun c k h => by
    simp only [Sys.tend]
    rw [if_neg (by simp [genSys, h]), sys_h]; rfl
  have e2 : ∀ c k, sw.prm.disable_vn = false →
      ((genSys d sw noHook m).tend .replace t o s).vn c k =
        Spec.velocityTend m sw k (fun i => s.h i k) (fun i => s.vn i k) c := fun c k h => by
    simp only [Sys.tend]
    rw [if_neg (by simp [genSys, h]), sys_vn]; rfl
  have e3 : ∀ l c k, ((genSys d sw noHook m).tend .replace t o s).tr l c k =
        Spec.tracerTend m sw (fun i => s.h i k) (fun i => s.vn i k) (fun i => s.tr l i k) c :=
    fun l c k => by
      simp only [Sys.tend]
      rw [sys_tr]
  refine ⟨fun c k => ?_, fun c k => ?_, fun l c k => ?_⟩
  · by_cases h : sw.prm.disable_h = true
    · rw [if_pos h]; simp only [Sys.tend]; rw [if_pos (by simpa [genSys] using h)]; rfl
    · rw [if_neg h]
      simp only [Bool.not_eq_true] at h
      cases mode
      · simp [e1 c k h]
      · rw [key.1 h, e1 c k h]; simp
  · by_cases h : sw.prm.disable_vn = true
    · rw [if_pos h]; simp only [Sys.tend]; rw [if_pos (by simpa [genSys] using h)]; rfl
    · rw [if_neg h]
      simp only [Bool.not_eq_true] at h
      cases mode
      · simp [e2 c k h]
      · rw [key.2.1 h, e2 c k h]; simp
  · cases mode
    · simp [e3 l c k]
    · rw [key.2.2, e3 l c k]; simp

/-! ### C17, C18 -/

theorem sum_div_zero (h : Geo2 p.nx p.ny p.dims.nlayers dc m.mesh) (u : Int → ℝ) :
    ∑ c ∈ Spec.cells p.dims, Spec.areaC m c * Spec.div m u c = 0 := by
  have := adjoint h (fun _ => 1) u
  simpa [Spec.grad] using this

theorem sum_thickness (h : Geo2 p.nx p.ny p.dims.nlayers dc m.mesh) (sw : SWModel ℝ)
    (x u : Int → ℝ) : ∑ c ∈ Spec.cells p.dims, Spec.areaC m c * Spec.thicknessTend m sw x u c = 0 := by
  unfold Spec.thicknessTend
  split_ifs
  · simp only [mul_neg, Finset.sum_neg_distrib, neg_eq_zero]
    exact sum_div_zero h _
  · simp

theorem sum_tracer (h : Geo2 p.nx p.ny p.dims.nlayers dc m.mesh) (sw : SWModel ℝ)
    (x u s : Int → ℝ) :
    ∑ c ∈ Spec.cells p.dims, Spec.areaC m c * Spec.tracerTend m sw x u s c = 0 := by
  have key : ∀ (a : ℝ) (w : Int → ℝ),
      ∑ c ∈ Spec.cells p.dims, Spec.areaC m c * (a * Spec.div m w c) = 0 := fun a w => by
    have := sum_div_zero h w
    calc _ = a * ∑ c ∈ Spec.cells p.dims, Spec.areaC m c * Spec.div m w c := by
          rw [Finset.mul_sum]; exact Finset.sum_congr rfl fun c _ => by ring
      _ = 0 := by rw [this, mul_zero]
  have key' := sum_div_zero h
  unfold Spec.tracerTend
  simp only [mul_add, mul_sub, Finset.sum_add_distrib, Finset.sum_sub_distrib]
  have e1 : ∀ (b : Bool) (w : Int → ℝ), ∑ c ∈ Spec.cells p.dims, Spec.areaC m c *
      (if b = true then -Spec.div m w c else 0) = 0 := fun b w => by
    cases b <;> simp [key' w]
  have e2 : ∀ (b : Bool) (a : ℝ) (w : Int → ℝ), ∑ c ∈ Spec.cells p.dims, Spec.areaC m c *
      (if b = true then a * Spec.div m w c else 0) = 0 := fun b a w => by
    cases b <;> simp [key a w]
  rw [e1, e2, e2]; ring

theorem sum_axpy {d : Dims} (A x y : Int → ℝ) (c : ℝ) :
    ∑ i ∈ Spec.cells d, A i * (x i + c * y i) =
      ∑ i ∈ Spec.cells d, A i * x i + c * ∑ i ∈ Spec.cells d, A i * y i := by
  rw [Finset.mul_sum, ← Finset.sum_add_distrib]
  exact Finset.sum_congr rfl fun i _ => by ring

/-- sums of thickness and of tracers are invariant -/
theorem stepRel_sums (h : Geo2 p.nx p.ny p.dims.nlayers dc m.mesh) (sw : SWModel ℝ)
    (Ch : Int → ℝ) (Ct : Int → Int → ℝ) :
    StepRel (genSys p.dims sw noHook m) (genSys p.dims sw noHook m)
      (fun x _ => (∀ k, ∑ c ∈ Spec.cells p.dims, Spec.areaC m c * x.h c k = 0) ∧
        ∀ l k, ∑ c ∈ Spec.cells p.dims, Spec.areaC m c * x.tr l c k = 0)
      (fun x _ => (∀ k, ∑ c ∈ Spec.cells p.dims, Spec.areaC m c * x.h c k = Ch k) ∧
        ∀ l k, ∑ c ∈ Spec.cells p.dims, Spec.areaC m c * x.tr l c k = Ct l k) := by
  refine StepRel.of_inv
    (Pt := fun x => (∀ k, ∑ c ∈ Spec.cells p.dims, Spec.areaC m c * x.h c k = 0) ∧
        ∀ l k, ∑ c ∈ Spec.cells p.dims, Spec.areaC m c * x.tr l c k = 0)
    (Ps := fun x => (∀ k, ∑ c ∈ Spec.cells p.dims, Spec.areaC m c * x.h c k = Ch k) ∧
        ∀ l k, ∑ c ∈ Spec.cells p.dims, Spec.areaC m c * x.tr l c k = Ct l k) ?_ ?_ ?_
  · rintro mode t o s ⟨ho, ho'⟩ -
    have tv := tend_val (m := m) p.dims sw mode t o s
    refine ⟨fun k => ?_, fun l k => ?_⟩
    · simp only [tv.1]
      by_cases hd : sw.prm.disable_h = true
      · simp only [if_pos hd]; exact ho k
      · simp only [if_neg hd, mul_add, Finset.sum_add_distrib, sum_thickness h, add_zero]
        cases mode
        · simp
        · simpa using ho k
    · simp only [tv.2.2, mul_add, Finset.sum_add_distrib, sum_tracer h, add_zero]
      cases mode
      · simp
      · simpa using ho' l k
  · rintro x a ⟨h1, h2⟩
    refine ⟨fun k => ?_, fun l k => ?_⟩
    · simp only [Fld.map, ← mul_assoc, ← Finset.sum_mul, h1, zero_mul]
    · simp only [Fld.map, ← mul_assoc, ← Finset.sum_mul, h2, zero_mul]
  · rintro x y c ⟨h1, h2⟩ ⟨h3, h4⟩
    refine ⟨fun k => ?_, fun l k => ?_⟩
    · simp only [Fld.axpy, Fld.zip]
      rw [sum_axpy, h1, h3, mul_zero, add_zero]
    · simp only [Fld.axpy, Fld.zip]
      rw [sum_axpy, h2, h4, mul_zero, add_zero]

theorem area_static {m m' : Mem ℝ} (h : Static m' m) (c : Int) :
    Spec.areaC m' c = Spec.areaC m c := by
  unfold Spec.areaC; rw [h.real .area_cell rfl]

theorem run_sums (hv : RunValid p) (hx : 2 ≤ p.nx) (hy : 2 ≤ p.ny) (hdc : 0 < dc)
    {prm : Params ℝ} (hr : Ready p dc prm m) {sw : SWModel ℝ} (hn : sw.NoHook) {stp : Stepper}
    {sched : List (ℝ × ℝ)} {split : Bool} {m1 : Mem ℝ}
    (he : Exec p.dims (stp.ctor p.dims ++
      stp.run p.dims ⟨defaultKernels p.dims.vl, split⟩ sw sched) m m1) :
    (∀ k ∈ Spec.layers p.dims,
      ∑ c ∈ Spec.cells p.dims, Spec.areaC m1 c * m1.real (.h_cell .state) 0 c k =
      ∑ c ∈ Spec.cells p.dims, Spec.areaC m c * m.real (.h_cell .state) 0 c k) ∧
    ∀ l, 0 ≤ l → l < p.dims.ntracers → ∀ k ∈ Spec.layers p.dims,
      ∑ c ∈ Spec.cells p.dims, Spec.areaC m1 c * m1.real (.tr_cell .state) l c k =
      ∑ c ∈ Spec.cells p.dims, Spec.areaC m c * m.real (.tr_cell .state) l c k := by
  obtain ⟨hd, hc⟩ := ready_ok hv hr
  have hS := genSetup hd hc (hookOK_noHook hn p.dims m)
  obtain ⟨hs, -, v⟩ := hS.newRun he
  have key := ((stepRel_sums (Ready.geo2 hr hv.toValid hx hy hdc) sw
    (fun k => ∑ c ∈ Spec.cells p.dims, Spec.areaC m c * m.real (.h_cell .state) 0 c k)
    (fun l k => ∑ c ∈ Spec.cells p.dims, Spec.areaC m c * m.real (.tr_cell .state) l c k)).run stp
    sched (p := (zeroFld, m.fld .state)) (q := (zeroFld, m.fld .state))
    (by simp [zeroFld]) (by simp [Mem.fld])).2
  refine ⟨fun k hk => ?_, fun l l0 l1 k hk => ?_⟩
  · rw [← key.1 k]
    refine Finset.sum_congr rfl fun c hc => ?_
    have hk := Finset.mem_Ico.mp hk; have hc := Finset.mem_Ico.mp hc
    rw [area_static hs, ← v.h c k hc.1 hc.2 hk.1 hk.2]; rfl
  · rw [← key.2 l k]
    refine Finset.sum_congr rfl fun c hc => ?_
    have hk := Finset.mem_Ico.mp hk; have hc := Finset.mem_Ico.mp hc
    rw [area_static hs, ← v.tr l c k l0 l1 hc.1 hc.2 hk.1 hk.2]; rfl

/-- Total mass, as reported by `mass_integral`, is unchanged by constructing either stepper and making
any number of steps of any sizes, for every state and every combination of terms; so is the mass of
each layer. -/
theorem C17_mass_conserved (hv : RunValid p) (hx : 2 ≤ p.nx) (hy : 2 ≤ p.ny) (hdc : 0 < dc)
    {prm : Params ℝ} (hr : Ready p dc prm m) {sw : SWModel ℝ} (hn : sw.NoHook) {stp : Stepper}
    {sched : List (ℝ × ℝ)} {split : Bool} {m1 : Mem ℝ}
    (he : Exec p.dims (stp.ctor p.dims ++
      stp.run p.dims ⟨defaultKernels p.dims.vl, split⟩ sw sched) m m1) :
    (∀ v v1, IsMassIntegral p.dims .state m v → IsMassIntegral p.dims .state m1 v1 → v1 = v) ∧
    ∀ k ∈ Spec.layers p.dims,
      ∑ c ∈ Spec.cells p.dims, Spec.areaC m1 c * m1.real (.h_cell .state) 0 c k =
      ∑ c ∈ Spec.cells p.dims, Spec.areaC m c * m.real (.h_cell .state) 0 c k := by
  have key := (run_sums hv hx hy hdc hr hn he).1
  refine ⟨fun v v1 h h1 => ?_, key⟩
  obtain ⟨hd, hc⟩ := ready_ok hv hr
  have hs := ((genSetup hd hc (hookOK_noHook hn p.dims m)).newRun he).1
  rw [(mass_spec hv.toValid hr .state v).1 h,
    (mass_spec hv.toValid (hr.static hs) .state v1).1 h1]
  exact Finset.sum_congr rfl key

/-- The area-weighted sum of each tracer in each layer is unchanged by any run of either stepper, with
any combination of advection, diffusion and hyperdiffusion. -/
theorem C18_tracer_conserved (hv : RunValid p) (hx : 2 ≤ p.nx) (hy : 2 ≤ p.ny) (hdc : 0 < dc)
    {prm : Params ℝ} (hr : Ready p dc prm m) {sw : SWModel ℝ} (hn : sw.NoHook) {stp : Stepper}
    {sched : List (ℝ × ℝ)} {split : Bool} {m1 : Mem ℝ}
    (he : Exec p.dims (stp.ctor p.dims ++
      stp.run p.dims ⟨defaultKernels p.dims.vl, split⟩ sw sched) m m1) :
    ∀ l, 0 ≤ l → l < p.dims.ntracers → ∀ k ∈ Spec.layers p.dims,
      ∑ c ∈ Spec.cells p.dims, Spec.areaC m1 c * m1.real (.tr_cell .state) l c k =
      ∑ c ∈ Spec.cells p.dims, Spec.areaC m c * m.real (.tr_cell .state) l c k :=
  (run_sums hv hx hy hdc hr hn he).2

/-- A ready memory with any given state and an execution of a new stepper and a run. -/
theorem exists_newRun (hv : RunValid p) (dc : ℝ) (prm : Params ℝ)
    {sw : SWModel ℝ} (hn : sw.NoHook) (split : Bool) (stp : Stepper) (sched : List (ℝ × ℝ))
    (x : Fld ℝ) :
    ∃ m m1 : Mem ℝ, Ready p dc prm m ∧ m.fld .state = x ∧
      Exec p.dims (stp.ctor p.dims ++
        stp.run p.dims ⟨defaultKernels p.dims.vl, split⟩ sw sched) m m1 := by
  obtain ⟨m, h, h1, -⟩ := exists_ready hv.toValid dc prm x zeroFld
  obtain ⟨hd, hc⟩ := ready_ok hv h
  obtain ⟨m1, r, -⟩ := new_run_runs (genSetup hd hc (hookOK_noHook hn p.dims m)) stp sched
  exact ⟨m, m1, h, h1, (r split).exec⟩

/-- a run of the five-stage stepper with changing step sizes, from a non-uniform state -/
example (prm : Params ℝ) : ∃ m m1 : Mem ℝ, Ready p46t (1 / 4) prm m ∧ 2 ≤ p46t.nx ∧ 2 ≤ p46t.ny ∧
    Exec p46t.dims ((Stepper.lsrk 5).ctor p46t.dims ++ (Stepper.lsrk 5).run p46t.dims
      ⟨defaultKernels p46t.dims.vl, false⟩ (SWModel.ofParams prm) [(0, 1), (1, 2), (7, -3)]) m m1 ∧
    m.real (.h_cell .state) 0 5 2 = 6 ∧ m.real (.vn_edge .state) 0 7 2 = 49 := by
  obtain ⟨m, m1, hr, hx, he⟩ := exists_newRun p46t_run (1 / 4) prm (noHook_ofParams prm) false
    (.lsrk 5) [(0, 1), (1, 2), (7, -3)] ⟨fun c _ => 1 + c, fun e _ => e * e, fun l c k => l + c + k⟩
  refine ⟨m, m1, hr, by simp [p46t], by simp [p46t], he, ?_, ?_⟩
  · exact (congrFun (congrFun (congrArg Fld.h hx) 5) 2).trans (by norm_num)
  · exact (congrFun (congrFun (congrArg Fld.vn hx) 7) 2).trans (by norm_num)

/-! ### C17 fails for one column or one row -/

theorem thin_inv (hv : MeshParams.Valid p) (hthin : p.nx = 1 ∨ p.ny = 1) :
    ∃ a : Int, 0 ≤ a ∧ a < 3 ∧ ∀ c, IsCell p.nx p.ny c → inv p.nx p.ny (a + 3) c = c := by
  have hx := hv.nx_pos
  rcases hthin with h | h
  · refine ⟨0, by omega, by omega, fun c hc => ?_⟩
    have := cid_col_row (nx := p.nx) c
    have hcol : col p.nx c = 0 := by simp [col, h, Int.emod_one]
    rw [hcol] at this
    have hm : mx p.nx 0 = 0 := by simp [mx, h]
    simp [inv, inI, inR, hcol, hm]
    exact this
  · refine ⟨1, by omega, by omega, fun c hc => ?_⟩
    have := cid_col_row (nx := p.nx) c
    have hrow : row p.nx c = 0 := by
      obtain ⟨h0, h1⟩ := hc
      rw [h, mul_one] at h1
      exact Int.ediv_eq_zero_of_lt h0 h1
    rw [hrow] at this
    simp [inv, inI, inR, mx, hrow, h]
    exact this

/-- With one column or one row mass is not conserved: there are a state and a step (of the one-stage
stepper) that change `mass_integral`. -/
theorem C17_fails_thin (hv : RunValid p) (hthin : p.nx = 1 ∨ p.ny = 1) (hl : 1 ≤ p.nlayers)
    (hdc : 0 < dc) (prm : Params ℝ) {sw : SWModel ℝ} (hn : sw.NoHook) (hadv : sw.en_hadv = true)
    (hen : sw.prm.disable_h = false) (split : Bool) :
    ∃ (m m1 : Mem ℝ) (v v1 : ℝ), Ready p dc prm m ∧
      Exec p.dims ((Stepper.lsrk 1).ctor p.dims ++ (Stepper.lsrk 1).run p.dims
        ⟨defaultKernels p.dims.vl, split⟩ sw [(0, 1)]) m m1 ∧
      IsMassIntegral p.dims .state m v ∧ IsMassIntegral p.dims .state m1 v1 ∧ v1 ≠ v := by
  obtain ⟨a, a0, a3, hinv⟩ := thin_inv hv.toValid hthin
  obtain ⟨m, m1, hr, hx, he⟩ := exists_newRun hv dc prm hn split (.lsrk 1) [(0, 1)]
    ⟨fun _ _ => 1, fun e _ => if e % 3 = a then 1 else 0, fun _ _ _ => 0⟩
  obtain ⟨hd, hc⟩ := ready_ok hv hr
  obtain ⟨hs, -, vv⟩ := (genSetup hd hc (hookOK_noHook hn p.dims m)).newRun he
  have hhex := (hr.hex hv.toValid).1
  have h := Ready.geo hr hv.toValid hdc
  refine ⟨m, m1, _, _, hr, he, (mass_spec hv.toValid hr _ _).2 rfl,
    (mass_spec hv.toValid (hr.static hs) _ _).2 rfl, ?_⟩
  have hw := w_pos
  have hdiv : ∀ c, IsCell p.nx p.ny c →
      0 < Spec.areaC m c * Spec.div m (fun e => if e % 3 = a then 1 else 0) c := by
    intro c hc
    have hA : 0 < Spec.areaC m c := by rw [spec_areaC h hc]; positivity
    refine mul_pos hA (div_pos ?_ hA)
    have hterm : ∀ j ∈ Finset.Ico (0 : Int) 6, m.real .edge_sign_on_cell 0 c j *
        Spec.dvE m (Spec.side m c j) * (if Spec.side m c j % 3 = a then 1 else 0) =
        if j % 3 = a then dc * √3 / 3 else 0 := by
      intro j hj
      have hj := Finset.mem_Ico.mp hj
      have hE := E_range hv.nx_pos hc j hj.1 hj.2
      have e0 : Spec.side m c j = E p.nx p.ny c j := hhex.eoc c hc j hj.1 hj.2
      rw [e0, spec_dvE h hE.1 hE.2, E_mod hj.1 hj.2, hhex.sign_cell c hc j hj.1 hj.2]
      split_ifs with h1 h2 h3
      · simp
      · ring
      · exfalso
        apply h1
        by_cases h3' : j < 3
        · rw [coe_zero, E_div_lo hj.1 h3', E_mod hj.1 hj.2, h3]
          exact hinv c hc
        · exact coe_E_hi hv.nx_pos hc (by omega) hj.2
      · ring
    have hne : m.int .nedges_on_cell c 0 = 6 := hhex.neoc c hc
    rw [hne, Finset.sum_congr rfl hterm]
    refine Finset.sum_pos' (fun j _ => ?_) ⟨a, by simp; omega, ?_⟩
    · split_ifs <;> positivity
    · rw [if_pos (by omega)]; positivity
  have hh0 : ∀ c k, m.real (.h_cell .state) 0 c k = 1 := fun c k =>
    congrFun (congrFun (congrArg Fld.h hx) c) k
  have hh1 : ∀ c k, IsCell p.nx p.ny c → 0 ≤ k → k < p.dims.nlayers →
      m1.real (.h_cell .state) 0 c k =
        1 - Spec.div m (fun e => if e % 3 = a then 1 else 0) c := by
    intro c k hc k0 k1
    refine (vv.h c k hc.1 hc.2 k0 k1).trans ?_
    rw [hx]
    have hmean : Spec.mean m (fun _ => (1 : ℝ)) = fun _ => 1 := by
      funext e; simp [Spec.mean]
    simp [Sys.run, Sys.step, Sys.lsrkStep, Sys.lsrkStage, lsrkCoef, nth, Fld.axpy, Fld.zip,
      (tend_val (m := m) p.dims sw .increment 0 _ _).1, hen, Spec.thicknessTend, hadv, Fld.map,
      zeroFld, hmean]
    ring
  have hpad := (C01_padding p hv.vl_pos hv.nlayers_nonneg).1.2.1
  have hn0 : 0 < p.dims.ncells := by
    have := hv.nx_pos; have := hv.ny_pos
    simp only [MeshParams.dims]; positivity
  refine ne_of_lt (Finset.sum_lt_sum_of_nonempty ⟨0, by simp; omega⟩ fun k hk =>
    Finset.sum_lt_sum_of_nonempty ⟨0, by simp; omega⟩ fun c hc => ?_)
  have hk := Finset.mem_Ico.mp hk
  have hc := mem_cells.mp hc
  rw [area_static hs, hh0, hh1 c k hc hk.1 hk.2]
  have := hdiv c hc
  linarith

example : RunValid ⟨1, 4, 1, 0, 1⟩ ∧ RunValid ⟨4, 1, 1, 0, 1⟩ := by
  constructor <;> exact ⟨by constructor <;> simp, by norm_num [MeshParams.dims, ceilDiv]⟩

/-! ### C21 -/

/-- `circulation_integral` is Coriolis parameter times domain area times number of layers, whatever the
velocity.  Works for one row or one column too. -/
theorem C21_circulation (hv : RunValid p) (hdc : 0 < dc) {prm : Params ℝ} (hr : Ready p dc prm m)
    (st : StateId) {v : ℝ} (h : IsCirculationIntegral p.dims st m v) :
    v = prm.f0 * ((p.nx * dc) * (p.ny * (dc * √3 / 2))) * p.dims.nlayers := by
  have g := Ready.geo hr hv.toValid hdc
  have hf := (hr.hex hv.toValid).2.1
  rw [(circulation_spec hv hdc hr st v).1 h]
  have hw := w_pos
  have key : ∀ k, ∑ i ∈ Spec.verts p.dims, Spec.areaT m i *
        (Spec.curl m (fun e => m.real (.vn_edge st) 0 e k) i + m.real .f_vertex 0 i 0) =
      prm.f0 * ((p.nx * dc) * (p.ny * (dc * √3 / 2))) := by
    intro k
    simp only [mul_add, Finset.sum_add_distrib]
    have h1 := adjointV g (fun _ => 1) (fun e => m.real (.vn_edge st) 0 e k)
    simp only [one_mul, Spec.gradT, sub_self, zero_div, mul_zero, Finset.sum_const_zero] at h1
    rw [h1, zero_add, Finset.sum_congr rfl fun i hi => by
      have hi := Finset.mem_Ico.mp hi
      rw [spec_areaT g hi.1 hi.2, hf i hi.1 hi.2], Finset.sum_const, Int.card_Ico, nsmul_eq_mul]
    have hn : ((p.dims.nvertices - 0).toNat : ℝ) = 2 * (p.nx * p.ny) := by
      have h0 : (0 : Int) ≤ p.dims.nvertices - 0 := by
        have hx := hv.nx_pos; have hy := hv.ny_pos
        simp only [MeshParams.dims]
        have : 0 ≤ p.nx * p.ny := by positivity
        omega
      have : (((p.dims.nvertices - 0).toNat : Int) : ℝ) = ((p.dims.nvertices - 0 : Int) : ℝ) := by
        rw [Int.toNat_of_nonneg h0]
      rw [Int.cast_natCast] at this
      rw [this]; simp [MeshParams.dims]
    rw [hn]; ring
  rw [Finset.sum_congr rfl fun k _ => key k, Finset.sum_const, Int.card_Ico, nsmul_eq_mul]
  have h0 : (0 : Int) ≤ p.dims.nlayers - 0 := by
    have := (C01_padding p hv.vl_pos hv.nlayers_nonneg).1.2.1
    have := hv.nlayers_nonneg
    omega
  have : (((p.dims.nlayers - 0).toNat : Int) : ℝ) = ((p.dims.nlayers - 0 : Int) : ℝ) := by
    rw [Int.toNat_of_nonneg h0]
  rw [Int.cast_natCast] at this
  rw [this]; push_cast; ring

/-- The circulation after a run is that before it, also with an `additional_tendency` that updates
thickness and velocity tendencies entry by entry. -/
theorem C21_run (hv : RunValid p) (hdc : 0 < dc) {prm : Params ℝ} (hr : Ready p dc prm m)
    {sw : SWModel ℝ} {H : HookFn ℝ} (hH : HookOK p.dims sw H m) {stp : Stepper} {sched : List (ℝ × ℝ)} {split : Bool}
    {m1 : Mem ℝ} (he : Exec p.dims (stp.ctor p.dims ++
      stp.run p.dims ⟨defaultKernels p.dims.vl, split⟩ sw sched) m m1) {v v1 : ℝ}
    (h : IsCirculationIntegral p.dims .state m v) (h1 : IsCirculationIntegral p.dims .state m1 v1) :
    v1 = v := by
  obtain ⟨hd, hc⟩ := ready_ok hv hr
  have hs := ((genSetup hd hc hH).newRun he).1
  rw [C21_circulation hv hdc hr .state h, C21_circulation hv hdc (hr.static hs) .state h1]

/-! ### C22 -/

/-- constant thickness and tracers, no flow -/
def restFld (H : Int → ℝ) (T : Int → Int → ℝ) : Fld ℝ :=
  ⟨fun _ k => H k, fun _ _ => 0, fun l _ k => T l k⟩

theorem rest_tend (sw : SWModel ℝ) (H q : ℝ) (k : Int) :
    (∀ c, Spec.thicknessTend m sw (fun _ => H) (fun _ => 0) c = 0) ∧
    (∀ e, Spec.velocityTend m sw k (fun _ => H) (fun _ => 0) e = 0) ∧
    (∀ c, Spec.tracerTend m sw (fun _ => H) (fun _ => 0) (fun _ => q) c = 0) := by
  have hz : Spec.div m (fun _ => 0) = fun _ => 0 := by funext c; simp [Spec.div]
  have hzc : Spec.curl m (fun _ => 0) = fun _ => 0 := by funext c; simp [Spec.curl]
  have hzk : Spec.kinetic m (fun _ => 0) = fun _ => 0 := by funext c; simp [Spec.kinetic]
  have hg : ∀ a : ℝ, Spec.grad m (fun _ => a) = fun _ => 0 := fun a => by funext e; simp [Spec.grad]
  have hgT : ∀ a : ℝ, Spec.gradT m (fun _ => a) = fun _ => 0 := fun a => by
    funext e; simp [Spec.gradT]
  have hzl : Spec.vecLap m (fun _ => 0) = fun _ => 0 := by
    funext c; simp [Spec.vecLap, hz, hzc, hg]
  refine ⟨fun c => ?_, fun e => ?_, fun c => ?_⟩
  · simp [Spec.thicknessTend, hz]
  · simp [Spec.velocityTend, hz, hzc, hzk, hzl, hg, hgT, Spec.pvFlux]
  · simp [Spec.tracerTend, hz, hg]

theorem stepRel_rest (d : Dims) (sw : SWModel ℝ) (H : Int → ℝ) (T : Int → Int → ℝ) :
    StepRel (genSys d sw noHook m) (genSys d sw noHook m) (fun x _ => x = zeroFld)
      (fun x _ => x = restFld H T) := by
  refine StepRel.of_inv (Pt := fun x => x = zeroFld) (Ps := fun x => x = restFld H T) ?_ ?_ ?_
  · rintro mode t _ _ rfl rfl
    have tv := tend_val (m := m) d sw mode t zeroFld (restFld H T)
    have e1 : ((genSys d sw noHook m).tend mode t zeroFld (restFld H T)).h = zeroFld.h := by
      funext c k
      rw [tv.1]
      simp only [restFld, (rest_tend (m := m) sw (H k) 0 k).1, zeroFld, lit_real]
      split_ifs <;> simp
    have e2 : ((genSys d sw noHook m).tend mode t zeroFld (restFld H T)).vn = zeroFld.vn := by
      funext c k
      rw [tv.2.1]
      simp only [restFld, (rest_tend (m := m) sw (H k) 0 k).2.1, zeroFld, lit_real]
      split_ifs <;> simp
    have e3 : ((genSys d sw noHook m).tend mode t zeroFld (restFld H T)).tr = zeroFld.tr := by
      funext l c k
      rw [tv.2.2]
      simp only [restFld, (rest_tend (m := m) sw (H k) (T l k) k).2.2, zeroFld, lit_real]
      split_ifs <;> simp
    exact congrArg₂ (fun a (b : (Int → Int → ℝ) × (Int → Int → Int → ℝ)) => Fld.mk a b.1 b.2)
      e1 (Prod.ext (x := (_, _)) (y := (_, _)) e2 e3)
  · rintro _ a rfl
    simp [Fld.map, zeroFld]
  · rintro _ _ c rfl rfl
    simp [Fld.axpy, Fld.zip, zeroFld, restFld]

/-- On any mesh with valid tables: a state at rest with horizontally uniform thickness and tracers is
left exactly as it is by a new stepper of either kind and any number of steps, with any viscosities
and any combination of terms. -/
theorem C22_rest_stays {d : Dims} (hd : DimsOK d) (hc : ConnOK d m) {sw : SWModel ℝ}
    (hn : sw.NoHook) {stp : Stepper} {sched : List (ℝ × ℝ)} {split : Bool} {m1 : Mem ℝ}
    (he : Exec d (stp.ctor d ++ stp.run d ⟨defaultKernels d.vl, split⟩ sw sched) m m1)
    {H : Int → ℝ} {T : Int → Int → ℝ} (h0 : EqFld d (m.fld .state) (restFld H T)) :
    EqFld d (m1.fld .state) (restFld H T) ∧ EqFld d (m1.fld .tend) zeroFld := by
  have hS := genSetup hd hc (hookOK_noHook hn d m)
  obtain ⟨-, w, v⟩ := hS.newRun he
  have hl := run_local hS.sys stp sched (p := (zeroFld, m.fld .state))
    (q := (zeroFld, restFld H T)) ⟨EqFld.refl _ _, h0⟩
  have key := (stepRel_rest (m := m) d sw H T).run stp sched (p := (zeroFld, restFld H T))
    (q := (zeroFld, restFld H T)) rfl rfl
  exact ⟨(v.trans hl.2).trans (by rw [key.2]; exact EqFld.refl _ _),
    (w.trans hl.1).trans (by rw [key.1]; exact EqFld.refl _ _)⟩

example (prm : Params ℝ) : ∃ m m1 : Mem ℝ, ConnOK p46t.dims m ∧
    m.fld .state = restFld (fun k => 10 + k) (fun l k => l - k) ∧
    Exec p46t.dims (Stepper.rk4.ctor p46t.dims ++ Stepper.rk4.run p46t.dims
      ⟨defaultKernels p46t.dims.vl, false⟩ (SWModel.ofParams prm) [(0, 1), (1, 2)]) m m1 := by
  obtain ⟨m, m1, hr, hx, he⟩ := exists_newRun p46t_run (1 / 4) prm (noHook_ofParams prm) false
    .rk4 [(0, 1), (1, 2)] (restFld (fun k => 10 + k) (fun l k => l - k))
  exact ⟨m, m1, (ready_ok p46t_run hr).2, hx, he⟩

end Props
end
end Omega
