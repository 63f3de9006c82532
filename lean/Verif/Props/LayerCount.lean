import Verif.Props.ReportedError
import Verif.Props.Simd

/-!
# C126: results do not depend on the number of layers, their padding, the vector length or the number of tracers

All statements hold for every arithmetic, so bit for bit in floating-point arithmetic.
-/

set_option linter.unusedVariables false

namespace Omega
noncomputable section
namespace Props

open Prog Model Refine Hex

section

variable {R : Type} [Scalar R]

/-- the fields whose layer `k` is the layer `τ k` and whose tracer `l` is the tracer `υ l` of the given ones -/
def pull (τ υ : Int → Int) (x : Fld R) : Fld R :=
  ⟨fun c k => x.h c (τ k), fun e k => x.vn e (τ k), fun l c k => x.tr (υ l) c (τ k)⟩

/-- the system with its layers renamed -/
def pullSys (τ : Int → Int) (S : Sys R) : Sys R :=
  { S with
    M := { S.M with mask := fun e k => S.M.mask e (τ k) }
    H := ⟨fun t c k v => S.H.h t c (τ k) v, fun t e k v => S.H.vn t e (τ k) v⟩ }

theorem pull_rel {S : Sys R} (hF : S.F = scalarF) (τ υ : Int → Int) :
    StepRel S (pullSys τ S) (fun x y => y = pull τ υ x) (fun x y => y = pull τ υ x) where
  tend := by
    rintro mode t o o' s s' rfl rfl
    obtain ⟨F, vl, M, f, sw, H⟩ := S
    simp only at hF
    subst hF
    rfl
  map := by rintro x y a rfl; rfl
  axpy := by rintro x y x' y' c rfl rfl; rfl

/-- the tables of a mesh, for another number of layers -/
def relayer (τ : Int → Int) (n : Int) (m : Mem R) : Mem R where
  int a i j := match a with
    | .max_level_cell | .max_level_edge_bot | .max_level_edge_top | .max_level_vertex_bot
    | .max_level_vertex_top => n
    | a => m.int a i j
  real a l i j := match a with
    | .edge_mask => m.real .edge_mask l i (τ j)
    | a => m.real a l i j

variable {p p' : MeshParams} {dc : R} {m m' : Mem R}

theorem relayer_hex (hm : IsHexMesh p dc m) (hx : p'.nx = p.nx) (hy : p'.ny = p.ny) {τ : Int → Int}
    (hτ : ∀ k, 0 ≤ k → k < p'.dims.nlayers → 0 ≤ τ k ∧ τ k < p.dims.nlayers) :
    IsHexMesh p' dc (relayer τ p'.dims.nlayers m) where
  neoc := by rw [hx, hy]; exact hm.neoc
  eoc := by rw [hx, hy]; exact hm.eoc
  voc := by rw [hx, hy]; exact hm.voc
  coe := by rw [hx, hy]; exact hm.coe
  voe := by rw [hx, hy]; exact hm.voe
  cov := by rw [hx, hy]; exact hm.cov
  eov := by rw [hx, hy]; exact hm.eov
  coc := by rw [hx, hy]; exact hm.coc
  neoe := by rw [hx, hy]; exact hm.neoe
  eoe := by rw [hx, hy]; exact hm.eoe
  kite := by rw [hx, hy]; exact hm.kite
  woe := by rw [hx, hy]; exact hm.woe
  area_cell := by rw [hx, hy]; exact hm.area_cell
  x_cell := by rw [hx, hy]; exact hm.x_cell
  y_cell := by rw [hx, hy]; exact hm.y_cell
  sign_cell := by rw [hx, hy]; exact hm.sign_cell
  dc_edge := by rw [hx, hy]; exact hm.dc_edge
  dv_edge := by rw [hx, hy]; exact hm.dv_edge
  angle_edge := by rw [hx, hy]; exact hm.angle_edge
  x_edge := by rw [hx, hy]; exact hm.x_edge
  y_edge := by rw [hx, hy]; exact hm.y_edge
  del2 := by rw [hx, hy]; exact hm.del2
  del4 := by rw [hx, hy]; exact hm.del4
  mask := by
    rw [hx, hy]
    exact fun e e0 e1 k k0 k1 => hm.mask e e0 e1 _ (hτ k k0 k1).1 (hτ k k0 k1).2
  area_triangle := by rw [hx, hy]; exact hm.area_triangle
  x_vertex := by rw [hx, hy]; exact hm.x_vertex
  y_vertex := by rw [hx, hy]; exact hm.y_vertex
  kitearea := by rw [hx, hy]; exact hm.kitearea
  sign_vertex := by rw [hx, hy]; exact hm.sign_vertex
  levels := fun _ => ⟨fun _ => rfl, fun _ _ => ⟨rfl, rfl⟩, fun _ _ => ⟨rfl, rfl⟩⟩
  flat := by rw [hx, hy]; exact hm.flat

theorem dims_cells (hx : p'.nx = p.nx) (hy : p'.ny = p.ny) : p'.dims.ncells = p.dims.ncells := by
  show p'.nx * p'.ny = p.nx * p.ny
  rw [hx, hy]
theorem dims_edges (hx : p'.nx = p.nx) (hy : p'.ny = p.ny) : p'.dims.nedges = p.dims.nedges := by
  show 3 * (p'.nx * p'.ny) = 3 * (p.nx * p.ny)
  rw [hx, hy]
theorem dims_vertices (hx : p'.nx = p.nx) (hy : p'.ny = p.ny) : p'.dims.nvertices = p.dims.nvertices := by
  show 2 * (p'.nx * p'.ny) = 2 * (p.nx * p.ny)
  rw [hx, hy]

/-- the layer `k` and tracer `l` of the second state are the layer `τ k` and tracer `υ l` of the first -/
structure LayersFrom (d : Dims) (τ υ : Int → Int) (x y : Fld R) : Prop where
  h : ∀ c k, 0 ≤ c → c < d.ncells → 0 ≤ k → k < d.nlayers → y.h c k = x.h c (τ k)
  vn : ∀ e k, 0 ≤ e → e < d.nedges → 0 ≤ k → k < d.nlayers → y.vn e k = x.vn e (τ k)
  tr : ∀ l c k, 0 ≤ l → l < d.ntracers → 0 ≤ c → c < d.ncells → 0 ≤ k → k < d.nlayers →
    y.tr l c k = x.tr (υ l) c (τ k)

theorem run_layers (hv' : RunValid p') (hx : p'.nx = p.nx) (hy : p'.ny = p.ny)
    {τ : Int → Int} (hτ : ∀ k, 0 ≤ k → k < p'.dims.nlayers → 0 ≤ τ k ∧ τ k < p.dims.nlayers) (υ : Int → Int)
    (hm : IsHexMesh p dc m) (hm' : IsHexMesh p' dc m') {f0 : R}
    (hf : ∀ v, 0 ≤ v → v < p.dims.nvertices → m.real .f_vertex 0 v 0 = f0)
    (hf' : ∀ v, 0 ≤ v → v < p'.dims.nvertices → m'.real .f_vertex 0 v 0 = f0) (sw : SWModel R)
    (g g' : R → StateId → StateId → List (Cmd R)) {H H' : HookFn R}
    (h1 : ∀ t c k v, 0 ≤ c → c < p'.dims.ncells → 0 ≤ k → k < p'.dims.nlayers →
      H.h t c (τ k) v = H'.h t c k v)
    (h2 : ∀ t e k v, 0 ≤ e → e < p'.dims.nedges → 0 ≤ k → k < p'.dims.nlayers →
      H.vn t e (τ k) v = H'.vn t e k v) (stp : Stepper) (sched : List (R × R)) {x y : Fld R}
    (h0 : LayersFrom p'.dims τ υ x y) :
    LayersFrom p'.dims τ υ ((genSys p.dims { sw with hook := g } H m).run stp sched (zeroFld, x)).2
      ((genSys p'.dims { sw with hook := g' } H' m').run stp sched (zeroFld, y)).2 := by
  have A := ((pull_rel (S := genSys p.dims { sw with hook := g } H m) rfl τ υ).run stp sched
    (p := (zeroFld, x)) (q := (zeroFld, pull τ υ x)) rfl rfl).2
  have s := sysRel_same hv' (relayer_hex hm hx hy hτ) hm' (f0 := f0)
    (fun v v0 v1 => hf v v0 (by rw [← dims_vertices hx hy]; exact v1)) hf' sw
    (H := ⟨fun t c k v => H.h t c (τ k) v, fun t e k v => H.vn t e (τ k) v⟩) (H' := H') h1 h2
  have S : SysRel Eq (fun _ => True) same p'.dims (pullSys τ (genSys p.dims { sw with hook := g } H m))
      (genSys p'.dims { sw with hook := g' } H' m') :=
    ⟨s.sc, s.ren, .inl ⟨rfl, rfl⟩, s.mesh, s.ok, s.f, rfl, rfl, rfl, rfl, rfl, rfl, rfl, rfl, rfl, rfl, rfl, rfl,
      rfl, rfl, rfl, rfl, s.hookH, s.hookV⟩
  have B := (run_rel S stp (List.forall₂_same.2 fun _ _ => ⟨rfl, rfl⟩) (p := (zeroFld, pull τ υ x))
    (q := (zeroFld, y)) (sched := sched)
    ⟨fldRel_refl _ _, ⟨fun c k c0 c1 k0 k1 => (h0.h c k c0 c1 k0 k1).symm,
      fun e k e0 e1 k0 k1 => by rw [same_e]; exact (h0.vn e k e0 e1 k0 k1).symm,
      fun l c k l0 l1 c0 c1 k0 k1 => (h0.tr l c k l0 l1 c0 c1 k0 k1).symm⟩⟩
    fun _ _ => ⟨fun _ _ _ _ _ _ => trivial, fun _ _ _ _ _ _ _ => trivial⟩).2
  beta_reduce at A
  rw [A] at B
  refine ⟨fun c k c0 c1 k0 k1 => (B.h c k c0 c1 k0 k1).symm, fun e k e0 e1 k0 k1 => ?_,
    fun l c k l0 l1 c0 c1 k0 k1 => (B.tr l c k l0 l1 c0 c1 k0 k1).symm⟩
  have := B.vn e k e0 e1 k0 k1
  rw [same_e] at this
  exact this.symm

/-- Two models on meshes with the same columns, but with any numbers of layers, vector lengths and numbers of
tracers.  If every layer and tracer of the second state is, in any order and with any repetitions, a layer and a
tracer of the first, then the same holds, with the same layers and tracers, after any run of any stepper. -/
theorem C126_layers {prm : Params R} (hv : RunValid p) (hv' : RunValid p') (hx : p'.nx = p.nx) (hy : p'.ny = p.ny)
    {τ υ : Int → Int} (hτ : ∀ k, 0 ≤ k → k < p'.dims.nlayers → 0 ≤ τ k ∧ τ k < p.dims.nlayers)
    (hυ : ∀ l, 0 ≤ l → l < p'.dims.ntracers → 0 ≤ υ l ∧ υ l < p.dims.ntracers)
    (hr : Ready p dc prm m) (hr' : Ready p' dc prm m') {sw : SWModel R} (hn : sw.NoHook) {stp : Stepper}
    {sched : List (R × R)} {split split' : Bool} {m1 m1' : Mem R}
    (h0 : LayersFrom p'.dims τ υ (m.fld .state) (m'.fld .state))
    (he : Exec p.dims (stp.ctor p.dims ++ stp.run p.dims ⟨defaultKernels p.dims.vl, split⟩ sw sched) m m1)
    (he' : Exec p'.dims (stp.ctor p'.dims ++ stp.run p'.dims ⟨defaultKernels p'.dims.vl, split'⟩ sw sched) m' m1') :
    LayersFrom p'.dims τ υ (m1.fld .state) (m1'.fld .state) := by
  obtain ⟨hd, hc⟩ := ready_ok hv hr
  obtain ⟨hd', hc'⟩ := ready_ok hv' hr'
  obtain ⟨-, -, v⟩ := (genSetup hd hc (hookOK_noHook hn p.dims m)).newRun he
  obtain ⟨-, -, v'⟩ := (genSetup hd' hc' (hookOK_noHook hn p'.dims m')).newRun he'
  have key := run_layers hv' hx hy hτ υ (hr.hex hv.toValid).1 (hr'.hex hv'.toValid).1 (hr.hex hv.toValid).2.1
    (hr'.hex hv'.toValid).2.1 sw sw.hook sw.hook (H := noHook) (H' := noHook) (fun _ _ _ _ _ _ _ _ => rfl)
    (fun _ _ _ _ _ _ _ _ => rfl) stp sched h0
  refine ⟨fun c k c0 c1 k0 k1 => ?_, fun e k e0 e1 k0 k1 => ?_, fun l c k l0 l1 c0 c1 k0 k1 => ?_⟩
  · rw [v'.h c k c0 c1 k0 k1, v.h c _ c0 (by rw [← dims_cells hx hy]; exact c1) (hτ k k0 k1).1 (hτ k k0 k1).2]
    exact key.h c k c0 c1 k0 k1
  · rw [v'.vn e k e0 e1 k0 k1, v.vn e _ e0 (by rw [← dims_edges hx hy]; exact e1) (hτ k k0 k1).1 (hτ k k0 k1).2]
    exact key.vn e k e0 e1 k0 k1
  · rw [v'.tr l c k l0 l1 c0 c1 k0 k1, v.tr _ c _ (hυ l l0 l1).1 (hυ l l0 l1).2 c0
      (by rw [← dims_cells hx hy]; exact c1) (hτ k k0 k1).1 (hτ k k0 k1).2]
    exact key.tr l c k l0 l1 c0 c1 k0 k1

/-- The same for the explicit-SIMD build at the layers where C28 has it agree with the default build: all layers
without hyperviscosity, and the first layers of the vectors with it. -/
theorem C126_simd {prm : Params R} (hv : RunValid p) (hv' : RunValid p') (hx : p'.nx = p.nx) (hy : p'.ny = p.ny)
    {τ υ : Int → Int} (hτ : ∀ k, 0 ≤ k → k < p'.dims.nlayers → 0 ≤ τ k ∧ τ k < p.dims.nlayers)
    (hυ : ∀ l, 0 ≤ l → l < p'.dims.ntracers → 0 ≤ υ l ∧ υ l < p.dims.ntracers)
    (hr : Ready p dc prm m) (hr' : Ready p' dc prm m') {sw : SWModel R} (hn : sw.NoHook) {stp : Stepper}
    {sched : List (R × R)} {split split' : Bool} {m1 m1' : Mem R}
    (h0 : LayersFrom p'.dims τ υ (m.fld .state) (m'.fld .state))
    (he : Exec p.dims (stp.ctor p.dims ++ stp.run p.dims ⟨simdKernels p.dims.vl p.dims.vl, split⟩ sw sched) m m1)
    (he' : Exec p'.dims (stp.ctor p'.dims ++
      stp.run p'.dims ⟨simdKernels p'.dims.vl p'.dims.vl, split'⟩ sw sched) m' m1')
    {k : Int} (k0 : 0 ≤ k) (k1 : k < p'.dims.nlayers) (ok : SimdOK R p.dims sw (τ k)) (ok' : SimdOK R p'.dims sw k) :
    (∀ c, 0 ≤ c → c < p'.dims.ncells → m1'.real (.h_cell .state) 0 c k = m1.real (.h_cell .state) 0 c (τ k)) ∧
    (∀ e, 0 ≤ e → e < p'.dims.nedges → m1'.real (.vn_edge .state) 0 e k = m1.real (.vn_edge .state) 0 e (τ k)) ∧
    ∀ l c, 0 ≤ l → l < p'.dims.ntracers → 0 ≤ c → c < p'.dims.ncells →
      m1'.real (.tr_cell .state) l c k = m1.real (.tr_cell .state) (υ l) c (τ k) := by
  obtain ⟨hd, hc⟩ := ready_ok hv hr
  obtain ⟨hd', hc'⟩ := ready_ok hv' hr'
  obtain ⟨m2, h2⟩ := ((C40_safe_deterministic hd hc hn split).2.2 stp sched).2.exists
  obtain ⟨m2', h2'⟩ := ((C40_safe_deterministic hd' hc' hn split').2.2 stp sched).2.exists
  have key := C126_layers hv hv' hx hy hτ hυ hr hr' hn h0 h2 h2'
  have a := (C28_simd_agrees_partial hd hc hn split split (hτ k k0 k1).1 (hτ k k0 k1).2 ok).2 stp sched m2 m1 h2 he
  have b := (C28_simd_agrees_partial hd' hc' hn split' split' k0 k1 ok').2 stp sched m2' m1' h2' he'
  refine ⟨fun c c0 c1 => ?_, fun e e0 e1 => ?_, fun l c l0 l1 c0 c1 => ?_⟩
  · exact (b.h c c0 c1).trans ((key.h c k c0 c1 k0 k1).trans
      (a.h c c0 (by rw [← dims_cells hx hy]; exact c1)).symm)
  · exact (b.vn e e0 e1).trans ((key.vn e k e0 e1 k0 k1).trans
      (a.vn e e0 (by rw [← dims_edges hx hy]; exact e1)).symm)
  · exact (b.tr l c l0 l1 c0 c1).trans ((key.tr l c k l0 l1 c0 c1 k0 k1).trans
      (a.tr (υ l) c (hυ l l0 l1).1 (hυ l l0 l1).2 c0 (by rw [← dims_cells hx hy]; exact c1)).symm)

/-- In the nonlinear convergence test all layers get the same thickness and velocity, and the same as with any
other number of layers, vector length and number of tracers. -/
theorem C126_nonlinear_test (hv : RunValid p) (hv' : RunValid p') (hx : p'.nx = p.nx) (hy : p'.ny = p.ny)
    (sw : SWModel R) (fh fx fy : R → R → R → R)
    (h : R → R → R → R) (vx vy : R → R → R) (stp : Stepper) (te : R) (sched : List (R × R)) (split split' : Bool)
    {m0 m1 m0' m1' : Mem R} (he : Exec p.dims (nonlinear_run p dc (sw.forced p.dims fh fx fy)
      ⟨defaultKernels p.dims.vl, split⟩ h vx vy stp te sched) m0 m1)
    (he' : Exec p'.dims (nonlinear_run p' dc (sw.forced p'.dims fh fx fy)
      ⟨defaultKernels p'.dims.vl, split'⟩ h vx vy stp te sched) m0' m1') :
    ∀ k k', 0 ≤ k → k < p.dims.nlayers → 0 ≤ k' → k' < p'.dims.nlayers →
      (∀ c, 0 ≤ c → c < p.dims.ncells → m1'.real (.h_cell .state) 0 c k' = m1.real (.h_cell .state) 0 c k) ∧
      ∀ e, 0 ≤ e → e < p.dims.nedges → m1'.real (.vn_edge .state) 0 e k' = m1.real (.vn_edge .state) 0 e k := by
  obtain ⟨m2, r, hm, ⟨hc, hf⟩, -, hst⟩ := nonlinear_run_runs hv dc sw fh fx fy h vx vy stp te sched m0
  obtain rfl := ((r split).2 m1).1 he
  obtain ⟨m2', r', hm', ⟨hc', hf'⟩, -, hst'⟩ := nonlinear_run_runs hv' dc sw fh fx fy h vx vy stp te sched m0'
  obtain rfl := ((r' split').2 m1').1 he'
  intro k k' k0 k1 k0' k1'
  have ce := dims_cells hx hy
  have ee := dims_edges hx hy
  have key := run_layers hv' hx hy (τ := fun _ => k) (fun _ _ _ => ⟨k0, k1⟩) id hm hm' hf hf' sw
    (forceHook p.dims fh fx fy) (forceHook p'.dims fh fx fy)
    (H := forceFn fh fx fy m1) (H' := forceFn fh fx fy m1')
    (fun t c k v c0 c1 _ _ => by
      have c1' : c < p.dims.ncells := ce ▸ c1
      simp only [forceFn]
      rw [hm.x_cell c ⟨c0, c1'⟩, hm.y_cell c ⟨c0, c1'⟩, hm'.x_cell c ⟨c0, c1⟩, hm'.y_cell c ⟨c0, c1⟩, hx])
    (fun t e k v e0 e1 _ _ => by
      have e1' : e < p.dims.nedges := ee ▸ e1
      simp only [forceFn]
      rw [hm.x_edge e e0 e1', hm.y_edge e e0 e1', hm.angle_edge e e0 e1', hm'.x_edge e e0 e1,
        hm'.y_edge e e0 e1, hm'.angle_edge e e0 e1, hx]) stp sched
    (x := ⟨fun c _ => h (xC p.nx dc c) (yC p.nx dc c) (lit 0), fun e _ => vnInit p dc vx vy e, fun _ _ _ => lit 0⟩)
    (y := ⟨fun c _ => h (xC p'.nx dc c) (yC p'.nx dc c) (lit 0), fun e _ => vnInit p' dc vx vy e,
      fun _ _ _ => lit 0⟩)
    ⟨fun _ _ _ _ _ _ => by simp only [hx], fun _ _ _ _ _ _ => by simp only [vnInit, hx], fun _ _ _ _ _ _ _ _ _ => rfl⟩
  refine ⟨fun c c0 c1 => ?_, fun e e0 e1 => ?_⟩
  · have a := hst'.h c k' c0 (by rw [ce]; exact c1) k0' k1'
    have b := hst.h c k c0 c1 k0 k1
    exact a.trans ((key.h c k' c0 (by rw [ce]; exact c1) k0' k1').trans b.symm)
  · have a := hst'.vn e k' e0 (by rw [ee]; exact e1) k0' k1'
    have b := hst.vn e k e0 e1 k0 k1
    exact a.trans ((key.vn e k' e0 (by rw [ee]; exact e1) k0' k1').trans b.symm)

end

/-- The error reported by the nonlinear test divided by the root of the number of layers, padded layers included,
does not depend on the number of layers and the vector length.  So the reported error does. -/
theorem C126_reported_error {p p' : MeshParams} {dc : ℝ} (hv : RunValid p) (hv' : RunValid p') (hx : p'.nx = p.nx)
    (hy : p'.ny = p.ny) (hl : 0 < p.dims.nlayers) (hl' : 0 < p'.dims.nlayers)
    (sw : SWModel ℝ) (fh fx fy : ℝ → ℝ → ℝ → ℝ) (h : ℝ → ℝ → ℝ → ℝ) (vx vy : ℝ → ℝ → ℝ) (stp : Stepper) (te : ℝ)
    (sched : List (ℝ × ℝ)) (split split' : Bool)
    {m0 m1 m0' m1' : Mem ℝ} (he : Exec p.dims (nonlinear_run p dc (sw.forced p.dims fh fx fy)
      ⟨defaultKernels p.dims.vl, split⟩ h vx vy stp te sched) m0 m1)
    (he' : Exec p'.dims (nonlinear_run p' dc (sw.forced p'.dims fh fx fy)
      ⟨defaultKernels p'.dims.vl, split'⟩ h vx vy stp te sched) m0' m1') {v v' : ℝ}
    (e : IsNonlinearError p m1 v) (e' : IsNonlinearError p' m1' v') :
    v / √p.dims.nlayers = v' / √p'.dims.nlayers := by
  have M := (C125_nonlinear_error hv dc sw fh fx fy h vx vy stp te sched split he).2 v e
  have M' := (C125_nonlinear_error hv' dc sw fh fx fy h vx vy stp te sched split' he').2 v' e'
  set ε : Int → ℝ := fun c => h (xC p.nx dc c) (yC p.nx dc c) te - m1.real (.h_cell .state) 0 c 0 with hε
  have N0 : (0 : ℝ) < (p.nx * p.ny : ℝ) := mul_pos (by exact_mod_cast nxp hv) (by exact_mod_cast nyp hv)
  have L0 : (0 : ℝ) < p.dims.nlayers := by exact_mod_cast hl
  have L0' : (0 : ℝ) < p'.dims.nlayers := by exact_mod_cast hl'
  have card : ∀ (q : MeshParams), 0 < q.dims.nlayers → ((Spec.layers q.dims).card : ℝ) = q.dims.nlayers :=
    fun q hq => by
      have e : (((q.dims.nlayers - 0).toNat : ℕ) : Int) = q.dims.nlayers := by omega
      rw [Spec.layers, Int.card_Ico]
      exact_mod_cast e
  have a : (p.nx * p.ny : ℝ) * v ^ 2 = p.dims.nlayers * ∑ c ∈ Spec.cells p.dims, ε c ^ 2 := by
    rw [M.sq, Finset.mul_sum]
    refine Finset.sum_congr rfl fun c hc => ?_
    have c2 := Finset.mem_Ico.mp hc
    rw [Finset.sum_congr rfl fun k hk => (by
      have k2 := Finset.mem_Ico.mp hk
      rw [(C126_nonlinear_test hv hv rfl rfl sw fh fx fy h vx vy stp te sched split split he he 0 k le_rfl hl k2.1
        k2.2).1 c c2.1 c2.2] : _ = ε c ^ 2), Finset.sum_const, nsmul_eq_mul, card p hl]
  have b : (p.nx * p.ny : ℝ) * v' ^ 2 = p'.dims.nlayers * ∑ c ∈ Spec.cells p.dims, ε c ^ 2 := by
    have := M'.sq
    rw [hx, hy] at this
    rw [this, Finset.mul_sum, show Spec.cells p'.dims = Spec.cells p.dims by
      unfold Spec.cells; rw [dims_cells hx hy]]
    refine Finset.sum_congr rfl fun c hc => ?_
    have c2 := Finset.mem_Ico.mp hc
    rw [Finset.sum_congr rfl fun k hk => (by
      have k2 := Finset.mem_Ico.mp hk
      rw [(C126_nonlinear_test hv hv' hx hy sw fh fx fy h vx vy stp te sched split split' he he' 0 k le_rfl hl k2.1
        k2.2).1 c c2.1 c2.2] : _ = ε c ^ 2), Finset.sum_const, nsmul_eq_mul, card p' hl']
  have s : ∀ L w : ℝ, 0 < L → (w / √L) ^ 2 = w ^ 2 / L := fun L w hL => by rw [div_pow, Real.sq_sqrt hL.le]
  have sq : (v / √p.dims.nlayers) ^ 2 = (v' / √p'.dims.nlayers) ^ 2 := by
    rw [s _ _ L0, s _ _ L0', div_eq_div_iff L0.ne' L0'.ne']
    refine mul_left_cancel₀ N0.ne' ?_
    rw [← mul_assoc, a, ← mul_assoc, b]; ring
  exact (sq_eq_sq₀ (div_nonneg M.nonneg (Real.sqrt_nonneg _)) (div_nonneg M'.nonneg (Real.sqrt_nonneg _))).mp sq

/-- A mesh of two layers in reverse order beside one of four, with other vector lengths: both run. -/
example : ∃ (p p' : MeshParams) (τ υ : Int → Int) (prm : Params ℝ) (m m' : Mem ℝ), RunValid p ∧ RunValid p' ∧
    p'.nx = p.nx ∧ p'.ny = p.ny ∧ p'.vl ≠ p.vl ∧ 0 < p'.dims.nlayers ∧ p'.dims.nlayers < p.dims.nlayers ∧
    (∀ k, 0 ≤ k → k < p'.dims.nlayers → 0 ≤ τ k ∧ τ k < p.dims.nlayers) ∧ τ 0 ≠ 0 ∧
    (∀ l, 0 ≤ l → l < p'.dims.ntracers → 0 ≤ υ l ∧ υ l < p.dims.ntracers) ∧
    Ready p 1 prm m ∧ Ready p' 1 prm m' ∧ LayersFrom p'.dims τ υ (m.fld .state) (m'.fld .state) ∧
    m.real (.h_cell .state) 0 1 0 ≠ m.real (.h_cell .state) 0 1 1 ∧
    ∀ (stp : Stepper) sched, ∃ m1 m1', Exec p.dims (stp.ctor p.dims ++
        stp.run p.dims ⟨defaultKernels p.dims.vl, true⟩ (SWModel.ofParams prm) sched) m m1 ∧
      Exec p'.dims (stp.ctor p'.dims ++
        stp.run p'.dims ⟨defaultKernels p'.dims.vl, false⟩ (SWModel.ofParams prm) sched) m' m1' ∧
      (∃ m2 m2', Exec p.dims (stp.ctor p.dims ++
        stp.run p.dims ⟨simdKernels p.dims.vl p.dims.vl, true⟩ (SWModel.ofParams prm) sched) m m2 ∧
      Exec p'.dims (stp.ctor p'.dims ++
        stp.run p'.dims ⟨simdKernels p'.dims.vl p'.dims.vl, false⟩ (SWModel.ofParams prm) sched) m' m2') ∧
      ∀ k, SimdOK ℝ p.dims (SWModel.ofParams prm) (τ k) ∧ SimdOK ℝ p'.dims (SWModel.ofParams prm) k := by
  obtain ⟨q, eq⟩ : ∃ q : MeshParams, q = ⟨4, 6, 2, p46.ntracers, 1⟩ := ⟨_, rfl⟩
  have ql : q.dims.nlayers = 2 := by rw [eq]; simp [MeshParams.dims, ceilDiv]
  have hq : RunValid q := by
    refine ⟨⟨?_, ?_, ?_, ?_, ?_, ?_⟩, by rw [ql]; norm_num⟩ <;> rw [eq] <;> simp [p46]
  obtain ⟨prm, e⟩ : ∃ q : Params ℝ, q = ⟨1, 10, 0, 0, 1, 0, false, false⟩ := ⟨_, rfl⟩
  obtain ⟨m, hr, hx, -⟩ := exists_ready p46_valid (1 : ℝ) prm
    ⟨fun c k => 1 + (k : ℝ) ^ 2, fun e k => e + k, fun _ c k => c⟩ zeroFld
  obtain ⟨m', hr', hx', -⟩ := exists_ready hq.toValid (1 : ℝ) prm
    ⟨fun c k => 1 + ((3 - k : Int) : ℝ) ^ 2, fun e k => e + ((3 - k : Int) : ℝ), fun _ c k => c⟩ zeroFld
  refine ⟨p46, q, fun k => 3 - k, id, prm, m, m', p46_run, hq, by rw [eq]; rfl, by rw [eq]; rfl,
    by rw [eq]; simp [p46], by rw [ql]; norm_num, by rw [ql, p46_layers]; norm_num,
    fun k k0 k1 => by rw [ql] at k1; rw [p46_layers]; constructor <;> dsimp only <;> omega, by norm_num,
    fun l l0 l1 => ⟨l0, by rw [eq] at l1; exact l1⟩, hr, hr', ?_, ?_, fun stp sched => ?_⟩
  · rw [hx, hx']
    exact ⟨fun _ _ _ _ _ _ => rfl, fun _ _ _ _ _ _ => rfl, fun _ _ _ _ _ _ _ _ _ => rfl⟩
  · show (m.fld .state).h 1 0 ≠ (m.fld .state).h 1 1
    rw [hx]; norm_num
  · obtain ⟨hd, hc⟩ := ready_ok p46_run hr
    obtain ⟨hd', hc'⟩ := ready_ok hq hr'
    obtain ⟨m1, h1⟩ := ((C40_safe_deterministic hd hc (noHook_ofParams prm) true).2.2 stp sched).2.exists
    obtain ⟨m1', h1'⟩ := ((C40_safe_deterministic hd' hc' (noHook_ofParams prm) false).2.2 stp sched).2.exists
    obtain ⟨m2, h2⟩ := (C54_simd_safe_deterministic hd hc (noHook_ofParams prm)).2 stp sched
    obtain ⟨m2', h2'⟩ := (C54_simd_safe_deterministic hd' hc' (noHook_ofParams prm)).2 stp sched
    have ok : ∀ d k, SimdOK ℝ d (SWModel.ofParams prm) k := fun d k => ⟨mul_comm, .inl mul_assoc, .inl (by
      rw [e]; simp [SWModel.ofParams, Scalar.lt])⟩
    exact ⟨m1, m1', h1, h1', ⟨m2, m2', ((h2 true).2 m2).mpr rfl, ((h2' false).2 m2').mpr rfl⟩,
      fun k => ⟨ok _ _, ok _ _⟩⟩

end Props
end
end Omega
