import Verif.Refine.Steppers
import Verif.Model.Drivers
import Verif.Props.MeshTopology

/-!
# From a constructed mesh and model to the functional system
-/

set_option linter.unusedSectionVars false
set_option linter.unusedVariables false

namespace Omega
namespace Refine

open Prog Model

variable {R : Type} [Scalar R]

/-- Constructor arguments for which the mesh can be built and the layer count is an `int`. -/
structure RunValid (p : MeshParams) : Prop extends MeshParams.Valid p where
  layers : p.dims.nlayers ≤ 2147483647

theorem RunValid.dims {p : MeshParams} (hv : RunValid p) : DimsOK p.dims where
  vl_pos := by have := hv.vl_pos; simp only [MeshParams.dims]; omega
  vec_nonneg := by
    have hq : (0 : ℚ) < (p.vl : ℚ) := by exact_mod_cast hv.vl_pos
    simp only [MeshParams.dims, ceilDiv]
    apply Int.ceil_nonneg
    apply div_nonneg _ hq.le
    exact_mod_cast hv.nlayers_nonneg
  chunks := rfl
  fits := hv.layers
  tr_nonneg := hv.ntracers_nonneg

theorem conn_of_hex {p : MeshParams} (hv : MeshParams.Valid p) {dc : R} {m : Mem R}
    (hm : IsHexMesh p dc m) : ConnOK p.dims m := by
  have hnx := hv.nx_pos
  constructor <;> simp only [MeshParams.dims]
  · intro c h0 h1; rw [hm.neoc c ⟨h0, h1⟩]; omega
  · intro c h0 h1 j hj0 hj1
    rw [hm.neoc c ⟨h0, h1⟩] at hj1
    rw [hm.eoc c ⟨h0, h1⟩ j hj0 hj1]
    exact Hex.E_range hnx ⟨h0, h1⟩ j hj0 hj1
  · intro e h0 h1 s hs0 hs1
    rw [hm.coe e h0 h1 s hs0 hs1]
    exact Hex.coe_isCell hnx h0 h1
  · intro e h0 h1 s hs0 hs1
    rw [hm.voe e h0 h1 s hs0 hs1]
    have hc := Hex.isCell_edge h0 h1
    have h2 := Hex.nb_isCell hnx hc (j := 2)
    have h3 := Hex.nb_isCell hnx hc (j := 3)
    unfold Hex.IsCell at hc h2 h3
    unfold Hex.voe; split_ifs <;> omega
  · intro v h0 h1 s hs0 hs1
    rw [hm.eov v h0 h1 s hs0 hs1]
    have := Hex.eov_isCell hnx h0 h1 (s := s)
    unfold Hex.IsCell at this
    omega
  · intro v h0 h1 s hs0 hs1
    rw [hm.cov v h0 h1 s hs0 hs1]
    exact Hex.cov_isCell hnx h0 h1
  · intro e h0 h1; rw [hm.neoe e h0 h1]; omega
  · intro e h0 h1 j hj0 hj1
    rw [hm.neoe e h0 h1] at hj1
    rw [hm.eoe e h0 h1 j hj0 hj1]
    have hc := Hex.isCell_edge h0 h1
    unfold Hex.eoe; split_ifs
    · exact Hex.E_range hnx (Hex.coe_isCell hnx h0 h1) _ (by omega) (by omega)
    · exact Hex.E_range hnx hc _ (by omega) (by omega)

/-- The functional system belonging to the mesh and Coriolis values in memory. -/
def sysOf (F : Fns R) (p : MeshParams) (sw : SWModel R) (H : HookFn R) (m : Mem R) : Sys R :=
  ⟨F, p.vl, m.mesh, m.sl .f_vertex 0 0, sw, H⟩

theorem setup_of_hex {p : MeshParams} (hv : RunValid p) {dc : R} {m : Mem R}
    (hm : IsHexMesh p dc m) {K : Kernels R} {F : Fns R} (hK : Kernels.Refines p.dims K F)
    (hF : F.Local) {sw : SWModel R} {H : HookFn R} (hH : HookOK p.dims sw H m) :
    Setup p.dims K (sysOf F p sw H m) m :=
  ⟨hv.dims, conn_of_hex hv.toValid hm, hK, hF, rfl, rfl, rfl, hH⟩

/-- Mesh and model have been constructed and only state or work arrays were written since. -/
def Ready (p : MeshParams) (dc : R) (prm : Params R) (m : Mem R) : Prop :=
  ∃ m1 m2, Props.Built p dc m1 ∧ Exec p.dims (sw_model_ctor p.dims prm) m1 m2 ∧ Static m m2

theorem sw_ctor_runs (d : Dims) (prm : Params R) (m : Mem R) :
    ∃ m', Runs d (sw_model_ctor d prm) m m' ∧
      Agree (fun b => decide (b = .f_vertex) || decide (b = .f_edge)) m' m ∧
      (∀ v, 0 ≤ v → v < d.nvertices → m'.real .f_vertex 0 v 0 = prm.f0) ∧
      (∀ e, 0 ≤ e → e < d.nedges → m'.real .f_edge 0 e 0 = prm.f0) := by
  refine ⟨_, Runs.cons (fill_runs prm.f0) (Runs.single (fill_runs prm.f0)), ?_, ?_, ?_⟩
  · exact ((Agree.refl _ m).upd _ fun a l i k h => by rw [only_eq h.1]; rfl).upd _
      fun a l i k h => by rw [only_eq h.1]; rfl
  · intro v h0 h1
    have hin : (RArr.f_vertex).InB d 0 v 0 := ⟨by simp [RArr.ext], ⟨h0, h1⟩, by simp [RArr.ext]⟩
    rw [upd_only_off (by simp), upd_only_on hin]
  · intro e h0 h1
    have hin : (RArr.f_edge).InB d 0 e 0 := ⟨by simp [RArr.ext], ⟨h0, h1⟩, by simp [RArr.ext]⟩
    rw [upd_only_on hin]

theorem isMeshR_f {b : RArr} (h : isMeshR b = true) :
    (decide (b = .f_vertex) || decide (b = .f_edge)) = false := by
  cases b <;> first | rfl | simp [isMeshR] at h

theorem IsHexMesh.agree {p : MeshParams} {dc : R} {m m' : Mem R} (h : IsHexMesh p dc m)
    (hi : m'.int = m.int) (hr : ∀ b, isMeshR b = true → m'.real b = m.real b) :
    IsHexMesh p dc m' := by
  have hr' : ∀ b, isMeshR b = true → ∀ l i k, m'.real b l i k = m.real b l i k := fun b hb l i k => by
    rw [hr b hb]
  apply IsHexMesh.mk
  · constructor <;> rw [hi]
    exacts [h.neoc, h.eoc, h.voc, h.coe, h.voe, h.cov, h.eov]
  all_goals first | rw [hi] | skip
  · exact h.coc
  · exact h.neoe
  · exact h.eoe
  · exact h.kite
  · rw [hr _ rfl]; exact h.woe
  · rw [hr _ rfl]; exact h.area_cell
  · rw [hr _ rfl]; exact h.x_cell
  · rw [hr _ rfl]; exact h.y_cell
  · rw [hr _ rfl]; exact h.sign_cell
  · rw [hr _ rfl]; exact h.dc_edge
  · rw [hr _ rfl]; exact h.dv_edge
  · rw [hr _ rfl]; exact h.angle_edge
  · rw [hr _ rfl]; exact h.x_edge
  · rw [hr _ rfl]; exact h.y_edge
  · rw [hr _ rfl]; exact h.del2
  · rw [hr _ rfl]; exact h.del4
  · rw [hr _ rfl]; exact h.mask
  · rw [hr _ rfl]; exact h.area_triangle
  · rw [hr _ rfl]; exact h.x_vertex
  · rw [hr _ rfl]; exact h.y_vertex
  · rw [hr _ rfl]; exact h.kitearea
  · rw [hr _ rfl]; exact h.sign_vertex
  · exact h.levels
  · have := h.flat
    rw [hr .z_cell rfl, hr .lat_cell rfl, hr .lon_cell rfl, hr .z_edge rfl, hr .lat_edge rfl,
      hr .lon_edge rfl, hr .z_vertex rfl, hr .lat_vertex rfl, hr .lon_vertex rfl]
    exact this

theorem Ready.hex {p : MeshParams} (hv : MeshParams.Valid p) {dc : R} {prm : Params R} {m : Mem R}
    (h : Ready p dc prm m) :
    IsHexMesh p dc m ∧ (∀ v, 0 ≤ v → v < p.dims.nvertices → m.real .f_vertex 0 v 0 = prm.f0) ∧
      (∀ e, 0 ≤ e → e < p.dims.nedges → m.real .f_edge 0 e 0 = prm.f0) := by
  obtain ⟨m1, m2, hb, he, hs⟩ := h
  obtain ⟨m', hr, ha, hf, hf'⟩ := sw_ctor_runs p.dims prm m1
  obtain rfl := (hr.2 m2).1 he
  refine ⟨((hb.hex hv).agree (ha.int) fun b hb => ha.real b (isMeshR_f hb)).agree hs.int
    fun b hb => hs.real b (isDyn_mesh hb), ?_, ?_⟩
  · intro v h0 h1; rw [hs.real .f_vertex rfl]; exact hf v h0 h1
  · intro v h0 h1; rw [hs.real .f_edge rfl]; exact hf' v h0 h1

theorem Ready.static {p : MeshParams} {dc : R} {prm : Params R} {m m' : Mem R}
    (h : Ready p dc prm m) (hs : Static m' m) : Ready p dc prm m' := by
  obtain ⟨m1, m2, hb, he, hs'⟩ := h
  exact ⟨m1, m2, hb, he, hs.trans hs'⟩

/-- There is a ready memory with any prescribed contents of state and work arrays. -/
theorem exists_ready {p : MeshParams} (hv : MeshParams.Valid p) (dc : R) (prm : Params R)
    (x : Fld R) (y : Fld R) :
    ∃ m, Ready p dc prm m ∧ m.fld .state = x ∧ m.fld .tend = y := by
  obtain ⟨m', hr, -⟩ := sw_ctor_runs p.dims prm (meshMem p dc ⟨fun _ _ _ => 0, fun _ _ _ _ => dc⟩)
  refine ⟨⟨m'.int, fun a l i k => match a with
    | .h_cell .state => x.h i k | .vn_edge .state => x.vn i k | .tr_cell .state => x.tr l i k
    | .h_cell .tend => y.h i k | .vn_edge .tend => y.vn i k | .tr_cell .tend => y.tr l i k
    | a => m'.real a l i k⟩,
    ⟨_, m', Props.built_meshMem hv dc _, hr.exec, ⟨rfl, ?_⟩⟩, rfl, rfl⟩
  intro b hb
  cases b <;> first | rfl | simp [isDyn, isState] at hb

/-- `additional_tendency` is the empty default. -/
def _root_.Omega.Model.SWModel.NoHook (sw : SWModel R) : Prop := ∀ t tn st, sw.hook t tn st = []

theorem noHook_ofParams (prm : Params R) : (SWModel.ofParams prm).NoHook := fun _ _ _ => rfl

theorem hookOK_noHook {sw : SWModel R} (h : sw.NoHook) (d : Dims) (m : Mem R) :
    HookOK d sw noHook m := by
  intro m' hs t tn st hne
  rw [h]
  exact hookOK_default d sw.prm m m' hs t tn st hne

/-- Memory after mesh and model construction matches the functional system (default build). -/
theorem Ready.setup {p : MeshParams} (hv : RunValid p) {dc : R} {m : Mem R} {prm : Params R}
    (h : Ready p dc prm m) {sw : SWModel R} (hn : sw.NoHook) :
    Setup p.dims (defaultKernels p.dims.vl) (sysOf scalarF p sw noHook m) m :=
  setup_of_hex hv (h.hex hv.toValid).1 default_refines scalarF_local (hookOK_noHook hn _ _)

/-! ### Runs -/

/-- functional step of a stepper on (tendency, state) -/
def Sys.step (S : Sys R) (t dt : R) (p : Fld R × Fld R) : Stepper → Fld R × Fld R
  | .lsrk n => S.lsrkStep n t dt p
  | .rk4 => S.rk4Step t dt p

/-- functional run -/
def Sys.run (S : Sys R) (stp : Stepper) (sched : List (R × R)) (p : Fld R × Fld R) :
    Fld R × Fld R :=
  sched.foldl (fun p q => S.step q.1 q.2 p stp) p

theorem lsrk_foldl_local {d : Dims} {S : Sys R} (hS : SysOK d S) (C : Coef R) (t dt : R)
    (L : List Nat) {p q : Fld R × Fld R} (h : EqFld d p.1 q.1 ∧ EqFld d p.2 q.2) :
    EqFld d (L.foldl (fun p i => S.lsrkStage C t dt i p) p).1
      (L.foldl (fun p i => S.lsrkStage C t dt i p) q).1 ∧
    EqFld d (L.foldl (fun p i => S.lsrkStage C t dt i p) p).2
      (L.foldl (fun p i => S.lsrkStage C t dt i p) q).2 := by
  induction L generalizing p q with
  | nil => exact h
  | cons i L ih => exact ih (lsrkStage_local hS C t dt i h.1 h.2)

theorem rk4_foldl_local {d : Dims} {S : Sys R} (hS : SysOK d S) (C : Coef R) (t dt : R)
    (L : List Nat) {o o' : Fld R} (ho : EqFld d o o') {p q : Fld R × Fld R}
    (h : EqFld d p.1 q.1 ∧ EqFld d p.2 q.2) :
    EqFld d (L.foldl (fun p i => S.rk4Stage C t dt o i p) p).1
      (L.foldl (fun p i => S.rk4Stage C t dt o' i p) q).1 ∧
    EqFld d (L.foldl (fun p i => S.rk4Stage C t dt o i p) p).2
      (L.foldl (fun p i => S.rk4Stage C t dt o' i p) q).2 := by
  induction L generalizing p q with
  | nil => exact h
  | cons i L ih => exact ih (rk4Stage_local hS C t dt i ho h.1 h.2)

theorem step_local {d : Dims} {S : Sys R} (hS : SysOK d S) (stp : Stepper) (t dt : R)
    {p q : Fld R × Fld R} (h : EqFld d p.1 q.1 ∧ EqFld d p.2 q.2) :
    EqFld d (S.step t dt p stp).1 (S.step t dt q stp).1 ∧
    EqFld d (S.step t dt p stp).2 (S.step t dt q stp).2 := by
  cases stp with
  | lsrk n => exact lsrk_foldl_local hS _ t dt _ h
  | rk4 => exact rk4_foldl_local hS _ t dt _ h.2 ⟨tend_local hS h.2 .replace t h.1, h.2⟩

theorem run_local {d : Dims} {S : Sys R} (hS : SysOK d S) (stp : Stepper) (sched : List (R × R))
    {p q : Fld R × Fld R} (h : EqFld d p.1 q.1 ∧ EqFld d p.2 q.2) :
    EqFld d (S.run stp sched p).1 (S.run stp sched q).1 ∧
    EqFld d (S.run stp sched p).2 (S.run stp sched q).2 := by
  induction sched generalizing p q with
  | nil => exact h
  | cons x L ih => exact ih (step_local hS stp x.1 x.2 h)

theorem step_runs {d : Dims} {K : Kernels R} {S : Sys R} {m : Mem R} (hS : Setup d K S m)
    (stp : Stepper) (t dt : R) :
    ∃ m', (∀ split, Runs d (stp.step d ⟨K, split⟩ S.sw t dt) m m') ∧ Static m' m ∧
      EqFld d (m'.fld .tend) (S.step t dt (m.fld .tend, m.fld .state) stp).1 ∧
      EqFld d (m'.fld .state) (S.step t dt (m.fld .tend, m.fld .state) stp).2 := by
  cases stp with
  | lsrk n =>
    obtain ⟨m', r, a, v, w⟩ := lsrk_step_runs hS n t dt
    exact ⟨m', r, a.mono fun _ h => lsrkSet_dyn h, v, w⟩
  | rk4 => exact rk4_step_runs hS t dt

/-- Any sequence of steps is safe and race free and computes `Sys.run`. -/
theorem run_runs {d : Dims} {K : Kernels R} {S : Sys R} {m : Mem R} (hS : Setup d K S m)
    (stp : Stepper) (sched : List (R × R)) :
    ∃ m', (∀ split, Runs d (stp.run d ⟨K, split⟩ S.sw sched) m m') ∧ Static m' m ∧
      EqFld d (m'.fld .tend) (S.run stp sched (m.fld .tend, m.fld .state)).1 ∧
      EqFld d (m'.fld .state) (S.run stp sched (m.fld .tend, m.fld .state)).2 := by
  induction sched generalizing m with
  | nil => exact ⟨m, fun _ => Runs.nil m, Agree.refl _ _, EqFld.refl _ _, EqFld.refl _ _⟩
  | cons x L ih =>
    obtain ⟨m1, r1, a1, v1, w1⟩ := step_runs hS stp x.1 x.2
    obtain ⟨m2, r2, a2, v2, w2⟩ := ih (hS.static a1)
    have hl := run_local hS.sys stp L (p := (m1.fld .tend, m1.fld .state))
      (q := S.step x.1 x.2 (m.fld .tend, m.fld .state) stp) ⟨v1, w1⟩
    exact ⟨m2, fun split => Runs.append (r1 split) (r2 split), a2.trans a1, v2.trans hl.1,
      w2.trans hl.2⟩

/-! ### Forcing -/

/-- the effect of the forcing on a constructed mesh -/
def forceFn (fh fx fy : R → R → R → R) (m : Mem R) : HookFn R where
  h t c _ v := v + fh (m.real .x_cell 0 c 0) (m.real .y_cell 0 c 0) t
  vn t e _ v := v + (Scalar.cos (m.real .angle_edge 0 e 0) *
      fx (m.real .x_edge 0 e 0) (m.real .y_edge 0 e 0) t +
    Scalar.sin (m.real .angle_edge 0 e 0) * fy (m.real .x_edge 0 e 0) (m.real .y_edge 0 e 0) t)

theorem upd_upd2 {d : Dims} {a b : RArr} (hne : a ≠ b) (f g : Int → Int → Int → R → R)
    (A : RArr → Bool) (hA : ∀ c, A c = true ↔ c = a ∨ c = b) (m : Mem R) :
    (m.upd (RegA d (only a)) (eff a f)).upd (RegA d (only b)) (eff b g) =
      m.upd (RegA d A) (eff2 a f b g) := by
  refine Mem.ext' rfl ?_
  funext c l i k
  by_cases hin : c.InB d l i k
  · by_cases ha : c = a
    · subst ha
      rw [upd_only_off hne, upd_only_on hin, Mem.upd_on ⟨(hA c).2 (.inl rfl), hin⟩]
      simp [eff2, eff, hne]
    · by_cases hb : c = b
      · subst hb
        rw [upd_only_on hin, upd_only_off ha, Mem.upd_on ⟨(hA c).2 (.inr rfl), hin⟩]
        simp [eff2, eff, ha]
      · rw [upd_only_off hb, upd_only_off ha, Mem.upd_off]
        rintro ⟨h1, -⟩
        rcases (hA c).1 h1 with h | h
        · exact ha h
        · exact hb h
  · rw [Mem.upd_off (fun h => hin h.2), Mem.upd_off (fun h => hin h.2),
      Mem.upd_off (fun h => hin h.2)]

theorem hookOK_forced (d : Dims) (sw : SWModel R) (fh fx fy : R → R → R → R) (m : Mem R) :
    HookOK d (sw.forced d fh fx fy) (forceFn fh fx fy m) m := by
  intro m' hs t tn st hne
  have key := upd_upd2 (d := d) (a := .h_cell tn) (b := .vn_edge tn) (by simp)
    (fun _ c k v => (forceFn fh fx fy m).h t c k v) (fun _ c k v => (forceFn fh fx fy m).vn t c k v)
    (hvOf tn) (fun c => by simp [hvOf]) m'
  unfold hookEff
  rw [← key]
  refine Runs.cons (par2e_runs rfl _ ?_) (Runs.single (par2e_runs rfl _ ?_))
  · intro i k hin M perm hM hp hro
    have hb : ∀ a : RArr, a.ext d = (1, d.ncells, 1) → a.InB d 0 i 0 := fun a ha => by
      rw [RArr.InB, ha]; exact ⟨by simp, hin.2.1, by simp⟩
    refine wp_bind (wp_rd1 (hb _ rfl) (hro _ (by simp) _ _ _) (wp_bind (wp_rd1 (hb _ rfl)
      (hro _ (by simp) _ _ _) (wp_bind (wp_rd2 hin (ne_of_rw hp) (wp_wr2 hin hp ?_))))))
    simp only [forceFn]
    rw [hM.real .x_cell rfl, hM.real .y_cell rfl, hs.real .x_cell rfl, hs.real .y_cell rfl]
  · intro i k hin M perm hM hp hro
    have hb : ∀ a : RArr, a.ext d = (1, d.nedges, 1) → a.InB d 0 i 0 := fun a ha => by
      rw [RArr.InB, ha]; exact ⟨by simp, hin.2.1, by simp⟩
    refine wp_bind (wp_rd1 (hb _ rfl) (hro _ (by simp) _ _ _) (wp_bind (wp_rd1 (hb _ rfl)
      (hro _ (by simp) _ _ _) (wp_bind (wp_rd1 (hb _ rfl) (hro _ (by simp) _ _ _)
      (wp_bind (wp_rd1 (hb _ rfl) (hro _ (by simp) _ _ _)
      (wp_bind (wp_rd2 hin (ne_of_rw hp) (wp_wr2 hin hp ?_))))))))))
    simp only [forceFn]
    rw [hM.real .x_edge rfl, hM.real .y_edge rfl, hM.real .angle_edge rfl,
      upd_only_off (by simp), upd_only_off (by simp), upd_only_off (by simp),
      hs.real .x_edge rfl, hs.real .y_edge rfl, hs.real .angle_edge rfl]

theorem Ready.setup_forced {p : MeshParams} (hv : RunValid p) {dc : R} {m : Mem R} {prm : Params R}
    (h : Ready p dc prm m) (sw : SWModel R) (fh fx fy : R → R → R → R) :
    Setup p.dims (defaultKernels p.dims.vl)
      (sysOf scalarF p (sw.forced p.dims fh fx fy) (forceFn fh fx fy m) m) m :=
  setup_of_hex hv (h.hex hv.toValid).1 default_refines scalarF_local (hookOK_forced _ _ _ _ _ _)

end Refine
end Omega
