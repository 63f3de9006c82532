import Verif.Spec.Ops
import Verif.Refine.HexSum
import Verif.Props.Stepping
import Mathlib.Algebra.BigOperators.Field

/-!
# C51: the computed tendency is the TRiSK discretisation
-/

set_option linter.unusedVariables false
set_option linter.unusedSectionVars false

namespace Omega
noncomputable section

namespace Props

open Prog Model Refine

variable (m : Mem ℝ)

/-! ### The functions of the default build are the operators -/

theorem fold_div (n : Int) (g G : Int → ℝ) (A : ℝ) (hg : ∀ j, g j = G j / A) :
    foldI n (lit 0) (fun j s => s + g j) = (∑ j ∈ Finset.Ico 0 n, G j) / A := by
  rw [foldI_sum, Hex.sum_upto n g, Finset.sum_div]
  exact Finset.sum_congr rfl fun j _ => hg j

theorem fold_mul (n : Int) (g G : Int → ℝ) (a A : ℝ) (hg : ∀ j, g j = a * (G j / A)) :
    foldI n (lit 0) (fun j s => s + g j) = a * ((∑ j ∈ Finset.Ico 0 n, G j) / A) := by
  rw [foldI_sum, Hex.sum_upto n g, Finset.sum_div, Finset.mul_sum]
  exact Finset.sum_congr rfl fun j _ => hg j

theorem fold_mul' (n : Int) (g G : Int → ℝ) (a A : ℝ) (hg : ∀ j, g j = a * (G j / A)) :
    foldI n (lit 0) (fun j s => s - g j) = -(a * ((∑ j ∈ Finset.Ico 0 n, G j) / A)) := by
  rw [foldI_diff, Hex.sum_upto n g, Finset.sum_div, Finset.mul_sum]
  congr 1
  exact Finset.sum_congr rfl fun j _ => hg j

theorem fn_div (u : Int → ℝ) (c : Int) : Fn.div m.mesh u c = Spec.div m u c := by
  refine fold_div _ _ _ _ fun j => ?_
  simp only [Mem.mesh, lit_real]; push_cast; ring

theorem fn_del2div (u : Int → ℝ) (c : Int) : Fn.del2div m.mesh u c = Spec.div m u c := by
  refine fold_div _ _ _ _ fun j => ?_
  simp only [Mem.mesh, lit_real]; push_cast; ring

theorem fn_ke (u : Int → ℝ) (c : Int) : Fn.ke m.mesh u c = Spec.kinetic m u c := by
  refine fold_div _ _ _ _ fun j => ?_
  simp only [Mem.mesh, lit_real, quarter_real]; push_cast; ring

theorem fn_rvort (u : Int → ℝ) (v : Int) : Fn.rvort m.mesh u v = Spec.curl m u v := by
  refine fold_div _ _ _ _ fun j => ?_
  simp only [Mem.mesh, lit_real]; push_cast; ring

theorem fn_hvert (φ : Int → ℝ) (v : Int) : Fn.hvert m.mesh φ v = Spec.kiteMean m φ v := by
  refine fold_div _ _ _ _ fun j => ?_
  simp only [Mem.mesh, lit_real]; push_cast; ring

theorem fn_hmean (φ : Int → ℝ) (e : Int) : Fn.hmean m.mesh φ e = Spec.mean m φ e := by
  simp only [Fn.hmean, Spec.mean, Mem.mesh, half_real]; ring

theorem fn_vedge (ψ : Int → ℝ) (e : Int) : Fn.vedge m.mesh ψ e = Spec.vmean m ψ e := by
  simp only [Fn.vedge, Spec.vmean, Mem.mesh, half_real]; ring

theorem fn_keG (φ : Int → ℝ) (e : Int) : Fn.keG m.mesh φ e = Spec.grad m φ e := by
  simp only [Fn.keG, Spec.grad, Mem.mesh, lit_real]; push_cast; ring

theorem fn_sshG (g : ℝ) (φ : Int → ℝ) (e : Int) : Fn.sshG m.mesh g φ e = g * Spec.grad m φ e := by
  simp only [Fn.sshG, Spec.grad, Mem.mesh, lit_real]; push_cast; ring

theorem fn_hadv (u hf : Int → ℝ) (c : Int) :
    Fn.hadv m.mesh u hf c = -Spec.div m (fun e => hf e * u e) c := by
  have := fold_mul' (m.mesh.neoc c) (fun j => m.mesh.dv (m.mesh.eoc c j) *
    (lit 1 / m.mesh.areaCell c) * m.mesh.signC c j * hf (m.mesh.eoc c j) * u (m.mesh.eoc c j))
    (fun j => m.real .edge_sign_on_cell 0 c j * Spec.dvE m (Spec.side m c j) *
      (hf (Spec.side m c j) * u (Spec.side m c j))) 1 (Spec.areaC m c) fun j => by
    simp only [Mem.mesh, lit_real]; push_cast; ring
  rw [one_mul] at this
  exact this

theorem fn_pv (q f hf u : Int → ℝ) (e : Int) :
    Fn.pv m.mesh q f hf u e = Spec.pvFlux m (fun e => q e + f e) (fun e => hf e * u e) e := by
  have := fold_div (m.mesh.neoe e) (fun j => m.mesh.woe e j * hf (m.mesh.eoe e j) *
    u (m.mesh.eoe e j) * ((q e + f e + q (m.mesh.eoe e j) + f (m.mesh.eoe e j)) * half))
    (fun j => m.real .weights_on_edge 0 e j * (hf (m.int .edges_on_edge e j) *
      u (m.int .edges_on_edge e j)) * ((q e + f e + (q (m.int .edges_on_edge e j) +
        f (m.int .edges_on_edge e j))) / 2)) 1 fun j => by
    simp only [Mem.mesh, half_real]; ring
  rw [div_one] at this
  exact this

theorem fn_vdiff (visc : ℝ) (k : Int) (φ ψ : Int → ℝ) (e : Int) :
    Fn.vdiff m.mesh visc k φ ψ e = visc * m.real .edge_mask 0 e k *
      m.real .mesh_scaling_del2 0 e 0 * (Spec.grad m φ e - Spec.gradT m ψ e) := by
  simp only [Fn.vdiff, Spec.grad, Spec.gradT, Mem.mesh, lit_real]; push_cast; ring

theorem fn_vhyper (visc : ℝ) (k : Int) (φ ψ : Int → ℝ) (e : Int) :
    Fn.vhyper m.mesh visc k φ ψ e = visc * m.real .edge_mask 0 e k *
      m.real .mesh_scaling_del4 0 e 0 * (Spec.grad m φ e - Spec.gradT m ψ e) := by
  simp only [Fn.vhyper, Spec.grad, Spec.gradT, Mem.mesh, lit_real]; push_cast; ring

theorem fn_del2 (u : Int → ℝ) (e : Int) :
    Fn.del2 m.mesh (Spec.div m u) (Spec.curl m u) e = Spec.vecLap m u e := by
  simp only [Fn.del2, Spec.vecLap, Spec.grad, Mem.mesh, lit_real, maxS_real, quarter_real]
  push_cast
  rw [show (1 : ℝ) / 4 * m.real .dc_edge 0 e 0 = m.real .dc_edge 0 e 0 / 4 by ring]
  ring

theorem fn_ntr (s h : Int → ℝ) (c : Int) : Fn.ntr s h c = s c / h c := by
  simp only [Fn.ntr, lit_real]; push_cast; ring

theorem fn_thadv (u q hf : Int → ℝ) (c : Int) :
    Fn.thadv m.mesh u q hf c = -Spec.div m (fun e => hf e * Spec.mean m q e * u e) c := by
  have := fold_mul' (m.mesh.neoc c) (fun j => m.mesh.dv (m.mesh.eoc c j) *
    (lit 1 / m.mesh.areaCell c) * m.mesh.signC c j * hf (m.mesh.eoc c j) *
      ((q (m.mesh.coe (m.mesh.eoc c j) 0) + q (m.mesh.coe (m.mesh.eoc c j) 1)) * half) *
      u (m.mesh.eoc c j))
    (fun j => m.real .edge_sign_on_cell 0 c j * Spec.dvE m (Spec.side m c j) *
      (hf (Spec.side m c j) * Spec.mean m q (Spec.side m c j) * u (Spec.side m c j))) 1
      (Spec.areaC m c) fun j => by
    simp only [Mem.mesh, lit_real, half_real, Spec.mean]; push_cast; ring
  rw [one_mul] at this
  exact this

theorem fn_tdiff (eddy : ℝ) (q hm : Int → ℝ) (c : Int) :
    Fn.tdiff m.mesh eddy q hm c =
      eddy * Spec.div m (fun e => m.real .mesh_scaling_del2 0 e 0 * hm e * Spec.grad m q e) c := by
  refine fold_mul _ _ _ _ _ fun j => ?_
  simp only [Mem.mesh, lit_real, Spec.grad]; push_cast; ring

theorem fn_tdel2 (q hm : Int → ℝ) (c : Int) :
    Fn.tdel2 m.mesh q hm c = Spec.div m (fun e => hm e * Spec.grad m q e) c := by
  refine fold_div _ _ _ _ fun j => ?_
  simp only [Mem.mesh, lit_real, Spec.grad]; push_cast; ring

theorem fn_thyper (eddy : ℝ) (q : Int → ℝ) (c : Int) :
    Fn.thyper m.mesh eddy q c =
      -(eddy * Spec.div m (fun e => m.real .mesh_scaling_del4 0 e 0 * Spec.grad m q e) c) := by
  refine fold_mul' _ _ _ _ _ fun j => ?_
  simp only [Mem.mesh, lit_real, Spec.grad]; push_cast; ring

variable {m}

/-! ### The tendency -/

theorem sys_h (d : Dims) (sw : SWModel ℝ) (H : HookFn ℝ) (s : Fld ℝ) (o : ℝ) (c k : Int) :
    (genSys d sw H m).termsH s .replace o c k =
      Spec.thicknessTend m sw (fun i => s.h i k) (fun i => s.vn i k) c := by
  simp only [Sys.termsH, Sys.start, genSys, scalarF, Spec.thicknessTend, fn_hadv, Sys.flux]
  rw [show Fn.hmean m.mesh (Sys.hk s k) = Spec.mean m (fun i => s.h i k) from
    funext fun e => fn_hmean m _ e]
  simp [Sys.vk]

theorem sys_vn (d : Dims) (sw : SWModel ℝ) (H : HookFn ℝ) (s : Fld ℝ) (o : ℝ) (e k : Int) :
    (genSys d sw H m).termsVn s .replace o e k =
      Spec.velocityTend m sw k (fun i => s.h i k) (fun i => s.vn i k) e := by
  have hdiv : (genSys d sw H m).divC s k = Spec.div m (fun i => s.vn i k) :=
    funext fun c => fn_div m _ c
  have hrv : (genSys d sw H m).rv s k = Spec.curl m (fun i => s.vn i k) :=
    funext fun c => fn_rvort m _ c
  have hke : (genSys d sw H m).keC s k = Spec.kinetic m (fun i => s.vn i k) :=
    funext fun c => fn_ke m _ c
  have hfl : (genSys d sw H m).flux s k = Spec.mean m (fun i => s.h i k) :=
    funext fun c => fn_hmean m _ c
  have hd2 : (genSys d sw H m).d2E s k = Spec.vecLap m (fun i => s.vn i k) := by
    unfold Sys.d2E
    rw [hdiv, hrv]
    exact funext fun e => fn_del2 m _ e
  have hd2c : (genSys d sw H m).d2C s k = Spec.div m (Spec.vecLap m (fun i => s.vn i k)) := by
    unfold Sys.d2C
    rw [hd2]
    exact funext fun c => fn_del2div m _ c
  have hd2v : (genSys d sw H m).d2V s k = Spec.curl m (Spec.vecLap m (fun i => s.vn i k)) := by
    unfold Sys.d2V
    rw [hd2]
    exact funext fun c => fn_rvort m _ c
  have hq : (fun e => (genSys d sw H m).nrvE s k e + (genSys d sw H m).npvE s k e) =
      Spec.vmean m (Spec.pv m (fun i => s.h i k) (fun i => s.vn i k)) := by
    funext e
    show Fn.vedge m.mesh (Fn.nrv m.mesh (Sys.hk s k) (Sys.vk s k)) e +
      Fn.vedge m.mesh (Fn.npv m.mesh (Sys.hk s k) (m.sl .f_vertex 0 0)) e = _
    rw [fn_vedge, fn_vedge]
    simp only [Spec.vmean, Fn.nrv, Fn.npv, fn_rvort, fn_hvert, Spec.pv, lit_real, Mem.sl]
    have e1 : (Sys.hk s k) = fun i => s.h i k := rfl
    have e2 : (Sys.vk s k) = fun i => s.vn i k := rfl
    rw [e1, e2]
    push_cast
    ring
  have hpv : (genSys d sw H m).F.pv (genSys d sw H m).M ((genSys d sw H m).nrvE s k)
      ((genSys d sw H m).npvE s k) ((genSys d sw H m).flux s k) (Sys.vk s k) e =
      Spec.pvFlux m (Spec.vmean m (Spec.pv m (fun i => s.h i k) (fun i => s.vn i k)))
        (fun e => Spec.mean m (fun i => s.h i k) e * s.vn e k) e := by
    rw [hfl, ← hq]
    exact fn_pv m _ _ _ _ e
  unfold Sys.termsVn
  rw [hdiv, hrv, hke, hd2c, hd2v, hpv]
  simp only [Sys.start, genSys, scalarF, Spec.velocityTend, fn_vdiff, fn_vhyper, fn_sshG, fn_keG]
  have e1 : (Sys.hk s k) = fun i => s.h i k := rfl
  rw [e1]
  simp only [decide_true, if_true, lit_real, Int.cast_zero]
  split_ifs <;> ring

theorem sys_tr (d : Dims) (sw : SWModel ℝ) (H : HookFn ℝ) (s : Fld ℝ) (o : ℝ) (l c k : Int) :
    (genSys d sw H m).termsTr s .replace o l c k =
      Spec.tracerTend m sw (fun i => s.h i k) (fun i => s.vn i k) (fun i => s.tr l i k) c := by
  have hn : (genSys d sw H m).ntrC s l k = fun i => s.tr l i k / s.h i k :=
    funext fun c => fn_ntr _ _ c
  have hfl : (genSys d sw H m).flux s k = Spec.mean m (fun i => s.h i k) :=
    funext fun c => fn_hmean m _ c
  have ht : (genSys d sw H m).t2C s l k = Spec.div m (fun e => Spec.mean m (fun i => s.h i k) e *
      Spec.grad m (fun i => s.tr l i k / s.h i k) e) := by
    unfold Sys.t2C
    rw [hn, hfl]
    exact funext fun c => fn_tdel2 m (fun i => s.tr l i k / s.h i k) (Spec.mean m fun i => s.h i k) c
  unfold Sys.termsTr
  rw [hn, hfl, ht]
  simp only [Sys.start, genSys, scalarF, Spec.tracerTend, fn_thadv, fn_tdiff, fn_thyper]
  have e2 : (Sys.vk s k) = fun i => s.vn i k := rfl
  rw [e2]
  simp only [decide_true, if_true, lit_real, Int.cast_zero]
  split_ifs <;> ring

/-- The same for any fields that have the contents of the state at the valid indices. -/
theorem tend_spec {d : Dims} {m m1 : Mem ℝ} (hd : DimsOK d) (hc : ConnOK d m)
    {sw : SWModel ℝ} (hn : sw.NoHook) {split : Bool} {tn st : StateId} (hne : st ≠ tn) {t : ℝ}
    (he : Exec d (compute_tendency d ⟨defaultKernels d.vl, split⟩ sw .replace tn st t) m m1)
    {x : Fld ℝ} (hx : EqFld d (m.fld st) x) :
    (sw.prm.disable_h = false → ∀ c k, 0 ≤ c → c < d.ncells → 0 ≤ k → k < d.nlayers →
      m1.real (.h_cell tn) 0 c k = Spec.thicknessTend m sw (fun i => x.h i k)
        (fun i => x.vn i k) c) ∧
    (sw.prm.disable_vn = false → ∀ e k, 0 ≤ e → e < d.nedges → 0 ≤ k → k < d.nlayers →
      m1.real (.vn_edge tn) 0 e k = Spec.velocityTend m sw k (fun i => x.h i k)
        (fun i => x.vn i k) e) ∧
    (∀ l c k, 0 ≤ l → l < d.ntracers → 0 ≤ c → c < d.ncells → 0 ≤ k → k < d.nlayers →
      m1.real (.tr_cell tn) l c k = Spec.tracerTend m sw (fun i => x.h i k)
        (fun i => x.vn i k) (fun i => x.tr l i k) c) := by
  have hS := genSetup hd hc (hookOK_noHook hn d m)
  obtain ⟨-, v⟩ := hS.tendency hne he
  replace v := v.trans (tend_local hS.sys hx .replace t (EqFld.refl d (m.fld tn)))
  refine ⟨fun h c k g0 g1 g2 g3 => ?_, fun h c k g0 g1 g2 g3 => ?_, fun l c k l0 l1 g0 g1 g2 g3 => ?_⟩
  · refine (v.h c k g0 g1 g2 g3).trans ?_
    simp only [Sys.tend]
    rw [if_neg (by simp [genSys, h]), sys_h]
    rfl
  · refine (v.vn c k g0 g1 g2 g3).trans ?_
    simp only [Sys.tend]
    rw [if_neg (by simp [genSys, h]), sys_vn]
    rfl
  · refine (v.tr l c k l0 l1 g0 g1 g2 g3).trans ?_
    simp only [Sys.tend]
    rw [sys_tr]

/-- On any mesh with valid tables, `compute_tendency` in replace mode stores the TRiSK tendency of
the state, for every combination of terms (exact arithmetic). -/
theorem C51_tendency_formula {d : Dims} {m m1 : Mem ℝ} (hd : DimsOK d) (hc : ConnOK d m)
    {sw : SWModel ℝ} (hn : sw.NoHook) {split : Bool} {tn st : StateId} (hne : st ≠ tn) {t : ℝ}
    (he : Exec d (compute_tendency d ⟨defaultKernels d.vl, split⟩ sw .replace tn st t) m m1) :
    (sw.prm.disable_h = false → ∀ c k, 0 ≤ c → c < d.ncells → 0 ≤ k → k < d.nlayers →
      m1.real (.h_cell tn) 0 c k = Spec.thicknessTend m sw (fun i => m.real (.h_cell st) 0 i k)
        (fun i => m.real (.vn_edge st) 0 i k) c) ∧
    (sw.prm.disable_vn = false → ∀ e k, 0 ≤ e → e < d.nedges → 0 ≤ k → k < d.nlayers →
      m1.real (.vn_edge tn) 0 e k = Spec.velocityTend m sw k (fun i => m.real (.h_cell st) 0 i k)
        (fun i => m.real (.vn_edge st) 0 i k) e) ∧
    (∀ l c k, 0 ≤ l → l < d.ntracers → 0 ≤ c → c < d.ncells → 0 ≤ k → k < d.nlayers →
      m1.real (.tr_cell tn) l c k = Spec.tracerTend m sw (fun i => m.real (.h_cell st) 0 i k)
        (fun i => m.real (.vn_edge st) 0 i k) (fun i => m.real (.tr_cell st) l i k) c) :=
   tend_spec hd hc hn hne he (EqFld.refl d (m.fld st))

/-- A ready memory on the example mesh with any given state, and an execution of
`compute_tendency` from it. -/
theorem exists_tendency {p : MeshParams} (hv : RunValid p) (dc : ℝ) (prm : Params ℝ)
    {sw : SWModel ℝ} (hn : sw.NoHook) (split : Bool) (mode : AddMode) (t : ℝ) (x : Fld ℝ) :
    ∃ m m1 : Mem ℝ, Ready p dc prm m ∧ DimsOK p.dims ∧ ConnOK p.dims m ∧ m.fld .state = x ∧
      Exec p.dims (compute_tendency p.dims ⟨defaultKernels p.dims.vl, split⟩ sw mode .tend .state t)
        m m1 := by
  obtain ⟨m, h, h1, -⟩ := exists_ready hv.toValid dc prm x zeroFld
  obtain ⟨hd, hc⟩ := ready_ok hv h
  obtain ⟨m1, he, -⟩ :=
    ((C40_safe_deterministic hd hc hn split).1 mode .tend .state t (by decide)).2
  exact ⟨m, m1, h, hd, hc, h1, he⟩

/-- all terms on, non-trivial state -/
example (dc : ℝ) (prm : Params ℝ) : ∃ m m1 : Mem ℝ, DimsOK p46.dims ∧ ConnOK p46.dims m ∧
    Exec p46.dims (compute_tendency p46.dims ⟨defaultKernels p46.dims.vl, true⟩
      (SWModel.ofParams prm) .replace .tend .state 3) m m1 ∧
    m.real (.h_cell .state) 0 5 2 = 6 ∧ m.real (.vn_edge .state) 0 7 2 = 49 := by
  obtain ⟨m, m1, -, hd, hc, hx, he⟩ := exists_tendency p46_run dc prm (noHook_ofParams prm) true
    .replace 3 ⟨fun c _ => 1 + c, fun e _ => e * e, fun l c k => l + c + k⟩
  refine ⟨m, m1, hd, hc, he, ?_, ?_⟩
  · exact (congrFun (congrFun (congrArg Fld.h hx) 5) 2).trans (by norm_num)
  · exact (congrFun (congrFun (congrArg Fld.vn hx) 7) 2).trans (by norm_num)

end Props
end
end Omega
