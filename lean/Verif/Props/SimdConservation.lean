import Verif.Props.Simd
import Verif.Props.Uniform

/-!
# C97: what the explicit-SIMD build keeps and what its hyperviscosity breaks

The hyperviscosity of the explicit-SIMD build takes the vorticity of the Laplacian from the first layer
of each vector (C28).  The thickness and tracer equations are not affected: mass, tracer content, uniform
tracers and the state of rest are kept as in the default build.  The energy is: there are flows to which
the term adds kinetic energy.
-/

set_option linter.unusedVariables false
set_option linter.unusedSectionVars false

namespace Omega
noncomputable section

namespace Spec

open Model

/-- Velocity tendency of the explicit-SIMD build at layer `k` of a vector of `vl` layers, for the
velocities `u` of all layers. -/
def simdVelocityTend (m : Mem ℝ) (sw : SWModel ℝ) (vl k : Int) (h : Int → ℝ) (u : Int → Int → ℝ)
    (e : Int) : ℝ :=
  velocityTend m { sw with en_vhyper := false } k h (u k) e -
  (if sw.en_vhyper then sw.prm.visc_del4 * m.real .edge_mask 0 e k *
    m.real .mesh_scaling_del4 0 e 0 *
      (grad m (div m (vecLap m (u k))) e - gradT m (curl m (vecLap m (u (k / vl * vl)))) e) else 0)

end Spec

namespace Props

open Prog Model Refine Hex

variable {p : MeshParams} {dc : ℝ} {m : Mem ℝ}

/-- over the reals the functions of the two builds differ in one only -/
theorem simdF_real : (simdF : Fns ℝ) = { (scalarF : Fns ℝ) with del2rv := fun M _ u0 v => Fn.rvort M u0 v } := by
  have e1 : SFn.nrv (R := ℝ) = Fn.nrv := by funext M h v i; exact mul_comm _ _
  have e2 : SFn.pv (R := ℝ) = Fn.pv := by
    funext M a b c e i; unfold SFn.pv Fn.pv; simp only [mul_comm half]
  have e3 : SFn.vdiff (R := ℝ) = Fn.vdiff := by
    funext M a kk x y i; unfold SFn.vdiff Fn.vdiff; ring
  have e4 : SFn.thadv (R := ℝ) = Fn.thadv := by
    funext M a b c i; unfold SFn.thadv Fn.thadv; simp only [mul_comm half]
  have e5 : SFn.tdiff (R := ℝ) = Fn.tdiff := by
    funext M a x y i
    unfold SFn.tdiff Fn.tdiff
    congr 1
    funext j s
    ring
  unfold simdF scalarF
  rw [e1, e2, e3, e4, e5]

theorem simd_tend_val (d : Dims) (sw : SWModel ℝ) (mode : AddMode) (t : ℝ) (o s : Fld ℝ) :
    (∀ c k, ((simdSys d sw noHook m).tend mode t o s).h c k = if sw.prm.disable_h = true then o.h c k
      else (if mode = .replace then 0 else o.h c k) +
        Spec.thicknessTend m sw (fun i => s.h i k) (fun i => s.vn i k) c) ∧
    (∀ c k, ((simdSys d sw noHook m).tend mode t o s).vn c k =
      if sw.prm.disable_vn = true then o.vn c k
      else (if mode = .replace then 0 else o.vn c k) +
        Spec.simdVelocityTend m sw d.vl k (fun i => s.h i k) (fun k i => s.vn i k) c) ∧
    (∀ l c k, ((simdSys d sw noHook m).tend mode t o s).tr l c k =
      (if mode = .replace then 0 else o.tr l c k) +
        Spec.tracerTend m sw (fun i => s.h i k) (fun i => s.vn i k) (fun i => s.tr l i k) c) := by
  have off : (simdSys d { sw with en_vhyper := false } noHook m).tend mode t o s =
      (genSys d { sw with en_vhyper := false } noHook m).tend mode t o s := by
    unfold simdSys
    rw [simdF_real]
    rfl
  have V := tend_val (m := m) d { sw with en_vhyper := false } mode t o s
  rw [← off] at V
  obtain ⟨v1, v2, v3⟩ := V
  refine ⟨v1, fun i k => ?_, v3⟩
  by_cases hen : sw.en_vhyper = true
  · by_cases hd : sw.prm.disable_vn = true
    · rw [if_pos hd]
      simp only [Sys.tend]
      rw [if_pos (show (simdSys d sw noHook m).sw.prm.disable_vn = true from hd)]
      rfl
    · have d2 : ∀ k, (genSys d sw noHook m).d2E s k = Spec.vecLap m (fun i => s.vn i k) := fun k => by
        have hrv : (genSys d sw noHook m).rv s k = Spec.curl m (fun i => s.vn i k) :=
          funext fun c => fn_rvort m _ c
        have hdiv : (genSys d sw noHook m).divC s k = Spec.div m (fun i => s.vn i k) :=
          funext fun c => fn_div m _ c
        unfold Sys.d2E
        rw [hdiv, hrv]
        exact funext fun e => fn_del2 m _ e
      have v4 : ((simdSys d sw noHook m).tend mode t o s).vn i k =
          ((simdSys d { sw with en_vhyper := false } noHook m).tend mode t o s).vn i k -
            Fn.vhyper m.mesh sw.prm.visc_del4 k ((genSys d sw noHook m).d2C s k)
              (Fn.rvort m.mesh ((genSys d sw noHook m).d2E s (k / d.vl * d.vl))) i := by
        simp only [Sys.tend]
        rw [if_neg (show ¬ (simdSys d sw noHook m).sw.prm.disable_vn = true from hd),
          if_neg (show ¬ (simdSys d { sw with en_vhyper := false } noHook m).sw.prm.disable_vn = true from hd)]
        exact if_pos hen
      have fr : ∀ u : Int → ℝ, Fn.rvort m.mesh u = Spec.curl m u := fun u => funext fun c => fn_rvort m u c
      have fd : (genSys d sw noHook m).d2C s k = Spec.div m ((genSys d sw noHook m).d2E s k) := by
        funext c
        exact fn_del2div m _ c
      rw [v4, v2, if_neg hd, if_neg hd, fd, d2, d2, fr, fn_vhyper]
      unfold Spec.simdVelocityTend
      rw [if_pos hen]
      ring
  · have e : sw = { sw with en_vhyper := false } := by
      obtain ⟨⟩ := sw; simp_all
    have z : Spec.simdVelocityTend m sw d.vl k (fun i => s.h i k) (fun k i => s.vn i k) i =
        Spec.velocityTend m { sw with en_vhyper := false } k (fun i => s.h i k) (fun i => s.vn i k) i := by
      unfold Spec.simdVelocityTend; rw [if_neg hen, sub_zero]
    have := v2 i k
    rw [← z, ← e] at this
    exact this

/-! ### Conservation -/

theorem simd_stepRel_sums (h : Geo2 p.nx p.ny p.dims.nlayers dc m.mesh) (sw : SWModel ℝ)
    (Ch : Int → ℝ) (Ct : Int → Int → ℝ) :
    StepRel (simdSys p.dims sw noHook m) (simdSys p.dims sw noHook m)
      (fun x _ => (∀ k, ∑ c ∈ Spec.cells p.dims, Spec.areaC m c * x.h c k = 0) ∧
        ∀ l k, ∑ c ∈ Spec.cells p.dims, Spec.areaC m c * x.tr l c k = 0)
      (fun x _ => (∀ k, ∑ c ∈ Spec.cells p.dims, Spec.areaC m c * x.h c k = Ch k) ∧
        ∀ l k, ∑ c ∈ Spec.cells p.dims, Spec.areaC m c * x.tr l c k = Ct l k) where
  tend := by
    rintro mode t o o' s s' ⟨ho, ho'⟩ -
    have tv := simd_tend_val (m := m) p.dims sw mode t o s
    have tg := tend_val (m := m) p.dims sw mode t o s
    have e := (stepRel_sums h sw (fun k => ∑ c ∈ Spec.cells p.dims, Spec.areaC m c * s.h c k)
      (fun l k => ∑ c ∈ Spec.cells p.dims, Spec.areaC m c * s.tr l c k)).tend (mode := mode) (t := t)
      (o := o) (o' := o) (s := s) (s' := s) ⟨ho, ho'⟩ ⟨fun _ => rfl, fun _ _ => rfl⟩
    refine ⟨fun k => ?_, fun l k => ?_⟩
    · rw [← e.1 k]
      exact Finset.sum_congr rfl fun c _ => by rw [tv.1, tg.1]
    · rw [← e.2 l k]
      exact Finset.sum_congr rfl fun c _ => by rw [tv.2.2, tg.2.2]
  map a hx := (stepRel_sums h sw Ch Ct).map a hx (y := zeroFld)
  axpy c hx hy := (stepRel_sums h sw Ch Ct).axpy c hx hy (y := zeroFld) (y' := zeroFld)

/-- The explicit-SIMD build conserves mass, as reported by `mass_integral` and per layer, and the content
of every tracer in every layer, in any run of either stepper and with any terms, hyperviscosity
included. -/
theorem C97_simd_conserves (hv : RunValid p) (hx : 2 ≤ p.nx) (hy : 2 ≤ p.ny) (hdc : 0 < dc)
    {prm : Params ℝ} (hr : Ready p dc prm m) {sw : SWModel ℝ} (hn : sw.NoHook) {stp : Stepper}
    {sched : List (ℝ × ℝ)} {split : Bool} {m1 : Mem ℝ}
    (he : Exec p.dims (stp.ctor p.dims ++
      stp.run p.dims ⟨simdKernels p.dims.vl p.dims.vl, split⟩ sw sched) m m1) :
    (∀ v v1, IsMassIntegral p.dims .state m v → IsMassIntegral p.dims .state m1 v1 → v1 = v) ∧
    (∀ k ∈ Spec.layers p.dims,
      ∑ c ∈ Spec.cells p.dims, Spec.areaC m1 c * m1.real (.h_cell .state) 0 c k =
      ∑ c ∈ Spec.cells p.dims, Spec.areaC m c * m.real (.h_cell .state) 0 c k) ∧
    ∀ l, 0 ≤ l → l < p.dims.ntracers → ∀ k ∈ Spec.layers p.dims,
      ∑ c ∈ Spec.cells p.dims, Spec.areaC m1 c * m1.real (.tr_cell .state) l c k =
      ∑ c ∈ Spec.cells p.dims, Spec.areaC m c * m.real (.tr_cell .state) l c k := by
  obtain ⟨hd, hc⟩ := ready_ok hv hr
  have hS := simdSetup hd hc (hookOK_noHook hn p.dims m)
  obtain ⟨hs, -, v⟩ := hS.newRun he
  have key := ((simd_stepRel_sums (Ready.geo2 hr hv.toValid hx hy hdc) sw
    (fun k => ∑ c ∈ Spec.cells p.dims, Spec.areaC m c * m.real (.h_cell .state) 0 c k)
    (fun l k => ∑ c ∈ Spec.cells p.dims, Spec.areaC m c * m.real (.tr_cell .state) l c k)).run stp
    sched (p := (zeroFld, m.fld .state)) (q := (zeroFld, m.fld .state))
    (by simp [zeroFld]) (by simp [Mem.fld])).2
  have k1 : ∀ k ∈ Spec.layers p.dims,
      ∑ c ∈ Spec.cells p.dims, Spec.areaC m1 c * m1.real (.h_cell .state) 0 c k =
      ∑ c ∈ Spec.cells p.dims, Spec.areaC m c * m.real (.h_cell .state) 0 c k := fun k hk => by
    rw [← key.1 k]
    refine Finset.sum_congr rfl fun c hc => ?_
    have hk := Finset.mem_Ico.mp hk; have hc := Finset.mem_Ico.mp hc
    rw [area_static hs, ← v.h c k hc.1 hc.2 hk.1 hk.2]; rfl
  refine ⟨fun w w1 h h1 => ?_, k1, fun l l0 l1 k hk => ?_⟩
  · rw [(mass_spec hv.toValid hr .state w).1 h,
      (mass_spec hv.toValid (hr.static hs) .state w1).1 h1]
    exact Finset.sum_congr rfl k1
  · rw [← key.2 l k]
    refine Finset.sum_congr rfl fun c hc => ?_
    have hk := Finset.mem_Ico.mp hk; have hc := Finset.mem_Ico.mp hc
    rw [area_static hs, ← v.tr l c k l0 l1 hc.1 hc.2 hk.1 hk.2]; rfl

theorem simd_guarded_uniform {d : Dims} (hc : ConnOK d m) {sw : SWModel ℝ}
    (hadv : sw.en_thadv = sw.en_hadv) (hh : sw.prm.disable_h = false) (q : Int → Int → ℝ) :
    Guarded (simdSys d sw noHook m)
      (fun x => ∀ c k, 0 ≤ c → c < d.ncells → 0 ≤ k → k < d.nlayers → x.h c k ≠ 0)
      (fun x => ∀ l c k, 0 ≤ l → l < d.ntracers → 0 ≤ c → c < d.ncells → 0 ≤ k → k < d.nlayers →
        x.tr l c k = q l k * x.h c k)
      (fun x => ∀ l c k, 0 ≤ l → l < d.ntracers → 0 ≤ c → c < d.ncells → 0 ≤ k → k < d.nlayers →
        x.tr l c k = q l k * x.h c k) where
  tend := by
    intro mode t o s hN ho hs l c k l0 l1 c0 c1 k0 k1
    obtain ⟨tv, -, tt⟩ := simd_tend_val (m := m) d sw mode t o s
    obtain ⟨gv, -, gt⟩ := tend_val (m := m) d sw mode t o s
    rw [tt, tv, ← gt, ← gv]
    exact (guarded_uniform hc hadv hh q).tend hN ho hs l c k l0 l1 c0 c1 k0 k1
  map := (guarded_uniform hc hadv hh q).map
  axpy := (guarded_uniform hc hadv hh q).axpy

/-- In the explicit-SIMD build a tracer that is a constant (per tracer and layer) times thickness remains
that constant times thickness, under the hypotheses of C19 and with hyperviscosity. -/
theorem C97_simd_uniform_stays {d : Dims} (hd : DimsOK d) (hc : ConnOK d m) {sw : SWModel ℝ}
    (hn : sw.NoHook) (hadv : sw.en_thadv = sw.en_hadv) (hh : sw.prm.disable_h = false)
    {stp : Stepper} {sched : List (ℝ × ℝ)} {split : Bool} {m1 : Mem ℝ}
    (he : Exec d (stp.ctor d ++ stp.run d ⟨simdKernels d.vl d.vl, split⟩ sw sched) m m1)
    (hN : ∀ st m', CallsAt d ⟨simdKernels d.vl d.vl, split⟩ sw stp sched m st m' →
      ∀ c k, 0 ≤ c → c < d.ncells → 0 ≤ k → k < d.nlayers → m'.real (.h_cell st) 0 c k ≠ 0)
    {q : Int → Int → ℝ}
    (h0 : ∀ l c k, 0 ≤ l → l < d.ntracers → 0 ≤ c → c < d.ncells → 0 ≤ k → k < d.nlayers →
      m.real (.tr_cell .state) l c k = q l k * m.real (.h_cell .state) 0 c k) :
    ∀ l c k, 0 ≤ l → l < d.ntracers → 0 ≤ c → c < d.ncells → 0 ≤ k → k < d.nlayers →
      m1.real (.tr_cell .state) l c k = q l k * m1.real (.h_cell .state) 0 c k := by
  have hS := simdSetup hd hc (hookOK_noHook hn d m)
  obtain ⟨x, e, hx⟩ := hS.newRun_inv (simd_guarded_uniform hc hadv hh q) he
    (fun x y exy hx c k c0 c1 k0 k1 => by rw [← exy.h c k c0 c1 k0 k1]; exact hx c k c0 c1 k0 k1)
    hN (fun l c k _ _ _ _ _ _ => by simp [zeroFld]) h0
  intro l c k l0 l1 c0 c1 k0 k1
  have h1 := e.tr l c k l0 l1 c0 c1 k0 k1
  have h2 := e.h c k c0 c1 k0 k1
  have h3 := hx l c k l0 l1 c0 c1 k0 k1
  rw [← h1, ← h2] at h3
  exact h3

theorem simd_stepRel_rest (d : Dims) (sw : SWModel ℝ) (H : Int → ℝ) (T : Int → Int → ℝ) :
    StepRel (simdSys d sw noHook m) (simdSys d sw noHook m) (fun x _ => x = zeroFld)
      (fun x _ => x = restFld H T) where
  tend := by
    rintro mode t _ _ _ _ rfl rfl
    refine Eq.trans ?_ ((stepRel_rest (m := m) d sw H T).tend (mode := mode) (t := t) (o := zeroFld)
      (o' := zeroFld) (s := restFld H T) (s' := zeroFld) rfl rfl)
    have tv := simd_tend_val (m := m) d sw mode t zeroFld (restFld H T)
    have tg := tend_val (m := m) d sw mode t zeroFld (restFld H T)
    have z : ∀ e k, Spec.simdVelocityTend m sw d.vl k (fun i => (restFld H T).h i k)
        (fun k i => (restFld H T).vn i k) e = 0 := fun e k => by
      have r := (rest_tend (m := m) { sw with en_vhyper := false } (H k) 0 k).2.1 e
      have hz : Spec.div m (fun _ => 0) = fun _ => 0 := by funext c; simp [Spec.div]
      have hzc : Spec.curl m (fun _ => 0) = fun _ => 0 := by funext c; simp [Spec.curl]
      have hg : ∀ a : ℝ, Spec.grad m (fun _ => a) = fun _ => 0 := fun a => by funext e; simp [Spec.grad]
      have hgT : ∀ a : ℝ, Spec.gradT m (fun _ => a) = fun _ => 0 := fun a => by
        funext e; simp [Spec.gradT]
      have hzl : Spec.vecLap m (fun _ => 0) = fun _ => 0 := by
        funext c; simp [Spec.vecLap, hz, hzc, hg]
      unfold Spec.simdVelocityTend
      simp only [restFld]
      rw [r, hzl, hz, hzc, hg, hgT]
      simp
    have z' : ∀ e k, Spec.velocityTend m sw k (fun i => (restFld H T).h i k)
        (fun i => (restFld H T).vn i k) e = 0 := fun e k => (rest_tend (m := m) sw (H k) 0 k).2.1 e
    have e1 : ((simdSys d sw noHook m).tend mode t zeroFld (restFld H T)).h =
        ((genSys d sw noHook m).tend mode t zeroFld (restFld H T)).h := by
      funext c k; rw [tv.1, tg.1]
    have e2 : ((simdSys d sw noHook m).tend mode t zeroFld (restFld H T)).vn =
        ((genSys d sw noHook m).tend mode t zeroFld (restFld H T)).vn := by
      funext c k; rw [tv.2.1, tg.2.1, z, z']
    have e3 : ((simdSys d sw noHook m).tend mode t zeroFld (restFld H T)).tr =
        ((genSys d sw noHook m).tend mode t zeroFld (restFld H T)).tr := by
      funext l c k; rw [tv.2.2, tg.2.2]
    exact congrArg₂ (fun a (b : (Int → Int → ℝ) × (Int → Int → Int → ℝ)) => Fld.mk a b.1 b.2)
      e1 (Prod.ext (x := (_, _)) (y := (_, _)) e2 e3)
  map a hx := (stepRel_rest (m := m) d sw H T).map a hx (y := zeroFld)
  axpy c hx hy := (stepRel_rest (m := m) d sw H T).axpy c hx hy (y := zeroFld) (y' := zeroFld)

/-- In the explicit-SIMD build a fluid at rest with uniform layers and tracers stays exactly as it is. -/
theorem C97_simd_rest_stays {d : Dims} (hd : DimsOK d) (hc : ConnOK d m) {sw : SWModel ℝ}
    (hn : sw.NoHook) {stp : Stepper} {sched : List (ℝ × ℝ)} {split : Bool} {m1 : Mem ℝ}
    (he : Exec d (stp.ctor d ++ stp.run d ⟨simdKernels d.vl d.vl, split⟩ sw sched) m m1)
    {H : Int → ℝ} {T : Int → Int → ℝ} (h0 : EqFld d (m.fld .state) (restFld H T)) :
    EqFld d (m1.fld .state) (restFld H T) := by
  have hS := simdSetup hd hc (hookOK_noHook hn d m)
  obtain ⟨-, -, v⟩ := hS.newRun he
  have hl := run_local hS.sys stp sched (p := (zeroFld, m.fld .state))
    (q := (zeroFld, restFld H T)) ⟨EqFld.refl _ _, h0⟩
  have key := (simd_stepRel_rest (m := m) d sw H T).run stp sched (p := (zeroFld, restFld H T))
    (q := (zeroFld, restFld H T)) rfl rfl
  exact (v.trans hl.2).trans (by rw [key.2]; exact EqFld.refl _ _)

/-! ### The work of the hyperviscosity -/

/-- The hyperviscosity of the explicit-SIMD build: the difference between the velocity tendencies with and
without it changes kinetic energy at minus the coefficient times the sum of the squared gradient of
divergence and of the product of the vorticity gradients of the layer and of the first layer of its
vector.  The latter has no sign. -/
theorem C97_simd_hyper_work (hv : RunValid p) (hx : 2 ≤ p.nx) (hy : p.ny % 2 = 0) (hdc : 0 < dc)
    {prm : Params ℝ} (hr : Ready p dc prm m) {sw : SWModel ℝ} (hn : sw.NoHook)
    (hen : sw.en_vhyper = true) (hdis : sw.prm.disable_vn = false) {split : Bool} {t t' : ℝ}
    {m1 m1' : Mem ℝ}
    (he : Exec p.dims (compute_tendency p.dims ⟨simdKernels p.dims.vl p.dims.vl, split⟩ sw .replace .tend
      .state t) m m1)
    (he' : Exec p.dims (compute_tendency p.dims ⟨simdKernels p.dims.vl p.dims.vl, split⟩
      { sw with en_vhyper := false } .replace .tend .state t') m m1')
    {k : Int} (k0 : 0 ≤ k) (k1 : k < p.dims.nlayers) :
    ∑ e ∈ Spec.edges p.dims, Spec.dcE m e * Spec.dvE m e * (m.real (.vn_edge .state) 0 e k *
        (m1.real (.vn_edge .tend) 0 e k - m1'.real (.vn_edge .tend) 0 e k)) =
      -(sw.prm.visc_del4 * ∑ e ∈ Spec.edges p.dims, Spec.dcE m e * Spec.dvE m e *
        (Spec.grad m (Spec.div m fun e => m.real (.vn_edge .state) 0 e k) e ^ 2 +
          Spec.gradT m (Spec.curl m fun e => m.real (.vn_edge .state) 0 e k) e *
          Spec.gradT m (Spec.curl m fun e => m.real (.vn_edge .state) 0 e (k / p.dims.vl * p.dims.vl)) e)) := by
  obtain ⟨hd, hc⟩ := ready_ok hv hr
  have hy2 : 2 ≤ p.ny := by have := hv.toValid.ny_pos; omega
  have hg := Ready.geo2 hr hv.toValid hx hy2 hdc
  obtain ⟨-, a⟩ := (simdSetup hd hc (hookOK_noHook hn p.dims m)).tendency (by decide) he
  obtain ⟨-, a'⟩ := (simdSetup hd hc (sw := { sw with en_vhyper := false })
    (hookOK_noHook hn p.dims m)).tendency (by decide) he'
  set u : Int → ℝ := fun e => m.real (.vn_edge .state) 0 e k with hu
  set w : Int → ℝ := fun e => m.real (.vn_edge .state) 0 e (k / p.dims.vl * p.dims.vl) with hw
  have hT : ∀ e, 0 ≤ e → e < p.dims.nedges → m1.real (.vn_edge .tend) 0 e k - m1'.real (.vn_edge .tend) 0 e k =
      -(sw.prm.visc_del4 * (Spec.grad m (Spec.div m (Spec.vecLap m u)) e -
        Spec.gradT m (Spec.curl m (Spec.vecLap m w)) e)) := fun e e0 e1 => by
    have b := a.vn e k e0 e1 k0 k1
    have b' := a'.vn e k e0 e1 k0 k1
    rw [(simd_tend_val (m := m) _ _ _ _ _ _).2.1, if_neg (by simp [hdis])] at b b'
    obtain ⟨q1, -, q2⟩ := mask_one hg.toGeo e0 e1 k0 k1
    simp only [Spec.simdVelocityTend, hen, if_true, q1, q2, Bool.false_eq_true, if_false] at b b'
    simp only [Mem.fld] at b b'
    rw [b, b', ← hu, ← hw]
    ring
  have cg : ∀ φ : Int → ℝ, ∀ v ∈ Spec.verts p.dims, Spec.curl m (Spec.grad m φ) v = 0 := fun φ v hvv =>
    curl_grad hg.toGeo hy φ (Finset.mem_Ico.mp hvv).1 (Finset.mem_Ico.mp hvv).2
  have cross : ∀ φ ψ : Int → ℝ, ∑ e ∈ Spec.edges p.dims, Spec.dcE m e * Spec.dvE m e *
      (Spec.grad m φ e * Spec.gradT m ψ e) = 0 := fun φ ψ => by
    rw [← adjointV hg.toGeo ψ (Spec.grad m φ)]
    exact Finset.sum_eq_zero fun v hvv => by rw [cg φ v hvv, mul_zero, mul_zero]
  have lap : ∀ x : Int → ℝ, ∀ g : Int → ℝ, ∑ e ∈ Spec.edges p.dims, Spec.dcE m e * Spec.dvE m e *
      (Spec.vecLap m x e * g e) = ∑ e ∈ Spec.edges p.dims, Spec.dcE m e * Spec.dvE m e *
      (Spec.grad m (Spec.div m x) e * g e) - ∑ e ∈ Spec.edges p.dims, Spec.dcE m e * Spec.dvE m e *
      (Spec.gradT m (Spec.curl m x) e * g e) := fun x g => by
    rw [← Finset.sum_sub_distrib]
    refine Finset.sum_congr rfl fun e hee => ?_
    have hee := Finset.mem_Ico.mp hee
    rw [vecLap_eq hg.toGeo x hee.1 hee.2]; ring
  have p1 : ∑ e ∈ Spec.edges p.dims, Spec.dcE m e * Spec.dvE m e *
      (u e * Spec.grad m (Spec.div m (Spec.vecLap m u)) e) =
      ∑ e ∈ Spec.edges p.dims, Spec.dcE m e * Spec.dvE m e * Spec.grad m (Spec.div m u) e ^ 2 := by
    have a1 := adjoint hg (Spec.div m (Spec.vecLap m u)) u
    have a2 := adjoint hg (Spec.div m u) (Spec.vecLap m u)
    have a3 := lap u (Spec.grad m (Spec.div m u))
    simp only [mul_comm (Spec.gradT m (Spec.curl m u) _), cross, sub_zero] at a3
    have c1 : ∑ c ∈ Spec.cells p.dims, Spec.areaC m c * (Spec.div m (Spec.vecLap m u) c * Spec.div m u c) =
        ∑ c ∈ Spec.cells p.dims, Spec.areaC m c * (Spec.div m u c * Spec.div m (Spec.vecLap m u) c) :=
      Finset.sum_congr rfl fun c _ => by ring
    have c2 : ∑ e ∈ Spec.edges p.dims, Spec.dcE m e * Spec.dvE m e * Spec.grad m (Spec.div m u) e ^ 2 =
        ∑ e ∈ Spec.edges p.dims, Spec.dcE m e * Spec.dvE m e *
          (Spec.grad m (Spec.div m u) e * Spec.grad m (Spec.div m u) e) :=
      Finset.sum_congr rfl fun c _ => by ring
    rw [c2, ← a3]
    linarith
  have p2 : ∑ e ∈ Spec.edges p.dims, Spec.dcE m e * Spec.dvE m e *
      (u e * Spec.gradT m (Spec.curl m (Spec.vecLap m w)) e) =
      -∑ e ∈ Spec.edges p.dims, Spec.dcE m e * Spec.dvE m e *
        (Spec.gradT m (Spec.curl m u) e * Spec.gradT m (Spec.curl m w) e) := by
    have a1 := adjointV hg.toGeo (Spec.curl m (Spec.vecLap m w)) u
    have a2 := adjointV hg.toGeo (Spec.curl m u) (Spec.vecLap m w)
    have a3 := lap w (Spec.gradT m (Spec.curl m u))
    rw [cross, zero_sub] at a3
    have c1 : ∑ v ∈ Spec.verts p.dims, Spec.areaT m v * (Spec.curl m (Spec.vecLap m w) v * Spec.curl m u v) =
        ∑ v ∈ Spec.verts p.dims, Spec.areaT m v * (Spec.curl m u v * Spec.curl m (Spec.vecLap m w) v) :=
      Finset.sum_congr rfl fun c _ => by ring
    simp only [mul_comm (Spec.gradT m (Spec.curl m w) _)] at a3
    linarith
  have q : ∀ e ∈ Spec.edges p.dims, Spec.dcE m e * Spec.dvE m e * (m.real (.vn_edge .state) 0 e k *
      (m1.real (.vn_edge .tend) 0 e k - m1'.real (.vn_edge .tend) 0 e k)) = -(sw.prm.visc_del4 *
        (Spec.dcE m e * Spec.dvE m e * (u e * Spec.grad m (Spec.div m (Spec.vecLap m u)) e) -
          Spec.dcE m e * Spec.dvE m e * (u e * Spec.gradT m (Spec.curl m (Spec.vecLap m w)) e))) :=
    fun e hee => by
      have hee := Finset.mem_Ico.mp hee
      rw [hT e hee.1 hee.2, show m.real (.vn_edge .state) 0 e k = u e from rfl]; ring
  rw [Finset.sum_congr rfl q, Finset.sum_neg_distrib, ← Finset.mul_sum, Finset.sum_sub_distrib, p1, p2,
    sub_neg_eq_add, ← Finset.sum_add_distrib]
  simp only [mul_add]

theorem stripe_div (h : Geo2 p.nx p.ny p.dims.nlayers dc m.mesh) {c : Int} (h0 : 0 ≤ c)
    (h1 : c < p.dims.ncells) : Spec.div m stripe c = 0 := by
  rw [spec_div h _ ⟨h0, h1⟩]
  simp [Dv, stripe, E_mod]

theorem stripe_gradT (hv : RunValid p) (h : Geo p.nx p.ny p.dims.nlayers dc m.mesh) :
    0 < ∑ e ∈ Spec.edges p.dims, Spec.dcE m e * Spec.dvE m e * Spec.gradT m (Spec.curl m stripe) e ^ 2 := by
  have len : ∀ e ∈ Spec.edges p.dims, 0 < Spec.dcE m e * Spec.dvE m e := fun v hv =>
    dcdv_pos h (Finset.mem_Ico.mp hv).1 (Finset.mem_Ico.mp hv).2
  refine lt_of_le_of_ne (Finset.sum_nonneg fun e he => mul_nonneg (len e he).le (sq_nonneg _)) fun hz => ?_
  simp only [pow_two] at hz
  have a2 := sq_sum_zero len hz.symm
  have a3 := sq_sum_zero (fun v hv => areaT_pos h (Finset.mem_Ico.mp hv).1 (Finset.mem_Ico.mp hv).2)
    ((adjointV h (Spec.curl m stripe) stripe).trans
      (Finset.sum_eq_zero fun e he => by rw [a2 e he, mul_zero, mul_zero]))
  exact stripe_curl hv h (a3 0 (Finset.mem_Ico.mpr ⟨le_rfl, nvertices_pos hv⟩))

/-- With the explicit-SIMD build hyperviscosity is not a dissipation: on every mesh with an even number of
rows, with vectors of two or more layers and any positive coefficient, there is a state of uniform
thickness to whose kinetic energy, summed over all edges and layers, the term adds. -/
theorem C97_simd_hyper_grows (hv : RunValid p) (hx : 2 ≤ p.nx) (hy : p.ny % 2 = 0) (hvl : 2 ≤ p.vl)
    (hL : 1 ≤ p.nlayers) (hdc : 0 < dc) (prm : Params ℝ) {sw : SWModel ℝ} (hn : sw.NoHook)
    (hen : sw.en_vhyper = true) (hdis : sw.prm.disable_vn = false) (hvisc : 0 < sw.prm.visc_del4)
    (split : Bool) (t t' : ℝ) :
    ∃ m m1 m1' : Mem ℝ, Ready p dc prm m ∧ (∀ c k, m.real (.h_cell .state) 0 c k = 1) ∧
      Exec p.dims (compute_tendency p.dims ⟨simdKernels p.dims.vl p.dims.vl, split⟩ sw .replace .tend
        .state t) m m1 ∧
      Exec p.dims (compute_tendency p.dims ⟨simdKernels p.dims.vl p.dims.vl, split⟩
        { sw with en_vhyper := false } .replace .tend .state t') m m1' ∧
      0 < ∑ k ∈ Spec.layers p.dims, ∑ e ∈ Spec.edges p.dims, Spec.dcE m e * Spec.dvE m e *
        (m.real (.vn_edge .state) 0 e k *
          (m1.real (.vn_edge .tend) 0 e k - m1'.real (.vn_edge .tend) 0 e k)) := by
  obtain ⟨m, -, m1, hr, hxx, -, he⟩ := simd_execs hv dc prm hn split split t (twoLayers (-1 / 2))
  obtain ⟨hd, hc⟩ := ready_ok hv hr
  obtain ⟨m1', h'⟩ := (C54_simd_safe_deterministic hd hc (sw := { sw with en_vhyper := false }) hn).1
    .replace .tend .state t' (by decide)
  have he' := ((h' split).2 m1').mpr rfl
  have hy2 : 2 ≤ p.ny := by have := hv.toValid.ny_pos; omega
  have hg := Ready.geo2 hr hv.toValid hx hy2 hdc
  refine ⟨m, m1, m1', hr, fun c k => congrFun (congrFun (congrArg Fld.h hxx) c) k, he, he', ?_⟩
  have ev : ∀ e k, m.real (.vn_edge .state) 0 e k = (twoLayers (-1 / 2)).vn e k := fun e k =>
    congrFun (congrFun (congrArg Fld.vn hxx) e) k
  set G : ℝ := ∑ e ∈ Spec.edges p.dims, Spec.dcE m e * Spec.dvE m e *
    Spec.gradT m (Spec.curl m stripe) e ^ 2 with hG
  have G0 : 0 < G := stripe_gradT hv hg.toGeo
  -- amplitude of layer `k`
  set a : Int → ℝ := fun k => if k = 0 then -1 / 2 else if k = 1 then 1 else 0 with ha
  have eu : ∀ k, (fun e => m.real (.vn_edge .state) 0 e k) = fun e => a k * stripe e := fun k => by
    funext e
    rw [ev]
    simp only [twoLayers, ha]
    split_ifs <;> ring
  have cs : ∀ (x : ℝ) v, Spec.curl m (fun e => x * stripe e) v = x * Spec.curl m stripe v := fun x v => by
    unfold Spec.curl
    rw [← mul_div_assoc, Finset.mul_sum]
    congr 1
    exact Finset.sum_congr rfl fun j _ => by ring
  have gs : ∀ (x : ℝ) e, Spec.gradT m (Spec.curl m fun e => x * stripe e) e =
      x * Spec.gradT m (Spec.curl m stripe) e := fun x e => by
    unfold Spec.gradT
    rw [cs, cs]; ring
  have gd : ∀ (x : ℝ) e, 0 ≤ e → e < p.dims.nedges →
      Spec.grad m (Spec.div m fun e => x * stripe e) e = 0 := fun x e e0 e1 => by
    rw [grad_congr hc (ψ := fun _ => 0) (fun c c0 c1 => by
      rw [div_smul, stripe_div hg c0 c1, mul_zero]) e0 e1]
    simp [Spec.grad]
  have W : ∀ k ∈ Spec.layers p.dims, ∑ e ∈ Spec.edges p.dims, Spec.dcE m e * Spec.dvE m e *
      (m.real (.vn_edge .state) 0 e k *
        (m1.real (.vn_edge .tend) 0 e k - m1'.real (.vn_edge .tend) 0 e k)) =
      -(sw.prm.visc_del4 * (a k * a (k / p.dims.vl * p.dims.vl) * G)) := fun k hk => by
    have hk := Finset.mem_Ico.mp hk
    rw [C97_simd_hyper_work hv hx hy hdc hr hn hen hdis he he' hk.1 hk.2, eu, eu, hG,
      Finset.mul_sum (s := Spec.edges p.dims) (a := a k * a (k / p.dims.vl * p.dims.vl))]
    congr 2
    refine Finset.sum_congr rfl fun e hee => ?_
    have hee := Finset.mem_Ico.mp hee
    rw [gd _ _ hee.1 hee.2, gs, gs]; ring
  rw [Finset.sum_congr rfl W]
  have l2 := two_le_layers hvl hL
  have v1 : (1 : Int) / p.dims.vl * p.dims.vl = 0 := by
    rw [show p.dims.vl = p.vl from rfl, Int.ediv_eq_zero_of_lt (by omega) (by omega), zero_mul]
  have sub : ({0, 1} : Finset Int) ⊆ Spec.layers p.dims := by
    intro k hk
    rw [Finset.mem_insert, Finset.mem_singleton] at hk
    exact Finset.mem_Ico.mpr (by omega)
  have out : ∀ k ∈ Spec.layers p.dims, k ∉ ({0, 1} : Finset Int) →
      -(sw.prm.visc_del4 * (a k * a (k / p.dims.vl * p.dims.vl) * G)) = 0 := fun k _ hk => by
    rw [Finset.mem_insert, Finset.mem_singleton, not_or] at hk
    simp [ha, hk.1, hk.2]
  rw [← Finset.sum_subset sub out, Finset.sum_pair (by norm_num), v1, Int.zero_ediv, zero_mul]
  have a0 : a 0 = -1 / 2 := by simp [ha]
  have a1 : a 1 = 1 := by simp [ha]
  rw [a0, a1]
  have := mul_pos hvisc G0
  nlinarith

/-- The explicit-SIMD tendency in full: thickness and tracers as in the default build (C51), velocity with
the vorticity part of the hyperviscosity taken from the first layer of the vector. -/
theorem C97_simd_formula {d : Dims} {m m1 : Mem ℝ} (hd : DimsOK d) (hc : ConnOK d m)
    {sw : SWModel ℝ} (hn : sw.NoHook) {split : Bool} {tn st : StateId} (hne : st ≠ tn) {t : ℝ}
    (he : Exec d (compute_tendency d ⟨simdKernels d.vl d.vl, split⟩ sw .replace tn st t) m m1) :
    (sw.prm.disable_h = false → ∀ c k, 0 ≤ c → c < d.ncells → 0 ≤ k → k < d.nlayers →
      m1.real (.h_cell tn) 0 c k = Spec.thicknessTend m sw (fun i => m.real (.h_cell st) 0 i k)
        (fun i => m.real (.vn_edge st) 0 i k) c) ∧
    (sw.prm.disable_vn = false → ∀ e k, 0 ≤ e → e < d.nedges → 0 ≤ k → k < d.nlayers →
      m1.real (.vn_edge tn) 0 e k = Spec.simdVelocityTend m sw d.vl k
        (fun i => m.real (.h_cell st) 0 i k) (fun k i => m.real (.vn_edge st) 0 i k) e) ∧
    (∀ l c k, 0 ≤ l → l < d.ntracers → 0 ≤ c → c < d.ncells → 0 ≤ k → k < d.nlayers →
      m1.real (.tr_cell tn) l c k = Spec.tracerTend m sw (fun i => m.real (.h_cell st) 0 i k)
        (fun i => m.real (.vn_edge st) 0 i k) (fun i => m.real (.tr_cell st) l i k) c) := by
  obtain ⟨-, a⟩ := (simdSetup hd hc (hookOK_noHook hn d m)).tendency hne he
  have tv := simd_tend_val (m := m) d sw .replace t (m.fld tn) (m.fld st)
  refine ⟨fun h c k c0 c1 k0 k1 => ?_, fun h c k c0 c1 k0 k1 => ?_, fun l c k l0 l1 c0 c1 k0 k1 => ?_⟩
  · have b := a.h c k c0 c1 k0 k1
    rw [tv.1, if_neg (by simp [h]), if_pos rfl, zero_add] at b
    exact b
  · have b := a.vn c k c0 c1 k0 k1
    rw [tv.2.1, if_neg (by simp [h]), if_pos rfl, zero_add] at b
    exact b
  · have b := a.tr l c k l0 l1 c0 c1 k0 k1
    rw [tv.2.2, if_pos rfl, zero_add] at b
    exact b

/-- the growth on a mesh of 24 cells with vectors of two layers -/
example : ∃ m m1 m1' : Mem ℝ, ∃ prm : Params ℝ, Ready p46 1 prm m ∧
      Exec p46.dims (compute_tendency p46.dims ⟨simdKernels p46.dims.vl p46.dims.vl, false⟩
        (SWModel.ofParams prm) .replace .tend .state 0) m m1 ∧
      0 < ∑ k ∈ Spec.layers p46.dims, ∑ e ∈ Spec.edges p46.dims, Spec.dcE m e * Spec.dvE m e *
        (m.real (.vn_edge .state) 0 e k *
          (m1.real (.vn_edge .tend) 0 e k - m1'.real (.vn_edge .tend) 0 e k)) := by
  obtain ⟨prm, hprm⟩ : ∃ q : Params ℝ, q = ⟨1, 10, 0, 1, 0, 0, false, false⟩ := ⟨_, rfl⟩
  obtain ⟨m, m1, m1', hr, -, he, -, h⟩ := C97_simd_hyper_grows p46_run (by simp [p46]) (by decide) (by decide)
    (by decide) one_pos prm (noHook_ofParams prm) (by rw [hprm]; simp [SWModel.ofParams])
    (by rw [hprm]; rfl) (by rw [hprm]; exact one_pos) false 0 0
  exact ⟨m, m1, m1', prm, hr, he, h⟩

/-- a run of the explicit-SIMD build with hyperviscosity, from a state with varying thickness and a
uniform tracer -/
example : ∃ (m m1 : Mem ℝ) (prm : Params ℝ), Ready p46t 1 prm m ∧ 2 ≤ p46t.nx ∧ 2 ≤ p46t.ny ∧
    (SWModel.ofParams prm).en_vhyper = true ∧ prm.disable_h = false ∧
    Exec p46t.dims ((Stepper.lsrk 1).ctor p46t.dims ++ (Stepper.lsrk 1).run p46t.dims
      ⟨simdKernels p46t.dims.vl p46t.dims.vl, false⟩ (SWModel.ofParams prm) [(0, 1)]) m m1 ∧
    (∀ st m', CallsAt p46t.dims ⟨simdKernels p46t.dims.vl p46t.dims.vl, false⟩ (SWModel.ofParams prm)
      (.lsrk 1) [(0, 1)] m st m' → ∀ c k, 0 ≤ c → c < p46t.dims.ncells → 0 ≤ k →
        k < p46t.dims.nlayers → m'.real (.h_cell st) 0 c k ≠ 0) ∧
    (∀ l c k, m.real (.tr_cell .state) l c k = (l + k) * m.real (.h_cell .state) 0 c k) ∧
    m.real (.h_cell .state) 0 5 2 = 26 ∧ m.real (.vn_edge .state) 0 7 2 = 7 := by
  obtain ⟨prm, hprm⟩ : ∃ q : Params ℝ, q = ⟨1, 10, 0, 1, 0, 0, false, false⟩ := ⟨_, rfl⟩
  obtain ⟨m, hr, hx, -⟩ := exists_ready p46t_run.toValid (1 : ℝ) prm
    ⟨fun c _ => 1 + (c : ℝ) ^ 2, fun e _ => e, fun l c k => (l + k) * (1 + (c : ℝ) ^ 2)⟩ zeroFld
  obtain ⟨hd, hc⟩ := ready_ok p46t_run hr
  obtain ⟨m1, h⟩ := (C54_simd_safe_deterministic hd hc (noHook_ofParams prm)).2 (.lsrk 1) [(0, 1)]
  have eh : ∀ c k, m.real (.h_cell .state) 0 c k = 1 + (c : ℝ) ^ 2 := fun c k =>
    congrFun (congrFun (congrArg Fld.h hx) c) k
  refine ⟨m, m1, prm, hr, by simp [p46t], by simp [p46t], by rw [hprm]; simp [SWModel.ofParams],
    by rw [hprm], ((h false).2 m1).mpr rfl, fun st m' hcall c k _ _ _ _ => ?_, fun l c k => ?_, ?_, ?_⟩
  · obtain ⟨rfl, e⟩ := callsAt_euler hcall
    have : m'.real (.h_cell .state) 0 c k = m.real (.h_cell .state) 0 c k :=
      congrFun (congrFun (congrArg Fld.h e) c) k
    rw [this, eh]
    positivity
  · rw [eh]
    exact congrFun (congrFun (congrFun (congrArg Fld.tr hx) l) c) k
  · rw [eh]; norm_num
  · exact (congrFun (congrFun (congrArg Fld.vn hx) 7) 2).trans (by norm_num)

end Props
end
end Omega
