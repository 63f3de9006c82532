import Verif.Refine.SimdOps
import Verif.Refine.Rel
import Verif.Props.Dissipation
import Verif.Props.TracerLinear

/-!
# C28, C31, C53, C54: the explicit-SIMD build against the default build

`simdKernels vl vl` are the kernels compiled with `OMEGA_KOKKOS_SIMD`, with vectors of the length of a
chunk.  Safety and determinism hold in any arithmetic.  The two builds agree at layers where the
hyperviscosity bug is not visible, in any arithmetic with a commutative product when the Laplacian
terms are off, and with an associative product otherwise.  With hyperviscosity and vectors of two or
more layers they disagree, and the exact condition is given.
-/

set_option linter.unusedVariables false
set_option linter.unusedSectionVars false

namespace Omega

namespace Refine

open Prog Model

variable {R : Type} [Scalar R]

/-- the functional system of the explicit-SIMD build on the mesh in `m` -/
def simdSys (d : Dims) (sw : SWModel R) (H : HookFn R) (m : Mem R) : Sys R :=
  ⟨simdF, d.vl, m.mesh, m.sl .f_vertex 0 0, sw, H⟩

theorem simdSetup {d : Dims} {m : Mem R} (hd : DimsOK d) (hc : ConnOK d m) {sw : SWModel R}
    {H : HookFn R} (hH : HookOK d sw H m) :
    Setup d (simdKernels d.vl d.vl) (simdSys d sw H m) m :=
  ⟨hd, hc, simd_refines, simdF_local, rfl, rfl, rfl, hH⟩

/-- the kernels of the default build and of the `OMEGA_KOKKOS_SIMD` build -/
def buildK (simd : Bool) (vl : Int) : Kernels R := if simd then simdKernels vl vl else defaultKernels vl

/-- the functional system of either build -/
def buildSys (simd : Bool) (d : Dims) (sw : SWModel R) (H : HookFn R) (m : Mem R) : Sys R :=
  if simd then simdSys d sw H m else genSys d sw H m

theorem buildSetup (simd : Bool) {d : Dims} {m : Mem R} (hd : DimsOK d) (hc : ConnOK d m) {sw : SWModel R}
    {H : HookFn R} (hH : HookOK d sw H m) : Setup d (buildK simd d.vl) (buildSys simd d sw H m) m := by
  cases simd with
  | false => exact genSetup hd hc hH
  | true => exact simdSetup hd hc hH

/-- Configurations whose default builds are related have related explicit-SIMD builds. -/
theorem SysRel.build {R' : Type} [Scalar R'] {ρ : R → R' → Prop} {NZ : R' → Prop} {σ : Ren} {d : Dims}
    {sw : SWModel R} {sw' : SWModel R'} {H : HookFn R} {H' : HookFn R'} {m : Mem R} {m' : Mem R'}
    (h : SysRel ρ NZ σ d (genSys d sw H m) (genSys d sw' H' m')) (hvl : 0 < d.vl) (simd : Bool) :
    SysRel ρ NZ σ d (buildSys simd d sw H m) (buildSys simd d sw' H' m') := by
  cases simd with
  | false => exact h
  | true =>
    exact ⟨h.sc, h.ren, .inr ⟨rfl, rfl, rfl, hvl⟩, h.mesh, h.ok, h.f, h.grav, h.visc2, h.visc4, h.eddy2, h.eddy4,
      h.dis_h, h.dis_vn, h.en_hadv, h.en_pv, h.en_ke, h.en_ssh, h.en_vdiff, h.en_vhyper, h.en_thadv, h.en_tdiff,
      h.en_thyper, h.hookH, h.hookV⟩

end Refine

namespace Props

open Prog Model Refine

section
variable {R : Type} [Scalar R]

/-- The explicit-SIMD build reaches no undefined behaviour (in particular no vector access beyond an
array) and no data race under any interleaving, has exactly one possible result, and the result does
not depend on how the launches are fused. -/
theorem C54_simd_safe_deterministic {d : Dims} {m : Mem R} (hd : DimsOK d) (hc : ConnOK d m)
    {sw : SWModel R} (hn : sw.NoHook) :
    (∀ mode tn st t, st ≠ tn → ∃ m', ∀ split,
      Safe d (compute_tendency d ⟨simdKernels d.vl d.vl, split⟩ sw mode tn st t) m ∧
      ∀ m'', Exec d (compute_tendency d ⟨simdKernels d.vl d.vl, split⟩ sw mode tn st t) m m'' ↔
        m'' = m') ∧
    (∀ (stp : Stepper) sched, ∃ m', ∀ split,
      Safe d (stp.ctor d ++ stp.run d ⟨simdKernels d.vl d.vl, split⟩ sw sched) m ∧
      ∀ m'', Exec d (stp.ctor d ++ stp.run d ⟨simdKernels d.vl d.vl, split⟩ sw sched) m m'' ↔
        m'' = m') := by
  have hS := simdSetup hd hc (hookOK_noHook hn d m)
  refine ⟨fun mode tn st t hne => ?_, fun stp sched => ?_⟩
  · obtain ⟨m', r, -⟩ := compute_tendency_runs hS mode hne t
    exact ⟨m', fun split => ⟨(r split).1, (r split).2⟩⟩
  · obtain ⟨m', r, -⟩ := new_run_runs hS stp sched
    exact ⟨m', fun split => ⟨(r split).1, (r split).2⟩⟩

/-- The hypotheses under which the two builds agree at layer `k`: the product commutes; it is also
associative, or the Laplacian terms (whose factors the SIMD code takes in another order) are off; and
the hyperviscosity is off, or `k` is the first layer of its vector. -/
structure SimdOK (R : Type) [Scalar R] (d : Dims) (sw : SWModel R) (k : Int) : Prop where
  comm : ∀ a b : R, a * b = b * a
  assoc : (∀ a b c : R, a * b * c = a * (b * c)) ∨ sw.en_vdiff = false ∧ sw.en_tdiff = false
  hyper : sw.en_vhyper = false ∨ k % d.vl = 0

theorem simd_tend {d : Dims} {sw : SWModel R} {H : HookFn R} {m : Mem R} {k : Int}
    (ok : SimdOK R d sw k) (mode : AddMode) (t : R) (o s : Fld R) :
    SameLayer d k ((simdSys d sw H m).tend mode t o s) ((genSys d sw H m).tend mode t o s) := by
  obtain ⟨hcomm, hassoc, hhyp⟩ := ok
  have e1 : SFn.nrv (R := R) = Fn.nrv := by
    funext M h v i; exact hcomm _ _
  have e2 : SFn.pv (R := R) = Fn.pv := by
    funext M a b c e i; unfold SFn.pv Fn.pv; simp only [hcomm half]
  have e3 : SFn.thadv (R := R) = Fn.thadv := by
    funext M a b c i; unfold SFn.thadv Fn.thadv; simp only [hcomm half]
  have hkk : k % d.vl = 0 → k / d.vl * d.vl = k := fun h => by
    have := Int.mul_ediv_add_emod k d.vl; rw [h, add_zero, mul_comm] at this; exact this
  have nrvE : ∀ k, (simdSys d sw H m).nrvE s k = (genSys d sw H m).nrvE s k := fun k => by
    show Fn.vedge m.mesh (SFn.nrv m.mesh _ _) = _
    rw [e1]; rfl
  constructor
  · intro c _ _; rfl
  · intro e _ _
    have hv : sw.en_vdiff = true → SFn.vdiff (R := R) = Fn.vdiff := fun h => by
      rcases hassoc with h' | h'
      · funext M a kk x y i
        unfold SFn.vdiff Fn.vdiff
        congr 1
        rw [h', hcomm, h', hcomm (M.sdel2 i), h']
      · rw [h'.1] at h; simp at h
    have hd2 : sw.en_vhyper = true → (simdSys d sw H m).d2V s k = (genSys d sw H m).d2V s k :=
      fun h => by
        rcases hhyp with h' | h'
        · rw [h'] at h; simp at h
        · show Fn.rvort m.mesh ((genSys d sw H m).d2E s (k / d.vl * d.vl)) = _
          rw [hkk h']; rfl
    have key : (simdSys d sw H m).termsVn s mode (o.vn e k) e k =
        (genSys d sw H m).termsVn s mode (o.vn e k) e k := by
      unfold Sys.termsVn
      rw [nrvE]
      have hp : (simdSys d sw H m).F.pv = (genSys d sw H m).F.pv := e2
      rw [hp]
      have t1 : ∀ x : R, (if (simdSys d sw H m).sw.en_vdiff = true then
          x + (simdSys d sw H m).F.vdiff (simdSys d sw H m).M (simdSys d sw H m).sw.prm.visc_del2 k
            ((simdSys d sw H m).divC s k) ((simdSys d sw H m).rv s k) e else x) =
          if (genSys d sw H m).sw.en_vdiff = true then
          x + (genSys d sw H m).F.vdiff (genSys d sw H m).M (genSys d sw H m).sw.prm.visc_del2 k
            ((genSys d sw H m).divC s k) ((genSys d sw H m).rv s k) e else x := fun x => by
        by_cases h : sw.en_vdiff = true
        · have : (simdSys d sw H m).F.vdiff = (genSys d sw H m).F.vdiff := hv h
          rw [this]; rfl
        · exact (if_neg h).trans (if_neg h).symm
      have t2 : ∀ x : R, (if (simdSys d sw H m).sw.en_vhyper = true then
          x - (simdSys d sw H m).F.vhyper (simdSys d sw H m).M (simdSys d sw H m).sw.prm.visc_del4 k
            ((simdSys d sw H m).d2C s k) ((simdSys d sw H m).d2V s k) e else x) =
          if (genSys d sw H m).sw.en_vhyper = true then
          x - (genSys d sw H m).F.vhyper (genSys d sw H m).M (genSys d sw H m).sw.prm.visc_del4 k
            ((genSys d sw H m).d2C s k) ((genSys d sw H m).d2V s k) e else x := fun x => by
        by_cases h : sw.en_vhyper = true
        · rw [hd2 h]; rfl
        · exact (if_neg h).trans (if_neg h).symm
      beta_reduce
      rw [t1, t2]
      rfl
    simp only [Sys.tend, key]
    rfl
  · intro l c _ _ _ _
    have hv : sw.en_tdiff = true → SFn.tdiff (R := R) = Fn.tdiff := fun h => by
      rcases hassoc with h' | h'
      · funext M a x y i
        unfold SFn.tdiff Fn.tdiff
        congr 1
        funext j s
        congr 2
        rw [h', hcomm (M.sdel2 _), ← h']
      · rw [h'.2] at h; simp at h
    have key : (simdSys d sw H m).termsTr s mode (o.tr l c k) l c k =
        (genSys d sw H m).termsTr s mode (o.tr l c k) l c k := by
      unfold Sys.termsTr
      have hp : (simdSys d sw H m).F.thadv = (genSys d sw H m).F.thadv := e3
      rw [hp]
      have t1 : ∀ x : R, (if (simdSys d sw H m).sw.en_tdiff = true then
          x + (simdSys d sw H m).F.tdiff (simdSys d sw H m).M (simdSys d sw H m).sw.prm.eddy_diff2
            ((simdSys d sw H m).ntrC s l k) ((simdSys d sw H m).flux s k) c else x) =
          if (genSys d sw H m).sw.en_tdiff = true then
          x + (genSys d sw H m).F.tdiff (genSys d sw H m).M (genSys d sw H m).sw.prm.eddy_diff2
            ((genSys d sw H m).ntrC s l k) ((genSys d sw H m).flux s k) c else x := fun x => by
        by_cases h : sw.en_tdiff = true
        · have : (simdSys d sw H m).F.tdiff = (genSys d sw H m).F.tdiff := hv h
          rw [this]; rfl
        · exact (if_neg h).trans (if_neg h).symm
      beta_reduce
      rw [t1]
      rfl
    simp only [Sys.tend, key]

theorem simd_rel {d : Dims} {sw : SWModel R} {H : HookFn R} {m : Mem R} {k : Int}
    (hS : SysOK d (genSys d sw H m)) (h0 : 0 ≤ k) (h1 : k < d.nlayers) (ok : SimdOK R d sw k) :
    StepRel (simdSys d sw H m) (genSys d sw H m) (SameLayer d k) (SameLayer d k) where
  tend ho hs := (simd_tend ok _ _ _ _).trans ((layer_rel hS rfl h0 h1).tend ho hs)
  map a h := (layer_rel hS rfl h0 h1).map a h
  axpy a h h' := (layer_rel hS rfl h0 h1).axpy a h h'

/-- Where `SimdOK` holds, the explicit-SIMD build and the default build, started in the same memory,
compute identical tendencies and identical states after any number of steps at layer `k`.
(Partial: the property asks for this without `SimdOK.hyper`; that is false, see `C28_simd_differs`.) -/
theorem C28_simd_agrees_partial {d : Dims} {m : Mem R} (hd : DimsOK d) (hc : ConnOK d m)
    {sw : SWModel R} (hn : sw.NoHook) (split split' : Bool) {k : Int} (h0 : 0 ≤ k)
    (h1 : k < d.nlayers) (ok : SimdOK R d sw k) :
    (∀ mode tn st t m1 m1', st ≠ tn →
      Exec d (compute_tendency d ⟨defaultKernels d.vl, split⟩ sw mode tn st t) m m1 →
      Exec d (compute_tendency d ⟨simdKernels d.vl d.vl, split'⟩ sw mode tn st t) m m1' →
      SameLayer d k (m1'.fld tn) (m1.fld tn)) ∧
    (∀ (stp : Stepper) sched m1 m1',
      Exec d (stp.ctor d ++ stp.run d ⟨defaultKernels d.vl, split⟩ sw sched) m m1 →
      Exec d (stp.ctor d ++ stp.run d ⟨simdKernels d.vl d.vl, split'⟩ sw sched) m m1' →
      SameLayer d k (m1'.fld .state) (m1.fld .state)) := by
  have hS := genSetup hd hc (hookOK_noHook hn d m)
  have hS' := simdSetup hd hc (hookOK_noHook hn d m)
  have rel := simd_rel hS.sys h0 h1 ok
  have sym : ∀ {x y : Fld R}, EqFld d x y → SameLayer d k y x := fun h =>
    SameLayer.of_eqFld h0 h1 h.symm
  have rfl' : ∀ x : Fld R, SameLayer d k x x := fun x => SameLayer.of_eqFld h0 h1 (EqFld.refl d x)
  refine ⟨fun mode tn st t m1 m1' hne he he' => ?_, fun stp sched m1 m1' he he' => ?_⟩
  · obtain ⟨-, v⟩ := hS.tendency hne he
    obtain ⟨-, v'⟩ := hS'.tendency hne he'
    exact (SameLayer.of_eqFld h0 h1 v').trans ((rel.tend (rfl' _) (rfl' _)).trans (sym v))
  · obtain ⟨-, -, v⟩ := hS.newRun he
    obtain ⟨-, -, v'⟩ := hS'.newRun he'
    exact (SameLayer.of_eqFld h0 h1 v').trans
      ((rel.run stp sched (p := (zeroFld, m.fld .state)) (q := (zeroFld, m.fld .state))
        (rfl' _) (rfl' _)).2.trans (sym v))

end

/-- without the hyperviscosity, every layer, in exact arithmetic -/
example (prm : Params ℝ) (k : Int) :
    SimdOK ℝ p46.dims { SWModel.ofParams prm with en_vhyper := false } k :=
  ⟨mul_comm, .inl mul_assoc, .inl rfl⟩

/-- with all terms, layer 2 of `p46` (vectors of two layers), in exact arithmetic with an undefined
value -/
example (prm : Params (Option ℝ)) : SimdOK (Option ℝ) p46.dims (SWModel.ofParams prm) 2 := by
  refine ⟨fun a b => ?_, .inl fun a b c => ?_, .inr (by decide)⟩
  · cases a <;> cases b <;> first | rfl | (rw [some_mul, some_mul, mul_comm])
  · cases a <;> cases b <;> cases c <;> first | rfl | (simp only [some_mul, mul_assoc])

noncomputable section

open Hex

variable {p : MeshParams} {dc : ℝ} {m : Mem ℝ}

/-! ### When the hyperviscosity of the two builds agrees -/

theorem curl_on (h : Geo p.nx p.ny p.dims.nlayers dc m.mesh) {u w : Int → ℝ}
    (hu : ∀ e, 0 ≤ e → e < p.dims.nedges → u e = w e) {v : Int} (h0 : 0 ≤ v)
    (h1 : v < p.dims.nvertices) : Spec.curl m u v = Spec.curl m w v := by
  rw [spec_curl h u h0 h1, spec_curl h w h0 h1, Cu_congr h.hnx hu h0 h1]

theorem curl_sub (u w : Int → ℝ) (v : Int) :
    Spec.curl m (fun e => u e - w e) v = Spec.curl m u v - Spec.curl m w v := by
  unfold Spec.curl
  rw [← sub_div, ← Finset.sum_sub_distrib]
  congr 1
  exact Finset.sum_congr rfl fun j _ => by ring

theorem div_sub (u w : Int → ℝ) (c : Int) :
    Spec.div m (fun e => u e - w e) c = Spec.div m u c - Spec.div m w c := by
  unfold Spec.div
  rw [← sub_div, ← Finset.sum_sub_distrib]
  congr 1
  exact Finset.sum_congr rfl fun j _ => by ring

theorem vecLap_sub (u w : Int → ℝ) (e : Int) :
    Spec.vecLap m (fun e => u e - w e) e = Spec.vecLap m u e - Spec.vecLap m w e := by
  unfold Spec.vecLap Spec.grad
  simp only [curl_sub, div_sub]
  ring

theorem voe_range (h : Geo p.nx p.ny p.dims.nlayers dc m.mesh) {e s : Int} (h0 : 0 ≤ e)
    (h1 : e < p.dims.nedges) (s0 : 0 ≤ s) (s1 : s < 2) :
    0 ≤ Spec.vertOf m e s ∧ Spec.vertOf m e s < p.dims.nvertices := by
  have := h.voe e h0 h1 s s0 s1
  rw [show Spec.vertOf m e s = Hex.voe p.nx p.ny e s from this]
  simp only [MeshParams.dims] at h1 ⊢
  exact voe_isVertex h.hnx (by unfold IsCell; omega) (by omega)

/-- a sum of squares with positive weights vanishes only if every term does -/
theorem sq_sum_zero {s : Finset Int} {A f : Int → ℝ} (hA : ∀ i ∈ s, 0 < A i)
    (h : ∑ i ∈ s, A i * (f i * f i) = 0) : ∀ i ∈ s, f i = 0 := by
  intro i hi
  have := (Finset.sum_eq_zero_iff_of_nonneg fun i hi =>
    mul_nonneg (hA i hi).le (mul_self_nonneg (f i))).mp h i hi
  rcases mul_eq_zero.mp this with h | h
  · exact absurd h (hA i hi).ne'
  · exact mul_self_eq_zero.mp h

/-- The tangential gradient of the curl of the vector Laplacian vanishes exactly for irrotational
fields. -/
theorem gradT_curl_vecLap (h : Geo p.nx p.ny p.dims.nlayers dc m.mesh) (hny : p.ny % 2 = 0)
    (u : Int → ℝ) :
    (∀ e, 0 ≤ e → e < p.dims.nedges → Spec.gradT m (Spec.curl m (Spec.vecLap m u)) e = 0) ↔
      ∀ v, 0 ≤ v → v < p.dims.nvertices → Spec.curl m u v = 0 := by
  have hcl : ∀ v, 0 ≤ v → v < p.dims.nvertices → Spec.curl m (Spec.vecLap m u) v =
      -Spec.curl m (Spec.gradT m (Spec.curl m u)) v := fun v h0 h1 => by
    rw [curl_on h (w := fun e => Spec.grad m (Spec.div m u) e - Spec.gradT m (Spec.curl m u) e)
      (fun e g0 g1 => vecLap_eq h u g0 g1) h0 h1, curl_sub, curl_grad h hny _ h0 h1, zero_sub]
  have area : ∀ v ∈ Spec.verts p.dims, 0 < Spec.areaT m v := fun v hv =>
    areaT_pos h (Finset.mem_Ico.mp hv).1 (Finset.mem_Ico.mp hv).2
  have len : ∀ e ∈ Spec.edges p.dims, 0 < Spec.dcE m e * Spec.dvE m e := fun v hv =>
    dcdv_pos h (Finset.mem_Ico.mp hv).1 (Finset.mem_Ico.mp hv).2
  constructor
  · intro hz
    have a1 := sq_sum_zero area ((adjointV h (Spec.curl m (Spec.vecLap m u)) (Spec.vecLap m u)).trans
      (Finset.sum_eq_zero fun e he => by
        have := Finset.mem_Ico.mp he
        rw [hz e this.1 this.2, mul_zero, mul_zero]))
    have a2 : ∀ e ∈ Spec.edges p.dims, Spec.gradT m (Spec.curl m u) e = 0 :=
      sq_sum_zero len ((adjointV h (Spec.curl m u) (Spec.gradT m (Spec.curl m u))).symm.trans
        (Finset.sum_eq_zero fun v hv => by
          have g := Finset.mem_Ico.mp hv
          have := hcl v g.1 g.2
          rw [a1 v hv] at this
          rw [neg_eq_zero.mp this.symm, mul_zero, mul_zero]))
    have a3 := sq_sum_zero area ((adjointV h (Spec.curl m u) u).trans
      (Finset.sum_eq_zero fun e he => by rw [a2 e he, mul_zero, mul_zero]))
    exact fun v h0 h1 => a3 v (Finset.mem_Ico.mpr ⟨h0, h1⟩)
  · intro hz e h0 h1
    have g0 : ∀ e, 0 ≤ e → e < p.dims.nedges → Spec.gradT m (Spec.curl m u) e = 0 :=
      fun e h0 h1 => by
        obtain ⟨b0, b1⟩ := voe_range h h0 h1 (s := 0) (by omega) (by omega)
        obtain ⟨c0, c1⟩ := voe_range h h0 h1 (s := 1) (by omega) (by omega)
        unfold Spec.gradT
        rw [hz _ b0 b1, hz _ c0 c1, sub_zero, zero_div]
    have hv : ∀ v, 0 ≤ v → v < p.dims.nvertices → Spec.curl m (Spec.vecLap m u) v = 0 :=
      fun v h0 h1 => by
        rw [hcl v h0 h1, curl_on h (w := fun _ => 0) g0 h0 h1]
        simp [Spec.curl]
    obtain ⟨b0, b1⟩ := voe_range h h0 h1 (s := 0) (by omega) (by omega)
    obtain ⟨c0, c1⟩ := voe_range h h0 h1 (s := 1) (by omega) (by omega)
    unfold Spec.gradT
    rw [hv _ b0 b1, hv _ c0 c1, sub_zero, zero_div]

/-- velocity tendencies of the two builds, from the same state -/
theorem simd_vn_diff {d : Dims} {sw : SWModel ℝ} (H : HookFn ℝ) (s : Fld ℝ) (o : ℝ) (e k : Int)
    (hen : sw.en_vhyper = true) :
    (simdSys d sw H m).termsVn s .replace o e k = (genSys d sw H m).termsVn s .replace o e k +
      sw.prm.visc_del4 * m.real .edge_mask 0 e k * m.real .mesh_scaling_del4 0 e 0 *
        (Spec.gradT m (Spec.curl m (Spec.vecLap m fun i => s.vn i (k / d.vl * d.vl))) e -
          Spec.gradT m (Spec.curl m (Spec.vecLap m fun i => s.vn i k)) e) := by
  -- both systems with the hyperviscosity switched off
  have ok : SimdOK ℝ d { sw with en_vhyper := false } k := ⟨mul_comm, .inl mul_assoc, .inl rfl⟩
  have d2 : ∀ k, (genSys d sw H m).d2E s k = Spec.vecLap m (fun i => s.vn i k) := fun k => by
    have hrv : (genSys d sw H m).rv s k = Spec.curl m (fun i => s.vn i k) :=
      funext fun c => fn_rvort m _ c
    have hdiv : (genSys d sw H m).divC s k = Spec.div m (fun i => s.vn i k) :=
      funext fun c => fn_div m _ c
    unfold Sys.d2E
    rw [hdiv, hrv]
    exact funext fun e => fn_del2 m _ e
  have base : (simdSys d { sw with en_vhyper := false } H m).termsVn s .replace o e k =
      (genSys d { sw with en_vhyper := false } H m).termsVn s .replace o e k := by
    have e2 : SFn.pv (R := ℝ) = Fn.pv := by
      funext M a b c e i; unfold SFn.pv Fn.pv; simp only [mul_comm half]
    have e1 : SFn.nrv (R := ℝ) = Fn.nrv := by funext M h v i; exact mul_comm _ _
    have e3 : SFn.vdiff (R := ℝ) = Fn.vdiff := by
      funext M a kk x y i; unfold SFn.vdiff Fn.vdiff; ring
    have hF : (simdF : Fns ℝ) = { (simdF : Fns ℝ) with pv := Fn.pv, nrv := Fn.nrv, vdiff := Fn.vdiff } := by
      unfold simdF; rw [e1, e2, e3]
    unfold simdSys
    rw [hF]
    rfl
  have v1 : (simdSys d sw H m).termsVn s .replace o e k =
      (simdSys d { sw with en_vhyper := false } H m).termsVn s .replace o e k -
        Fn.vhyper m.mesh sw.prm.visc_del4 k ((genSys d sw H m).d2C s k)
          (Fn.rvort m.mesh ((genSys d sw H m).d2E s (k / d.vl * d.vl))) e :=
    if_pos hen
  have v2 : (genSys d sw H m).termsVn s .replace o e k =
      (genSys d { sw with en_vhyper := false } H m).termsVn s .replace o e k -
        Fn.vhyper m.mesh sw.prm.visc_del4 k ((genSys d sw H m).d2C s k)
          (Fn.rvort m.mesh ((genSys d sw H m).d2E s k)) e :=
    if_pos hen
  have fr : ∀ u : Int → ℝ, Fn.rvort m.mesh u = Spec.curl m u := fun u => funext fun c => fn_rvort m u c
  rw [v1, v2, base, d2, d2, fr, fr, fn_vhyper, fn_vhyper]
  ring

/-- With hyperviscosity and an even number of rows, the velocity tendencies of the two builds agree at
layer `k` exactly when the vorticity of layer `k` equals the vorticity of the first layer of its
vector. -/
theorem C28_simd_agrees_iff (hv : RunValid p) (hny : p.ny % 2 = 0) (hdc : 0 < dc) {prm : Params ℝ}
    (hr : Ready p dc prm m) {sw : SWModel ℝ} (hn : sw.NoHook) (hen : sw.en_vhyper = true)
    (hdis : sw.prm.disable_vn = false) (hvisc : sw.prm.visc_del4 ≠ 0) {split split' : Bool} {t : ℝ}
    {m1 m1' : Mem ℝ}
    (he : Exec p.dims (compute_tendency p.dims ⟨defaultKernels p.dims.vl, split⟩ sw .replace .tend
      .state t) m m1)
    (he' : Exec p.dims (compute_tendency p.dims ⟨simdKernels p.dims.vl p.dims.vl, split'⟩ sw .replace
      .tend .state t) m m1')
    {k : Int} (k0 : 0 ≤ k) (k1 : k < p.dims.nlayers) :
    (∀ e, 0 ≤ e → e < p.dims.nedges →
      m1'.real (.vn_edge .tend) 0 e k = m1.real (.vn_edge .tend) 0 e k) ↔
    ∀ v, 0 ≤ v → v < p.dims.nvertices →
      Spec.curl m (fun e => m.real (.vn_edge .state) 0 e k) v =
        Spec.curl m (fun e => m.real (.vn_edge .state) 0 e (k / p.dims.vl * p.dims.vl)) v := by
  obtain ⟨hd, hc⟩ := ready_ok hv hr
  have hg := Ready.geo hr hv.toValid hdc
  obtain ⟨-, a⟩ := (genSetup hd hc (hookOK_noHook hn p.dims m)).tendency (by decide) he
  obtain ⟨-, a'⟩ := (simdSetup hd hc (hookOK_noHook hn p.dims m)).tendency (by decide) he'
  set u : Int → ℝ := fun e => m.real (.vn_edge .state) 0 e k with hu
  set w : Int → ℝ := fun e => m.real (.vn_edge .state) 0 e (k / p.dims.vl * p.dims.vl) with hw
  have key : ∀ e, 0 ≤ e → e < p.dims.nedges →
      m1'.real (.vn_edge .tend) 0 e k = m1.real (.vn_edge .tend) 0 e k + sw.prm.visc_del4 *
        Spec.gradT m (Spec.curl m (Spec.vecLap m fun i => w i - u i)) e := fun e h0 h1 => by
    have b := a.vn e k h0 h1 k0 k1
    have b' := a'.vn e k h0 h1 k0 k1
    simp only [Sys.tend] at b b'
    rw [if_neg (by simp [genSys, hdis])] at b
    rw [if_neg (by simp [simdSys, hdis]), simd_vn_diff _ _ _ _ _ hen] at b'
    obtain ⟨q1, -, q2⟩ := mask_one hg h0 h1 k0 k1
    have hl : Spec.gradT m (Spec.curl m (Spec.vecLap m fun i => w i - u i)) e =
        Spec.gradT m (Spec.curl m (Spec.vecLap m w)) e -
          Spec.gradT m (Spec.curl m (Spec.vecLap m u)) e := by
      have : (Spec.vecLap m fun i => w i - u i) = fun e => Spec.vecLap m w e - Spec.vecLap m u e :=
        funext fun e => vecLap_sub w u e
      rw [this]
      unfold Spec.gradT
      simp only [curl_sub]
      ring
    rw [q1, q2] at b'
    rw [hl]
    refine b'.trans ?_
    rw [show m1.real (.vn_edge .tend) 0 e k = _ from b]
    simp only [simdSys, genSys, noHook, Mem.fld]
    rw [← hu, ← hw]
    ring
  have zero : (∀ e, 0 ≤ e → e < p.dims.nedges →
      m1'.real (.vn_edge .tend) 0 e k = m1.real (.vn_edge .tend) 0 e k) ↔
      ∀ e, 0 ≤ e → e < p.dims.nedges →
        Spec.gradT m (Spec.curl m (Spec.vecLap m fun i => w i - u i)) e = 0 := by
    refine forall_congr' fun e => forall_congr' fun h0 => forall_congr' fun h1 => ?_
    rw [key e h0 h1, add_eq_left, mul_eq_zero, or_iff_right hvisc]
  rw [zero, gradT_curl_vecLap hg hny]
  refine forall_congr' fun v => forall_congr' fun h0 => forall_congr' fun h1 => ?_
  rw [curl_sub, sub_eq_zero, eq_comm]

/-- the flow used in the counterexamples: 1 on one of the three families of edges, 0 elsewhere -/
def stripe (e : Int) : ℝ := if e % 3 = 0 then 1 else 0

theorem nvertices_pos (hv : RunValid p) : 0 < p.dims.nvertices := by
  have := mul_pos (show 0 < p.nx by have := hv.toValid.nx_pos; omega)
    (show 0 < p.ny by have := hv.toValid.ny_pos; omega)
  simp only [MeshParams.dims]; omega

theorem two_le_layers (hvl : 2 ≤ p.vl) (hL : 1 ≤ p.nlayers) : 1 < p.dims.nlayers := by
  have : 1 ≤ ceilDiv p.nlayers p.vl := by
    unfold ceilDiv
    rw [Int.one_le_ceil_iff]
    have h1 : (0 : ℚ) < p.nlayers := by exact_mod_cast (by omega : 0 < p.nlayers)
    have h2 : (0 : ℚ) < p.vl := by exact_mod_cast (by omega : 0 < p.vl)
    positivity
  have := mul_le_mul this hvl (by omega) (by omega)
  simp only [MeshParams.dims]
  omega

theorem stripe_curl (hv : RunValid p) (h : Geo p.nx p.ny p.dims.nlayers dc m.mesh) :
    Spec.curl m stripe 0 ≠ 0 := by
  have := w_pos; have hd := h.dc_pos
  rw [spec_curl h _ le_rfl (nvertices_pos hv)]
  have : Cu p.nx p.ny stripe 0 = 1 := by
    have a1 : ∀ x : Int, (3 * x + 2) % 3 = 2 := by intro x; omega
    have a2 : ∀ x : Int, (3 * x + 1) % 3 = 1 := by intro x; omega
    simp [Cu, Hex.eov, stripe, a1, a2]
  rw [this]
  positivity

/-- Two layers of the counterexamples: layer 0 at rest or moving, layer 1 moving. -/
def twoLayers (a : ℝ) : Fld ℝ :=
  ⟨fun _ _ => 1, fun e k => if k = 0 then a * stripe e else if k = 1 then stripe e else 0,
    fun _ _ _ => 0⟩

theorem simd_execs (hv : RunValid p) (dc : ℝ) (prm : Params ℝ) {sw : SWModel ℝ} (hn : sw.NoHook)
    (split split' : Bool) (t : ℝ) (x : Fld ℝ) :
    ∃ m m1 m1' : Mem ℝ, Ready p dc prm m ∧ m.fld .state = x ∧
      Exec p.dims (compute_tendency p.dims ⟨defaultKernels p.dims.vl, split⟩ sw .replace .tend
        .state t) m m1 ∧
      Exec p.dims (compute_tendency p.dims ⟨simdKernels p.dims.vl p.dims.vl, split'⟩ sw .replace
        .tend .state t) m m1' := by
  obtain ⟨m, m1, hr, hd, hc, hx, he⟩ := exists_tendency hv dc prm hn split .replace t x
  obtain ⟨m1', h⟩ := (C54_simd_safe_deterministic hd hc hn).1 .replace .tend .state t (by decide)
  exact ⟨m, m1, m1', hr, hx, he, ((h split').2 m1').mpr rfl⟩

/-- The property fails: on every mesh with an even number of rows, with vectors of two or more layers
and a non-zero hyperviscosity, there is a state at which the explicit-SIMD build computes another
velocity tendency at layer 1 than the default build. -/
theorem C28_simd_differs (hv : RunValid p) (hny : p.ny % 2 = 0) (hvl : 2 ≤ p.vl)
    (hL : 1 ≤ p.nlayers) (hdc : 0 < dc) (prm : Params ℝ) {sw : SWModel ℝ} (hn : sw.NoHook)
    (hen : sw.en_vhyper = true) (hdis : sw.prm.disable_vn = false) (hvisc : sw.prm.visc_del4 ≠ 0)
    (split split' : Bool) (t : ℝ) :
    ∃ m m1 m1' : Mem ℝ, Ready p dc prm m ∧
      Exec p.dims (compute_tendency p.dims ⟨defaultKernels p.dims.vl, split⟩ sw .replace .tend
        .state t) m m1 ∧
      Exec p.dims (compute_tendency p.dims ⟨simdKernels p.dims.vl p.dims.vl, split'⟩ sw .replace
        .tend .state t) m m1' ∧
      ∃ e, 0 ≤ e ∧ e < p.dims.nedges ∧
        m1'.real (.vn_edge .tend) 0 e 1 ≠ m1.real (.vn_edge .tend) 0 e 1 := by
  obtain ⟨m, m1, m1', hr, hx, he, he'⟩ := simd_execs hv dc prm hn split split' t (twoLayers 0)
  refine ⟨m, m1, m1', hr, he, he', ?_⟩
  by_contra hcon
  push Not at hcon
  have hg := Ready.geo hr hv.toValid hdc
  have := (C28_simd_agrees_iff hv hny hdc hr hn hen hdis hvisc he he' (k := 1) (by omega)
    (two_le_layers hvl hL)).mp hcon 0 le_rfl (nvertices_pos hv)
  have e1 : (1 : Int) / p.dims.vl * p.dims.vl = 0 := by
    rw [show p.dims.vl = p.vl from rfl, Int.ediv_eq_zero_of_lt (by omega) (by omega), zero_mul]
  have hx' : ∀ e k, m.real (.vn_edge .state) 0 e k = (twoLayers 0).vn e k := fun e k =>
    congrFun (congrFun (congrArg Fld.vn hx) e) k
  simp only [hx', e1, twoLayers, if_true, zero_mul, one_ne_zero, if_false] at this
  refine stripe_curl hv hg (this.trans ?_)
  simp [Spec.curl]

/-- the hypotheses are met, and the theorem is about a mesh with 24 cells and vectors of two layers -/
example (prm : Params ℝ) (h : prm.disable_vn = false) (h4 : prm.visc_del4 ≠ 0) :
    ∃ m m1 m1' : Mem ℝ, Ready p46 (1 / 4) prm m ∧
      Exec p46.dims (compute_tendency p46.dims ⟨defaultKernels p46.dims.vl, false⟩
        { SWModel.ofParams prm with en_vhyper := true } .replace .tend .state 0) m m1 ∧
      Exec p46.dims (compute_tendency p46.dims ⟨simdKernels p46.dims.vl p46.dims.vl, false⟩
        { SWModel.ofParams prm with en_vhyper := true } .replace .tend .state 0) m m1' ∧
      ∃ e, 0 ≤ e ∧ e < p46.dims.nedges ∧
        m1'.real (.vn_edge .tend) 0 e 1 ≠ m1.real (.vn_edge .tend) 0 e 1 :=
  C28_simd_differs p46_run (by decide) (by decide) (by decide) (by norm_num) prm
    (sw := { SWModel.ofParams prm with en_vhyper := true }) (noHook_ofParams prm) rfl h h4 false false 0

/-- a state for which the right-hand side of `C28_simd_agrees_iff` holds: all layers alike -/
example (m : Mem ℝ) (h : ∀ e k, m.real (.vn_edge .state) 0 e k = stripe e) (k : Int) (v : Int) :
    Spec.curl m (fun e => m.real (.vn_edge .state) 0 e k) v =
      Spec.curl m (fun e => m.real (.vn_edge .state) 0 e (k / p46.dims.vl * p46.dims.vl)) v := by
  simp only [h]

/-! ### C31 for the explicit-SIMD build -/

/-- In the explicit-SIMD build layers do interact: on every mesh with an even number of rows, with
vectors of two or more layers and a non-zero hyperviscosity, there are two states that agree at layer
1 and whose velocity tendencies differ there. -/
theorem C31_simd_layers_interact (hv : RunValid p) (hny : p.ny % 2 = 0) (hvl : 2 ≤ p.vl)
    (hL : 1 ≤ p.nlayers) (hdc : 0 < dc) (prm : Params ℝ) {sw : SWModel ℝ} (hn : sw.NoHook)
    (hen : sw.en_vhyper = true) (hdis : sw.prm.disable_vn = false) (hvisc : sw.prm.visc_del4 ≠ 0)
    (split : Bool) (t : ℝ) :
    ∃ m m' m1 m1' : Mem ℝ, Ready p dc prm m ∧ Ready p dc prm m' ∧
      SameLayer p.dims 1 (m'.fld .state) (m.fld .state) ∧
      Exec p.dims (compute_tendency p.dims ⟨simdKernels p.dims.vl p.dims.vl, split⟩ sw .replace
        .tend .state t) m m1 ∧
      Exec p.dims (compute_tendency p.dims ⟨simdKernels p.dims.vl p.dims.vl, split⟩ sw .replace
        .tend .state t) m' m1' ∧
      ∃ e, 0 ≤ e ∧ e < p.dims.nedges ∧
        m1'.real (.vn_edge .tend) 0 e 1 ≠ m1.real (.vn_edge .tend) 0 e 1 := by
  obtain ⟨m, a, a', hr, hx, ea, ea'⟩ := simd_execs hv dc prm hn split split t (twoLayers 0)
  have hst := setFld_static m .state (twoLayers 1)
  have hr' := hr.static hst
  obtain ⟨hd, hc⟩ := ready_ok hv hr
  obtain ⟨-, hc'⟩ := ready_ok hv hr'
  obtain ⟨b, eb, -⟩ := ((C40_safe_deterministic hd hc' hn split).1 .replace .tend .state t
    (by decide)).2
  obtain ⟨b', hb'⟩ := (C54_simd_safe_deterministic hd hc' hn).1 .replace .tend .state t (by decide)
  have eb' := ((hb' split).2 b').mpr rfl
  have hx' := setFld_fld m .state (twoLayers 1)
  have same : SameLayer p.dims 1 ((setFld m .state (twoLayers 1)).fld .state) (m.fld .state) := by
    rw [hx, hx']
    exact ⟨fun _ _ _ => rfl, fun _ _ _ => by simp [twoLayers], fun _ _ _ _ _ _ => rfl⟩
  refine ⟨m, _, a', b', hr, hr', same, ea', eb', ?_⟩
  by_contra hcon
  push Not at hcon
  have k1 := two_le_layers hvl hL
  have e1 : (1 : Int) / p.dims.vl * p.dims.vl = 0 := by
    rw [show p.dims.vl = p.vl from rfl, Int.ediv_eq_zero_of_lt (by omega) (by omega), zero_mul]
  -- with equal layers the two builds agree
  have v' : ∀ e k, (setFld m .state (twoLayers 1)).real (.vn_edge .state) 0 e k =
      (twoLayers 1).vn e k := fun e k => congrFun (congrFun (congrArg Fld.vn hx') e) k
  have v : ∀ e k, m.real (.vn_edge .state) 0 e k = (twoLayers 0).vn e k := fun e k =>
    congrFun (congrFun (congrArg Fld.vn hx) e) k
  have r1 := (C28_simd_agrees_iff hv hny hdc hr' hn hen hdis hvisc eb eb' (k := 1) (by omega) k1).mpr
    (fun i _ _ => by simp only [v', e1]; congr 1; funext e; simp [twoLayers])
  -- the default build does not see the difference
  have r2 := ((C31_layers_independent hd hc hn split hst (by omega) k1).1 .replace .tend .state t a b
    (by decide) same (by
      have : (setFld m .state (twoLayers 1)).fld .tend = m.fld .tend :=
        fld_congr fun b hb => (setFld_agree m .state (twoLayers 1)).real b (by
          cases b <;> simp_all [inState])
      rw [this]
      exact SameLayer.of_eqFld (by omega) k1 (EqFld.refl _ _)) ea eb).vn
  have r3 := (C28_simd_agrees_iff hv hny hdc hr hn hen hdis hvisc ea ea' (k := 1) (by omega) k1).mp
    (fun e h0 h1 => (hcon e h0 h1).symm.trans ((r1 e h0 h1).trans (r2 e h0 h1))) 0 le_rfl
    (nvertices_pos hv)
  simp only [v, e1, twoLayers, if_true, zero_mul, one_ne_zero, if_false] at r3
  refine stripe_curl hv (Ready.geo hr hv.toValid hdc) (r3.trans ?_)
  simp [Spec.curl]

end

/-! ### C53 -/

section
variable {R : Type} [Scalar R]

/-- A launch with a thread that fails when run alone is not safe. -/
theorem not_safe_of_run {d : Dims} {c : Cmd R} {m : Mem R} {x : Idx} (hx : c.Dom x)
    (h : run d (fun _ => .rw) (c.body x) m = none) : ¬ c.Safe d m := by
  have key : ∀ (q : Prog R Unit) (m' : Mem R), run d (fun _ => .rw) q m' = none →
      ∀ T : Idx → Prog R Unit, T x = q → Reach d c m (T, m') → ∃ C, Reach d c m C ∧ Fault d c C := by
    intro q
    induction q with
    | ret a => intro m' h; simp [run] at h
    | ub => intro m' _ T hT hr; exact ⟨_, hr, x, hx, by show Faulty d (T x); rw [hT]; trivial⟩
    | rdI a i j k ih =>
      intro m' h T hT hr
      by_cases hb : a.InB d i j
      · rw [run, if_pos ⟨hb, by simp⟩] at h
        exact ih _ m' h (Function.update T x (k (m'.int a i j))) (Function.update_self ..)
          (hr.tail (.step T m' x _ _ hx (by rw [hT]; simp [stepT, hb])))
      · exact ⟨_, hr, x, hx, by show Faulty d (T x); rw [hT]; exact hb⟩
    | rdR a l i j k ih =>
      intro m' h T hT hr
      by_cases hb : a.InB d l i j
      · rw [run, if_pos ⟨hb, by simp⟩] at h
        exact ih _ m' h (Function.update T x (k (m'.real a l i j))) (Function.update_self ..)
          (hr.tail (.step T m' x _ _ hx (by rw [hT]; simp [stepT, hb])))
      · exact ⟨_, hr, x, hx, by show Faulty d (T x); rw [hT]; exact hb⟩
    | wrI a i j v k ih =>
      intro m' h T hT hr
      by_cases hb : a.InB d i j
      · rw [run, if_pos ⟨hb, rfl⟩] at h
        exact ih _ h (Function.update T x k) (Function.update_self ..)
          (hr.tail (.step T m' x _ _ hx (by rw [hT]; simp [stepT, hb])))
      · exact ⟨_, hr, x, hx, by show Faulty d (T x); rw [hT]; exact hb⟩
    | wrR a l i j v k ih =>
      intro m' h T hT hr
      by_cases hb : a.InB d l i j
      · rw [run, if_pos ⟨hb, rfl⟩] at h
        exact ih _ h (Function.update T x k) (Function.update_self ..)
          (hr.tail (.step T m' x _ _ hx (by rw [hT]; simp [stepT, hb])))
      · exact ⟨_, hr, x, hx, by show Faulty d (T x); rw [hT]; exact hb⟩
  intro hs
  obtain ⟨C, hr, hf⟩ := key _ m h c.body rfl .refl
  exact (hs C hr).1 hf

theorem run_none_bind {α β : Type} {d : Dims} {perm : Loc → Perm} {q : Prog R α} {f : α → Prog R β}
    {m : Mem R} (h : ∀ a m', run d perm (f a) m' = none) : run d perm (q >>= f) m = none := by
  show run d perm (q.bind f) m = none
  rw [run_bind]
  cases run d perm q m with
  | none => rfl
  | some x => exact h x.1 x.2

theorem run_none_bind' {α β : Type} {d : Dims} {perm : Loc → Perm} {q : Prog R α} {f : α → Prog R β}
    {m : Mem R} (h : run d perm q m = none) : run d perm (q >>= f) m = none := by
  show run d perm (q.bind f) m = none
  rw [run_bind, h]; rfl

theorem run_none_loop {σ : Type} {d : Dims} {perm : Loc → Perm} {body : Int → σ → Prog R σ} {x : Int}
    (h : ∀ s m, run d perm (body x s) m = none) :
    ∀ (n : Nat) (j : Int) (s : σ) (m : Mem R), j ≤ x → x < j + n →
      run d perm (forFrom body n j s) m = none := by
  intro n
  induction n with
  | zero => intro j s m h0 h1; simp at h1; omega
  | succ n ih =>
    intro j s m h0 h1
    by_cases hj : j = x
    · subst hj
      exact run_none_bind' (f := forFrom body n (j + 1)) (h s m)
    · exact run_none_bind (f := forFrom body n (j + 1)) fun a m' => ih (j + 1) a m' (by omega) (by
        push_cast at h1; omega)

theorem run_none_forI {σ : Type} {d : Dims} {perm : Loc → Perm} {body : Int → σ → Prog R σ} {x n : Int}
    (h0 : 0 ≤ x) (h1 : x < n) (h : ∀ s m, run d perm (body x s) m = none) (s : σ) (m : Mem R) :
    run d perm (forI n s body) m = none :=
  run_none_loop h n.toNat 0 s m h0 (by omega)

/-- a vector load that ends beyond the last layer fails -/
theorem run_vld2 {d : Dims} {perm : Loc → Perm} {a : RArr} {n w i k : Int}
    (hext : a.ext d = (1, n, d.nlayers)) (h0 : k < d.nlayers) (h1 : d.nlayers < k + w)
    (m : Mem R) : run d perm (Simd.vld2 w a i k) m = none := by
  refine run_none_forI (x := d.nlayers - k) (by omega) (by omega) (fun s m => ?_) _ m
  refine run_none_bind' ?_
  have : ¬ a.InB d 0 i (k + (d.nlayers - k)) := by
    unfold RArr.InB
    rw [hext]
    intro h
    have := h.2.2.2
    simp only at this
    omega
  unfold rd2
  rw [run, if_neg fun h => this h.1]

/-- With both `OMEGA_NO_SIMD` and `OMEGA_KOKKOS_SIMD` (chunks of one layer, vectors of `w > 1`), and
in general whenever vectors are longer than chunks, every evaluation of the tendency accesses memory
beyond the arrays, whatever the mesh tables and the state are. -/
theorem C53_simd_width_mismatch {p : MeshParams} (hv : MeshParams.Valid p) (hL : 1 ≤ p.nlayers)
    {w : Int} (hw : p.vl < w) (split : Bool) (sw : SWModel R) (mode : AddMode) (tn st : StateId) (t : R)
    (m : Mem R) :
    ¬ Safe p.dims (compute_tendency p.dims ⟨simdKernels p.dims.vl w, split⟩ sw mode tn st t) m := by
  have hvl := hv.vl_pos
  have hcc : 1 ≤ p.dims.nlayersVec := by
    show 1 ≤ ceilDiv p.nlayers p.vl
    unfold ceilDiv
    rw [Int.one_le_ceil_iff]
    have h1 : (0 : ℚ) < p.nlayers := by exact_mod_cast (by omega : 0 < p.nlayers)
    have h2 : (0 : ℚ) < p.vl := by exact_mod_cast (by omega : 0 < p.vl)
    positivity
  have hn : p.dims.nlayers = p.dims.nlayersVec * p.vl := rfl
  have hnv : 0 < p.dims.nvertices := by
    have := mul_pos (show 0 < p.nx by have := hv.nx_pos; omega)
      (show 0 < p.ny by have := hv.ny_pos; omega)
    simp only [MeshParams.dims]; omega
  intro hs
  cases hs with
  | cons h1 _ =>
    refine not_safe_of_run (x := (0, p.dims.nlayersVec - 1, 0)) ?_ ?_ h1
    · exact ⟨⟨le_rfl, hnv⟩, ⟨by simp only; omega, by simp only [par2]; omega⟩, ⟨le_rfl, Int.zero_lt_one⟩⟩
    · show run _ _ (Simd.compute_vort_vertex p.dims.vl w (.h_cell st) (.vn_edge st) .f_vertex 0
        (p.dims.nlayersVec - 1)) m = none
      have hk : (p.dims.nlayersVec - 1) * p.dims.vl = p.dims.nlayers - p.vl := by
        rw [hn, sub_mul, one_mul]; rfl
      unfold Simd.compute_vort_vertex imul int32
      split_ifs
      · show run _ _ (rd1 .area_triangle 0 >>= _) m = none
        refine run_none_bind fun a m => ?_
        refine run_none_bind' ?_
        refine run_none_forI (x := 0) le_rfl (by omega) (fun s m => ?_) _ m
        refine run_none_bind fun a m => ?_
        refine run_none_bind fun a m => ?_
        refine run_none_bind' (run_vld2 (n := p.dims.nedges) rfl ?_ ?_ m) <;> omega
      · rfl

end

/-- the configuration with both options on a small mesh, vectors of four numbers -/
example : MeshParams.Valid ⟨4, 6, 3, 1, 1⟩ ∧ (1 : Int) ≤ (⟨4, 6, 3, 1, 1⟩ : MeshParams).nlayers ∧
    (⟨4, 6, 3, 1, 1⟩ : MeshParams).vl < 4 :=
  ⟨by constructor <;> simp, by decide, by decide⟩

end Props
end Omega
