import Verif.Props.FlowMixing
import Verif.Props.Simd

/-!
# C129: in prescribed flow the explicit-SIMD build mixes tracers as the default build does

The builds differ only in the hyperviscosity, which acts on the velocity (C28).  With the velocity prescribed they agree
in every layer, whatever terms are switched on, so that C127 and C128 hold for the explicit-SIMD build.
-/

set_option linter.unusedVariables false
set_option linter.unusedSectionVars false

namespace Omega
noncomputable section
namespace Props

open Prog Model Refine Hex Polynomial

variable {d : Dims} {m : Mem ℝ} {sw : SWModel ℝ}

theorem simd_tend_frozen {H : HookFn ℝ} (h6 : sw.prm.disable_vn = true) (k : Int) (mode : AddMode) (t : ℝ)
    (o s : Fld ℝ) : SameLayer d k ((simdSys d sw H m).tend mode t o s) ((genSys d sw H m).tend mode t o s) := by
  have key := simd_tend (d := d) (sw := { sw with en_vhyper := false }) (H := H) (m := m) (k := k)
    ⟨mul_comm, .inl mul_assoc, .inl rfl⟩ mode t o s
  refine ⟨fun c a b => key.h c a b, fun e _ _ => ?_, fun l c a b e f => key.tr l c a b e f⟩
  simp [Sys.tend, simdSys, genSys, h6]

/-- With the velocity prescribed the two builds, started in the same memory, end in the same state in every layer. -/
theorem C129_builds_agree (hd : DimsOK d) (hc : ConnOK d m) (hn : sw.NoHook) (h6 : sw.prm.disable_vn = true)
    {split split' : Bool} {stp : Stepper} {sched : List (ℝ × ℝ)} {m1 m1' : Mem ℝ}
    (he : Exec d (stp.ctor d ++ stp.run d ⟨defaultKernels d.vl, split⟩ sw sched) m m1)
    (he' : Exec d (stp.ctor d ++ stp.run d ⟨simdKernels d.vl d.vl, split'⟩ sw sched) m m1') :
    (∀ c k, 0 ≤ c → c < d.ncells → 0 ≤ k → k < d.nlayers →
      m1'.real (.h_cell .state) 0 c k = m1.real (.h_cell .state) 0 c k) ∧
    (∀ e k, 0 ≤ e → e < d.nedges → 0 ≤ k → k < d.nlayers →
      m1'.real (.vn_edge .state) 0 e k = m1.real (.vn_edge .state) 0 e k) ∧
    ∀ l c k, 0 ≤ l → l < d.ntracers → 0 ≤ c → c < d.ncells → 0 ≤ k → k < d.nlayers →
      m1'.real (.tr_cell .state) l c k = m1.real (.tr_cell .state) l c k := by
  have hS := genSetup hd hc (hookOK_noHook hn d m)
  have hS' := simdSetup hd hc (hookOK_noHook hn d m)
  obtain ⟨-, -, v⟩ := hS.newRun he
  obtain ⟨-, -, v'⟩ := hS'.newRun he'
  have all : ∀ k, 0 ≤ k → k < d.nlayers → SameLayer d k (m1'.fld .state) (m1.fld .state) := by
    intro k h0 h1
    have rel : StepRel (simdSys d sw _ m) (genSys d sw _ m) (SameLayer d k) (SameLayer d k) :=
      ⟨fun ho hs => (simd_tend_frozen h6 k _ _ _ _).trans ((layer_rel hS.sys rfl h0 h1).tend ho hs),
        fun a h => (layer_rel hS.sys rfl h0 h1).map a h, fun a h h' => (layer_rel hS.sys rfl h0 h1).axpy a h h'⟩
    have rfl' : ∀ x : Fld ℝ, SameLayer d k x x := fun x => SameLayer.of_eqFld h0 h1 (EqFld.refl d x)
    exact (SameLayer.of_eqFld h0 h1 v').trans
      ((rel.run stp sched (p := (zeroFld, m.fld .state)) (q := (zeroFld, m.fld .state))
        (rfl' _) (rfl' _)).2.trans (SameLayer.of_eqFld h0 h1 v.symm))
  exact ⟨fun c k a b h0 h1 => (all k h0 h1).h c a b, fun e k a b h0 h1 => (all k h0 h1).vn e a b,
    fun l c k a b e f h0 h1 => (all k h0 h1).tr l c a b e f⟩

section

variable {p : MeshParams} {dc : ℝ} {prm : Params ℝ} {k : Int} {V hlo hhi : ℝ} {stp : Stepper}

/-- C127 for the explicit-SIMD build. -/
theorem C129_convex {sched : List (ℝ × ℝ)} (hv : RunValid p) (hx : 2 ≤ p.nx) (hy : 2 ≤ p.ny) (hdc : 0 < dc)
    (hr : Ready p dc prm m) (F : MixingFlow p dc prm m k V hlo hhi stp sched) {split : Bool} {m1 : Mem ℝ}
    (he : Exec p.dims (stp.ctor p.dims ++ stp.run p.dims ⟨simdKernels p.dims.vl p.dims.vl, split⟩
      (SWModel.ofParams prm) sched) m m1) {l l' : Int} (hl : 0 ≤ l ∧ l < p.dims.ntracers)
    (hl' : 0 ≤ l' ∧ l' < p.dims.ntracers) (a b : ℝ) {lo hi : ℝ} {φ : ℝ → ℝ} (hφ : ConvexOn ℝ (Set.Icc lo hi) φ)
    (hφc : ContinuousOn φ (Set.Icc lo hi))
    (hq : ∀ c, 0 ≤ c → c < p.dims.ncells →
      lo * m.real (.h_cell .state) 0 c k ≤ a * m.real (.tr_cell .state) l c k + b * m.real (.tr_cell .state) l' c k ∧
      a * m.real (.tr_cell .state) l c k + b * m.real (.tr_cell .state) l' c k ≤ hi * m.real (.h_cell .state) 0 c k) :
    ∑ c ∈ Spec.cells p.dims, Spec.areaC m1 c * (m1.real (.h_cell .state) 0 c k *
      φ ((a * m1.real (.tr_cell .state) l c k + b * m1.real (.tr_cell .state) l' c k) /
        m1.real (.h_cell .state) 0 c k)) ≤
    ∑ c ∈ Spec.cells p.dims, Spec.areaC m c * (m.real (.h_cell .state) 0 c k *
      φ ((a * m.real (.tr_cell .state) l c k + b * m.real (.tr_cell .state) l' c k) /
        m.real (.h_cell .state) 0 c k)) := by
  obtain ⟨hd, hcn⟩ := ready_ok hv hr
  obtain ⟨m2, he2⟩ := run_exists hv hr stp sched split
  obtain ⟨a1, -, a3⟩ := C129_builds_agree hd hcn (noHook_ofParams prm) F.frozen_vn he2 he
  have s1 := ((simdSetup hd hcn (hookOK_noHook (noHook_ofParams prm) p.dims m)).newRun he).1
  have s2 := ((genSetup hd hcn (hookOK_noHook (noHook_ofParams prm) p.dims m)).newRun he2).1
  refine le_of_eq_of_le (Finset.sum_congr rfl fun c hc => ?_)
    (C127_convex hv hx hy hdc hr F he2 hl hl' a b hφ hφc hq)
  obtain ⟨c0, c1⟩ := Finset.mem_Ico.mp hc
  rw [area_static s1, area_static s2, a1 c k c0 c1 F.layer.1 F.layer.2, a3 l c k hl.1 hl.2 c0 c1 F.layer.1 F.layer.2,
    a3 l' c k hl'.1 hl'.2 c0 c1 F.layer.1 F.layer.2]

/-- C128 for the explicit-SIMD build, with the same `N` and `θ` as for the default build. -/
theorem C129_flow_mixes {dt : ℝ} (hv : RunValid p) (hx : 2 ≤ p.nx) (hy : 2 ≤ p.ny) (hev : p.ny % 2 = 0) (hdc : 0 < dc)
    (hr : Ready p dc prm m) (hst : stp = .rk4 ∨ stp = .lsrk 1 ∨ stp = .lsrk 5)
    (F : MixingFlow p dc prm m k V hlo hhi stp [(0, dt)]) (hP : V * dc < 2 * prm.eddy_diff2) (hdt : 0 < dt)
    (hcfl : 4 * dt * hhi * (prm.eddy_diff2 + V * dc / 2) < boundSteps stp * (hlo * dc ^ 2)) :
    ∃ N : ℕ, 0 < N ∧ ∃ θ : ℝ, 0 < θ ∧ θ ≤ 1 ∧ ∀ (simd : Bool) (l : Int) (sched : List (ℝ × ℝ)) (split : Bool)
      (m1 : Mem ℝ), 0 ≤ l → l < p.dims.ntracers → (∀ q ∈ sched, q.2 = dt) →
      Exec p.dims (stp.ctor p.dims ++ stp.run p.dims ⟨buildK simd p.dims.vl, split⟩
        (SWModel.ofParams prm) sched) m m1 →
      ∀ lo hi : ℝ, (∀ c, 0 ≤ c → c < p.dims.ncells →
        lo ≤ m.real (.tr_cell .state) l c k / m.real (.h_cell .state) 0 c k ∧
        m.real (.tr_cell .state) l c k / m.real (.h_cell .state) 0 c k ≤ hi) →
      ∀ c, 0 ≤ c → c < p.dims.ncells →
        |m1.real (.tr_cell .state) l c k / m1.real (.h_cell .state) 0 c k -
          (∑ c ∈ Spec.cells p.dims, Spec.areaC m c * m.real (.tr_cell .state) l c k) /
            ∑ c ∈ Spec.cells p.dims, Spec.areaC m c * m.real (.h_cell .state) 0 c k| ≤
          (1 - θ) ^ (sched.length / N) * (hi - lo) := by
  obtain ⟨hd, hcn⟩ := ready_ok hv hr
  obtain ⟨N, N0, θ, θ0, θ1, H⟩ := C128_flow_mixes hv hx hy hev hdc hr hst F hP hdt hcfl
  refine ⟨N, N0, θ, θ0, θ1, fun simd l sched split m1 l0 l1 hs he lo hi hq c c0 c1 => ?_⟩
  cases simd with
  | false => exact H l sched split m1 l0 l1 hs he lo hi hq c c0 c1
  | true =>
    obtain ⟨m2, he2⟩ := run_exists hv hr stp sched split
    obtain ⟨a1, -, a3⟩ := C129_builds_agree hd hcn (noHook_ofParams prm) F.frozen_vn he2 he
    rw [a1 c k c0 c1 F.layer.1 F.layer.2, a3 l c k l0 l1 c0 c1 F.layer.1 F.layer.2]
    exact H l sched split m2 l0 l1 hs he2 lo hi hq c c0 c1

end

/-- Prescribed flow that differs from layer to layer, with hyperviscosity switched on: the builds, which in general
differ then (C28), agree. -/
example (f0 g : ℝ) (stp : Stepper) (split : Bool) : ∃ m m1 m1' : Mem ℝ,
    Ready p46t 1 ⟨f0, g, 0, 1, 1, 0, true, true⟩ m ∧
    (SWModel.ofParams (⟨f0, g, 0, 1, 1, 0, true, true⟩ : Params ℝ)).en_vhyper = true ∧
    (∀ e k, m.real (.vn_edge .state) 0 e k = if k = 0 then stripe e else 0) ∧
    Exec p46t.dims (stp.ctor p46t.dims ++ stp.run p46t.dims ⟨defaultKernels p46t.dims.vl, split⟩
      (SWModel.ofParams ⟨f0, g, 0, 1, 1, 0, true, true⟩) [(0, 1 / 8), (1, 1 / 10)]) m m1 ∧
    Exec p46t.dims (stp.ctor p46t.dims ++ stp.run p46t.dims ⟨simdKernels p46t.dims.vl p46t.dims.vl, split⟩
      (SWModel.ofParams ⟨f0, g, 0, 1, 1, 0, true, true⟩) [(0, 1 / 8), (1, 1 / 10)]) m m1' ∧
    ∀ l c k, 0 ≤ l → l < p46t.dims.ntracers → 0 ≤ c → c < p46t.dims.ncells → 0 ≤ k → k < p46t.dims.nlayers →
      m1'.real (.tr_cell .state) l c k = m1.real (.tr_cell .state) l c k := by
  obtain ⟨m, hr, hx, -⟩ := exists_ready p46t_run.toValid (1 : ℝ) ⟨f0, g, 0, 1, 1, 0, true, true⟩
    ⟨fun _ _ => 1, fun e k => if k = 0 then stripe e else 0, fun _ c _ => if c = 3 then 2 else 0⟩ zeroFld
  obtain ⟨hd, hcn⟩ := ready_ok p46t_run hr
  obtain ⟨m1, he⟩ := run_exists p46t_run hr stp [(0, 1 / 8), (1, 1 / 10)] split
  obtain ⟨m1', h'⟩ := (C54_simd_safe_deterministic hd hcn
    (noHook_ofParams (⟨f0, g, 0, 1, 1, 0, true, true⟩ : Params ℝ))).2 stp [(0, 1 / 8), (1, 1 / 10)]
  have he' := ((h' split).2 m1').2 rfl
  exact ⟨m, m1, m1', hr, by simp [SWModel.ofParams, Scalar.lt],
    fun e k => congrFun (congrFun (congrArg Fld.vn hx) e) k, he, he',
    (C129_builds_agree hd hcn (noHook_ofParams _) rfl he he').2.2⟩

end Props
end
end Omega
