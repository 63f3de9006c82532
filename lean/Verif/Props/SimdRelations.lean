import Verif.Props.Simd
import Verif.Props.Translation
import Verif.Props.Arithmetic

/-!
# C39 and C52 for the explicit-SIMD build

The functions of the vector kernels respect the same relations between arithmetics and between meshes as
those of the default build, including the hyperviscosity that reads another layer.
-/

set_option linter.unusedVariables false
set_option linter.unusedSectionVars false

namespace Omega
noncomputable section

namespace Props

open Prog Model Refine

section
variable {R : Type} [Scalar R] {p : MeshParams} {dc : R} {prm : Params R} {m m' m1 m1' : Mem R}

/-- Moving the state by a symmetry of the lattice and then running any stepper of the explicit-SIMD build for any
steps gives the moved result, bit for bit in any arithmetic. -/
theorem C39_simd_run_equivariant (hv : RunValid p) (hr : Ready p dc prm m) (hr' : Ready p dc prm m')
    {sw : SWModel R} (hn : sw.NoHook) {σ : Int → Int} (h : IsSymm p.nx p.ny σ) {stp : Stepper}
    {sched : List (R × R)} {split split' : Bool} (h0 : Moved p.dims σ .state m m')
    (he : Exec p.dims (stp.ctor p.dims ++ stp.run p.dims ⟨simdKernels p.dims.vl p.dims.vl, split⟩ sw sched) m m1)
    (he' : Exec p.dims (stp.ctor p.dims ++
      stp.run p.dims ⟨simdKernels p.dims.vl p.dims.vl, split'⟩ sw sched) m' m1') :
    Moved p.dims σ .state m1 m1' := by
  obtain ⟨hd, hc⟩ := ready_ok hv hr
  obtain ⟨-, hc'⟩ := ready_ok hv hr'
  refine moved_iff.2 (newRun_rel ((sysRel_symm hv hr hr' sw h).build hd.vl_pos true)
    (simdSetup hd hc (hookOK_noHook hn p.dims m)) (simdSetup hd hc' (hookOK_noHook hn p.dims m'))
    (moved_iff.1 h0) stp ?_ he he' fun _ _ _ => ⟨fun _ _ _ _ _ _ => trivial,
      fun _ _ _ _ _ _ _ => trivial⟩)
  exact List.forall₂_same.2 fun _ _ => ⟨rfl, rfl⟩

/-- The same for one call of `compute_tendency` of the explicit-SIMD build. -/
theorem C39_simd_tendency_equivariant (hv : RunValid p) (hr : Ready p dc prm m)
    (hr' : Ready p dc prm m') {sw : SWModel R} (hn : sw.NoHook) {σ : Int → Int}
    (h : IsSymm p.nx p.ny σ) {mode : AddMode} {tn st : StateId} (hne : st ≠ tn) {t : R}
    {split split' : Bool} (h0 : Moved p.dims σ st m m') (ht : Moved p.dims σ tn m m')
    (he : Exec p.dims (compute_tendency p.dims ⟨simdKernels p.dims.vl p.dims.vl, split⟩ sw mode tn st t)
      m m1)
    (he' : Exec p.dims (compute_tendency p.dims ⟨simdKernels p.dims.vl p.dims.vl, split'⟩ sw mode tn st t)
      m' m1') : Moved p.dims σ tn m1 m1' := by
  obtain ⟨hd, hc⟩ := ready_ok hv hr
  obtain ⟨-, hc'⟩ := ready_ok hv hr'
  exact moved_iff.2 (tendency_rel ((sysRel_symm hv hr hr' sw h).build hd.vl_pos true)
    (simdSetup hd hc (hookOK_noHook hn p.dims m)) (simdSetup hd hc' (hookOK_noHook hn p.dims m'))
    hne (moved_iff.1 h0) (moved_iff.1 ht) ⟨fun _ _ _ _ _ _ => trivial,
      fun _ _ _ _ _ _ _ => trivial⟩ mode rfl he he')

/-- a run of the explicit-SIMD build -/
theorem exists_simdRun (hv : RunValid p) (hr : Ready p dc prm m) {sw : SWModel R} (hn : sw.NoHook) (split : Bool)
    (stp : Stepper) (sched : List (R × R)) : ∃ m1, Exec p.dims (stp.ctor p.dims ++ stp.run p.dims
      ⟨simdKernels p.dims.vl p.dims.vl, split⟩ sw sched) m m1 := by
  obtain ⟨hd, hc⟩ := ready_ok hv hr
  obtain ⟨m1, h⟩ := (C54_simd_safe_deterministic hd hc hn).2 stp sched
  exact ⟨m1, ((h split).2 m1).2 rfl⟩

/-- The state moved one row and one column on a mesh of four columns and six rows, with hyperviscosity and tracers,
meets the hypotheses. -/
example (x : Fld R) (t dt : R) (prm : Params R) : ∃ m m' m1 m1' : Mem R,
    Ready p46t (lit 1) prm m ∧ Ready p46t (lit 1) prm m' ∧ m.fld .state = x ∧
      IsSymm p46t.nx p46t.ny (fun c => (shiftCol p46t.nx)^[1] ((shiftRow p46t.nx p46t.ny)^[1] c)) ∧
      Moved p46t.dims (fun c => (shiftCol p46t.nx)^[1] ((shiftRow p46t.nx p46t.ny)^[1] c)) .state m m' ∧
      Exec p46t.dims (Stepper.rk4.ctor p46t.dims ++ Stepper.rk4.run p46t.dims
        ⟨simdKernels p46t.dims.vl p46t.dims.vl, false⟩ (SWModel.ofParams prm) [(t, dt)]) m m1 ∧
      Exec p46t.dims (Stepper.rk4.ctor p46t.dims ++ Stepper.rk4.run p46t.dims
        ⟨simdKernels p46t.dims.vl p46t.dims.vl, true⟩ (SWModel.ofParams prm) [(t, dt)]) m' m1' := by
  let y : Fld R := ⟨fun c k => x.h (shiftCol p46t.nx (shiftRow p46t.nx p46t.ny c)) k,
    fun e k => x.vn (3 * shiftCol p46t.nx (shiftRow p46t.nx p46t.ny (e / 3)) + e % 3) k,
    fun l c k => x.tr l (shiftCol p46t.nx (shiftRow p46t.nx p46t.ny c)) k⟩
  obtain ⟨m, hr, hx, -⟩ := exists_ready p46t_run.toValid (lit 1 : R) prm x zeroFld
  obtain ⟨m', hr', hy, -⟩ := exists_ready p46t_run.toValid (lit 1 : R) prm y zeroFld
  obtain ⟨m1, he⟩ := exists_simdRun p46t_run hr (noHook_ofParams prm) false .rk4 [(t, dt)]
  obtain ⟨m1', he'⟩ := exists_simdRun p46t_run hr' (noHook_ofParams prm) true .rk4 [(t, dt)]
  refine ⟨m, m', m1, m1', hr, hr', hx, ((C39_shifts p46t_run 1 1).2 (by decide)).1,
    ⟨fun c k _ _ _ _ => ?_, fun c j k _ _ j0 j1 _ _ => ?_, fun l c k _ _ _ _ _ _ => ?_⟩, he, he'⟩
  · exact (congrFun (congrFun (congrArg Fld.h hy) c) k).trans
      (congrFun (congrFun (congrArg Fld.h hx) _) k).symm
  · refine (congrFun (congrFun (congrArg Fld.vn hy) (3 * c + j)) k).trans ?_
    refine Eq.trans ?_ (congrFun (congrFun (congrArg Fld.vn hx) _) k).symm
    show x.vn (3 * shiftCol _ (shiftRow _ _ ((3 * c + j) / 3)) + (3 * c + j) % 3) k = _
    rw [show (3 * c + j) / 3 = c by omega, show (3 * c + j) % 3 = j by omega]
    rfl
  · exact (congrFun (congrFun (congrFun (congrArg Fld.tr hy) l) c) k).trans
      (congrFun (congrFun (congrFun (congrArg Fld.tr hx) l) _) k).symm

end

section

variable {p : MeshParams} {dc : ℝ} {prm : Params ℝ} {mN m1N : Mem (Option ℝ)} {m m1 : Mem ℝ}
  (hv : RunValid p) (hrN : Ready p (some dc) (Params.lift prm) mN) (hr : Ready p dc prm m)
  {sw : SWModel ℝ} (hn : sw.NoHook)
include hv hrN hr hn

/-- The explicit-SIMD build in real arithmetic with `x / 0 = 0` and in arithmetic where `x / 0` is undefined, from the
same state: every entry of the final state is undefined or equal. -/
theorem C52_simd_undefined_or_exact {stp : Stepper} {sched : List (ℝ × ℝ)} {split splitN : Bool}
    (h0 : Entries p.dims (fun o r => o = some r) (mN.fld .state) (m.fld .state))
    (heN : Exec p.dims (stp.ctor p.dims ++ stp.run p.dims ⟨simdKernels p.dims.vl p.dims.vl, splitN⟩
      (SWModel.lift sw) (liftSched sched)) mN m1N)
    (he : Exec p.dims (stp.ctor p.dims ++ stp.run p.dims ⟨simdKernels p.dims.vl p.dims.vl, split⟩ sw sched)
      m m1) :
    Entries p.dims (fun o r => o = none ∨ o = some r) (m1N.fld .state) (m1.fld .state) := by
  obtain ⟨hd, hc⟩ := ready_ok hv hr
  obtain ⟨-, hcN⟩ := ready_ok hv hrN
  refine entries_fldRel.2 (newRun_rel ((sysRel_lift hv hrN hr sw scRel_undef (fun _ => .inr rfl)
    (fun _ _ _ => trivial) (fun _ _ => trivial)).build hd.vl_pos true)
    (simdSetup hd hcN (hookOK_noHook (lift_noHook sw) p.dims mN))
    (simdSetup hd hc (hookOK_noHook hn p.dims m)) ?_ stp (liftSched_rel (ρ := UndefOrEq) (fun _ => .inr rfl) sched)
    heN he fun _ _ _ => ⟨fun _ _ _ _ _ _ => trivial, fun _ _ _ _ _ _ _ => trivial⟩)
  exact ⟨fun c k a b e f => .inr (h0.1 c k a b e f), fun c k a b e f => .inr (h0.2.1 c k a b e f),
    fun l c k i j a b e f => .inr (h0.2.2 l c k i j a b e f)⟩

/-- If, in real arithmetic, the thickness is nonzero at every vertex (and, with tracers, in every cell) whenever the
explicit-SIMD build calls `compute_tendency`, then the run in arithmetic with an undefined value divides by no zero:
its final state is defined everywhere and equal.  The thickness of padding layers counts. -/
theorem C52_simd_defined {stp : Stepper} {sched : List (ℝ × ℝ)} {split splitN : Bool} (hdc : dc ≠ 0)
    (h0 : Entries p.dims (fun o r => o = some r) (mN.fld .state) (m.fld .state))
    (heN : Exec p.dims (stp.ctor p.dims ++ stp.run p.dims ⟨simdKernels p.dims.vl p.dims.vl, splitN⟩
      (SWModel.lift sw) (liftSched sched)) mN m1N)
    (he : Exec p.dims (stp.ctor p.dims ++ stp.run p.dims ⟨simdKernels p.dims.vl p.dims.vl, split⟩ sw sched)
      m m1)
    (hw : ∀ st m', CallsAt p.dims ⟨simdKernels p.dims.vl p.dims.vl, split⟩ sw stp sched m st m' →
      (∀ v k, 0 ≤ v → v < p.dims.nvertices → 0 ≤ k → k < p.dims.nlayers →
        Spec.kiteMean m (fun c => m'.real (.h_cell st) 0 c k) v ≠ 0) ∧
      (0 < p.dims.ntracers → ∀ c k, 0 ≤ c → c < p.dims.ncells → 0 ≤ k → k < p.dims.nlayers →
        m'.real (.h_cell st) 0 c k ≠ 0)) :
    Entries p.dims (fun o r => o = some r) (m1N.fld .state) (m1.fld .state) := by
  obtain ⟨hd, hc⟩ := ready_ok hv hr
  obtain ⟨-, hcN⟩ := ready_ok hv hrN
  refine entries_fldRel.2 (newRun_rel ((sysRel_lift hv hrN hr sw scRel_some (fun _ => rfl)
    (fun _ _ h => h) (fun h => absurd h hdc)).build hd.vl_pos true)
    (simdSetup hd hcN (hookOK_noHook (lift_noHook sw) p.dims mN))
    (simdSetup hd hc (hookOK_noHook hn p.dims m)) (entries_fldRel.1 h0) stp
    (liftSched_rel (ρ := fun o r => o = some r) (fun _ => rfl) sched)
    heN he fun st m' hca => ⟨fun v k v0 v1 k0 k1 => ?_, (hw st m' hca).2⟩)
  have := (hw st m' hca).1 v k v0 v1 k0 k1
  rw [← fn_hvert] at this
  exact this

end

end Props
end
end Omega
