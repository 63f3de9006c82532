import Verif.Refine.FloatScale
import Verif.Props.RestFloat
import Verif.Props.RoundedStep
import Verif.Props.Simd
import Verif.Props.Symmetry

/-!
# C102, C103: units and time reversal in floating-point arithmetic

C88 and C89 are about exact arithmetic.  Here the arithmetic only satisfies `ScaleLaws` for a group of factors.
-/

set_option linter.unusedVariables false
set_option linter.unusedSectionVars false

namespace Omega
noncomputable section
namespace Props

open Prog Model Refine

section

variable {G R : Type} [AddCommGroup G] [Scalar R] {sc : G → R → R → Prop} {p : MeshParams}

/-- Meshes built with distances `dc` and `dc'`. -/
theorem meshSc_of_hex (hρ : ScaleLaws sc) (hv : MeshParams.Valid p) {L : G} {dc dc' : R} {m m' : Mem R}
    (hm : IsHexMesh p dc m) (hm' : IsHexMesh p dc' m') (hdc : sc L dc dc')
    (hmax : sc L (maxS (dc * Scalar.sqrt (lit 3) / lit 3) (quarter * dc))
      (maxS (dc' * Scalar.sqrt (lit 3) / lit 3) (quarter * dc'))) :
    MeshSc sc L p.dims m.mesh m'.mesh := by
  have n6 : ∀ c, 0 ≤ c → c < p.dims.ncells → m.mesh.neoc c = 6 := fun c h0 h1 => hm.neoc c ⟨h0, h1⟩
  have n10 : ∀ e, 0 ≤ e → e < p.dims.nedges → m.mesh.neoe e = 10 := fun e h0 h1 => hm.neoe e h0 h1
  have eqv : ∀ {x y z : R}, x = z → y = z → sc 0 x y := fun h h' => by rw [h, h']; exact hρ.refl _
  have area : ∀ n : Int, sc (L + L) (dc * dc * Scalar.sqrt (lit 3) / lit n) (dc' * dc' * Scalar.sqrt (lit 3) / lit n) :=
    fun n => hρ.cast (hρ.div (hρ.mulC (hρ.mul hdc hdc) _) (hρ.refl (lit n))) (by abel)
  have dv : sc L (dc * Scalar.sqrt (lit 3) / lit 3) (dc' * Scalar.sqrt (lit 3) / lit 3) :=
    hρ.cast (hρ.div (hρ.mulC hdc _) (hρ.refl (lit 3))) (by abel)
  constructor
  · exact fun c h0 h1 => (hm'.neoc c ⟨h0, h1⟩).trans (hm.neoc c ⟨h0, h1⟩).symm
  · exact fun c h0 h1 j j0 j1 => (hm'.eoc c ⟨h0, h1⟩ j j0 (n6 c h0 h1 ▸ j1)).trans
      (hm.eoc c ⟨h0, h1⟩ j j0 (n6 c h0 h1 ▸ j1)).symm
  · exact fun e h0 h1 s s0 s1 => (hm'.coe e h0 h1 s s0 s1).trans (hm.coe e h0 h1 s s0 s1).symm
  · exact fun e h0 h1 s s0 s1 => (hm'.voe e h0 h1 s s0 s1).trans (hm.voe e h0 h1 s s0 s1).symm
  · exact fun e h0 h1 s s0 s1 => (hm'.eov e h0 h1 s s0 s1).trans (hm.eov e h0 h1 s s0 s1).symm
  · exact fun e h0 h1 s s0 s1 => (hm'.cov e h0 h1 s s0 s1).trans (hm.cov e h0 h1 s s0 s1).symm
  · exact fun e h0 h1 => (hm'.neoe e h0 h1).trans (hm.neoe e h0 h1).symm
  · exact fun e h0 h1 j j0 j1 => (hm'.eoe e h0 h1 j j0 (n10 e h0 h1 ▸ j1)).trans
      (hm.eoe e h0 h1 j j0 (n10 e h0 h1 ▸ j1)).symm
  · intro c h0 h1
    show sc _ (m.real .area_cell 0 c 0) (m'.real .area_cell 0 c 0)
    rw [hm.area_cell c ⟨h0, h1⟩, hm'.area_cell c ⟨h0, h1⟩]
    exact area 2
  · intro c h0 h1
    show sc _ (m.real .area_triangle 0 c 0) (m'.real .area_triangle 0 c 0)
    rw [hm.area_triangle c h0 h1, hm'.area_triangle c h0 h1]
    exact area 4
  · intro c h0 h1
    show sc _ (m.real .dv_edge 0 c 0) (m'.real .dv_edge 0 c 0)
    rw [hm.dv_edge c h0 h1, hm'.dv_edge c h0 h1]
    exact dv
  · intro c h0 h1
    show sc _ (m.real .dc_edge 0 c 0) (m'.real .dc_edge 0 c 0)
    rw [hm.dc_edge c h0 h1, hm'.dc_edge c h0 h1]
    exact hdc
  · intro c h0 h1
    show sc _ (maxS (m.real .dv_edge 0 c 0) (quarter * m.real .dc_edge 0 c 0))
      (maxS (m'.real .dv_edge 0 c 0) (quarter * m'.real .dc_edge 0 c 0))
    rw [hm.dv_edge c h0 h1, hm'.dv_edge c h0 h1, hm.dc_edge c h0 h1, hm'.dc_edge c h0 h1]
    exact hmax
  · intro c h0 h1 j j0 j1
    rw [n6 c h0 h1] at j1
    exact eqv (hm.sign_cell c ⟨h0, h1⟩ j j0 j1) (hm'.sign_cell c ⟨h0, h1⟩ j j0 j1)
  · exact fun v h0 h1 s s0 s1 => eqv (hm.sign_vertex v h0 h1 s s0 s1) (hm'.sign_vertex v h0 h1 s s0 s1)
  · intro v h0 h1 s s0 s1
    show sc _ (m.real .kiteareas_on_vertex 0 v s) (m'.real .kiteareas_on_vertex 0 v s)
    rw [hm.kitearea v h0 h1 s s0 s1, hm'.kitearea v h0 h1 s s0 s1]
    exact area 12
  · intro e h0 h1 j j0 j1
    rw [n10 e h0 h1] at j1
    exact eqv (hm.woe e h0 h1 j j0 j1) (hm'.woe e h0 h1 j j0 j1)
  · exact fun e h0 h1 k k0 k1 => eqv (hm.mask e h0 h1 k k0 k1) (hm'.mask e h0 h1 k k0 k1)
  · exact fun e h0 h1 => eqv (hm.del2 e h0 h1) (hm'.del2 e h0 h1)
  · exact fun e h0 h1 => eqv (hm.del4 e h0 h1) (hm'.del4 e h0 h1)

/-- The state in `m'` is the state in `m` times factors: `A` for the thickness, `B` for the velocity, `C l` for
tracer `l`. -/
def Factored (sc : G → R → R → Prop) (A B : G) (C : Int → G) (d : Dims) (s : StateId) (m m' : Mem R) : Prop :=
  (∀ c k, 0 ≤ c → c < d.ncells → 0 ≤ k → k < d.nlayers → sc A (m.real (.h_cell s) 0 c k) (m'.real (.h_cell s) 0 c k)) ∧
  (∀ e k, 0 ≤ e → e < d.nedges → 0 ≤ k → k < d.nlayers → sc B (m.real (.vn_edge s) 0 e k) (m'.real (.vn_edge s) 0 e k)) ∧
  (∀ l c k, 0 ≤ l → l < d.ntracers → 0 ≤ c → c < d.ncells → 0 ≤ k → k < d.nlayers →
    sc (C l) (m.real (.tr_cell s) l c k) (m'.real (.tr_cell s) l c k))

/-- In any arithmetic that commutes with a group of factors, in the default and in the explicit-SIMD build: when lengths
(the distance between cells), times, thicknesses and tracers are given with factors `L`, `T`, `H`, `Q l`, and every
parameter with the factor its dimension asks for, the result of a run of any stepper, for any number and size of steps,
has these factors and no other difference. -/
theorem C102_scaled_run (hρ : ScaleLaws sc) (hv : RunValid p) {L T H : G} {Q : Int → G} {dc dc' : R} {prm prm' : Params R}
    {m m' m1 m1' : Mem R} (hr : Ready p dc prm m) (hr' : Ready p dc' prm' m') (hdc : sc L dc dc')
    (hmax : sc L (maxS (dc * Scalar.sqrt (lit 3) / lit 3) (quarter * dc))
      (maxS (dc' * Scalar.sqrt (lit 3) / lit 3) (quarter * dc')))
    (hf : sc (-T) prm.f0 prm'.f0) {sw sw' : SWModel R} (hn : sw.NoHook) (hn' : sw'.NoHook)
    (hsw : SwSc sc L T H sw sw') {K : Kernels R}
    (hK : K = defaultKernels p.dims.vl ∨ K = simdKernels p.dims.vl p.dims.vl) {stp : Stepper}
    {sched sched' : List (R × R)} (hd : List.Forall₂ (fun x y => sc T x.2 y.2) sched sched') {split split' : Bool}
    (h : Factored sc H (L - T) Q p.dims .state m m')
    (he : Exec p.dims (stp.ctor p.dims ++ stp.run p.dims ⟨K, split⟩ sw sched) m m1)
    (he' : Exec p.dims (stp.ctor p.dims ++ stp.run p.dims ⟨K, split'⟩ sw' sched') m' m1') :
    Factored sc H (L - T) Q p.dims .state m1 m1' := by
  obtain ⟨hd1, hc⟩ := ready_ok hv hr
  obtain ⟨-, hc'⟩ := ready_ok hv hr'
  have X := hr.hex hv.toValid
  have X' := hr'.hex hv.toValid
  have hM := meshSc_of_hex hρ hv.toValid X.1 X'.1 hdc hmax
  have hF : GOn sc (-T) p.dims.nvertices (m.sl .f_vertex 0 0) (m'.sl .f_vertex 0 0) := fun v h0 h1 => by
    show sc _ (m.real .f_vertex 0 v 0) (m'.real .f_vertex 0 v 0)
    rw [X.2.1 v h0 h1, X'.2.1 v h0 h1]
    exact hf
  have key : ∀ {S S' : Sys R}, SysSc sc L T H p.dims S S' → S.sw = sw → S'.sw = sw' → Setup p.dims K S m →
      Setup p.dims K S' m' → Factored sc H (L - T) Q p.dims .state m1 m1' := by
    intro S S' hS e e' s s'
    rw [← e] at he
    rw [← e'] at he'
    obtain ⟨-, -, v⟩ := s.newRun he
    obtain ⟨-, -, v'⟩ := s'.newRun he'
    have r := (run_g hS stp hd (Q := Q) (q := (zeroFld, m.fld .state)) (q' := (zeroFld, m'.fld .state))
      ⟨zeroFld_g hS _ _ _, ⟨h.1, h.2.1, h.2.2⟩⟩).2
    refine ⟨fun c k c0 c1 k0 k1 => ?_, fun c k c0 c1 k0 k1 => ?_, fun l c k l0 l1 c0 c1 k0 k1 => ?_⟩
    · have a := v.h c k c0 c1 k0 k1
      have b := v'.h c k c0 c1 k0 k1
      show sc H ((m1.fld .state).h c k) ((m1'.fld .state).h c k)
      rw [a, b]
      exact r.h c k c0 c1 k0 k1
    · have a := v.vn c k c0 c1 k0 k1
      have b := v'.vn c k c0 c1 k0 k1
      show sc (L - T) ((m1.fld .state).vn c k) ((m1'.fld .state).vn c k)
      rw [a, b]
      exact r.vn c k c0 c1 k0 k1
    · have a := v.tr l c k l0 l1 c0 c1 k0 k1
      have b := v'.tr l c k l0 l1 c0 c1 k0 k1
      show sc (Q l) ((m1.fld .state).tr l c k) ((m1'.fld .state).tr l c k)
      rw [a, b]
      exact r.tr l c k l0 l1 c0 c1 k0 k1
  have hvl : 0 < p.dims.vl := hd1.vl_pos
  rcases hK with rfl | rfl
  · exact key (S := genSys p.dims sw noHook m) (S' := genSys p.dims sw' noHook m')
      ⟨hρ, hvl, .inl ⟨rfl, rfl⟩, rfl, rfl, hM, hc.mesh, hF, hsw⟩ rfl rfl
      (genSetup hd1 hc (hookOK_noHook hn p.dims m)) (genSetup hd1 hc' (hookOK_noHook hn' p.dims m'))
  · exact key (S := simdSys p.dims sw noHook m) (S' := simdSys p.dims sw' noHook m')
      ⟨hρ, hvl, .inr ⟨rfl, rfl, rfl⟩, rfl, rfl, hM, hc.mesh, hF, hsw⟩ rfl rfl
      (simdSetup hd1 hc (hookOK_noHook hn p.dims m)) (simdSetup hd1 hc' (hookOK_noHook hn' p.dims m'))

end

/-! ### C102: units that are powers of two -/

section

variable {b : ℕ} {fma : Bool} {p : MeshParams}

/-- the same numbers, in arithmetic with traps -/
def _root_.Omega.Model.Params.trap (prm : Params (Ieee b fma)) : Params (Trap b fma) :=
  ⟨⟨prm.f0⟩, ⟨prm.grav⟩, ⟨prm.visc_del2⟩, ⟨prm.visc_del4⟩, ⟨prm.eddy_diff2⟩, ⟨prm.eddy_diff4⟩, prm.disable_h, prm.disable_vn⟩

/-- the same steps, in arithmetic with traps -/
def trapSched (sched : List (Ieee b fma × Ieee b fma)) : List (Trap b fma × Trap b fma) :=
  sched.map fun q => (⟨q.1⟩, ⟨q.2⟩)

/-- the states in `n` and `m` satisfy a relation entry by entry -/
def EntriesF {A B : Type} (d : Dims) (ρ : A → B → Prop) (x : Fld A) (y : Fld B) : Prop :=
  (∀ c k, 0 ≤ c → c < d.ncells → 0 ≤ k → k < d.nlayers → ρ (x.h c k) (y.h c k)) ∧
  (∀ e k, 0 ≤ e → e < d.nedges → 0 ≤ k → k < d.nlayers → ρ (x.vn e k) (y.vn e k)) ∧
  (∀ l c k, 0 ≤ l → l < d.ntracers → 0 ≤ c → c < d.ncells → 0 ≤ k → k < d.nlayers → ρ (x.tr l c k) (y.tr l c k))

theorem check_eq {z : ℝ} {r : Ieee b fma} (h : (Trap.check z r).Ok) : (Trap.check z r).num = r := by
  rw [(check_ok h).2.1]

theorem map₂_ok {f : ℝ × ℝ → ℝ × ℝ → Ieee b fma} {x y : Trap b fma} {z : ℝ}
    (h : (Trap.check z (Ieee.map₂ f x.num y.num)).Ok) : x.Ok ∧ y.Ok := by
  obtain ⟨h1, h2, -⟩ := map₂_some (check_ok h).2.2
  exact ⟨by unfold Trap.Ok; rw [h1]; simp, by unfold Trap.Ok; rw [h2]; simp⟩

/-- Without a trap, a number is that of the arithmetic without traps. -/
def Agrees (x : Trap b fma) (y : Ieee b fma) : Prop := x.Ok → x.num = y

theorem scRel_trap : ScRel (Agrees (b := b) (fma := fma)) (fun _ => True) where
  nz _ _ := trivial
  lit _ _ := rfl
  add {x x' y y'} hx hy o := by
    have e := check_eq o
    obtain ⟨a, c⟩ := map₂_ok (f := fun p q => Ieee.ofReal' (p.2 + q.1)) o
    exact e.trans (by rw [hx a, hy c])
  sub {x x' y y'} hx hy o := by
    have e := check_eq o
    obtain ⟨a, c⟩ := map₂_ok (f := fun p q => Ieee.ofReal' (p.1 - q.2)) o
    exact e.trans (by rw [hx a, hy c])
  mul {x x' y y'} hx hy o := by
    have e := check_eq o
    obtain ⟨a, c⟩ := map₂_ok (f := fun p q => Ieee.ofReal (p.1 * q.1)) o
    exact e.trans (by rw [hx a, hy c])
  div {x x' y y'} hx hy _ o := by
    have e := check_eq o
    obtain ⟨a, c⟩ := map₂_ok (f := fun p q => @ite _ (q.1 = 0) (Classical.propDecidable _) ⟨none⟩ (Ieee.ofReal' (p.1 / q.1))) o
    exact e.trans (by rw [hx a, hy c])

theorem lt_bad {x y : Ieee b fma} (h : x.out = none) : Scalar.lt x y = false := by
  obtain ⟨x⟩ := x
  have h : x = none := h
  subst h
  rfl

/-- the maximum of two numbers, the second of which is no trap -/
theorem max_agrees {x y : Trap b fma} {x' y' : Ieee b fma} (hx : Agrees x x') (hy : Agrees y y') (o : y.Ok) :
    Agrees (maxS x y) (maxS x' y') := by
  intro om
  by_cases c : x.num.out = none
  · have l : Scalar.lt x y = false := lt_bad c
    have e : maxS x y = x := by unfold maxS; rw [l]; simp
    rw [e] at om
    exact absurd c om
  · have ex := hx c
    have ey := hy o
    show (if Scalar.lt x.num y.num = true then y else x).num = if Scalar.lt x' y' = true then y' else x'
    rw [ex, ey]
    split_ifs
    · exact ey
    · exact ex

theorem lt_ldexp (k : ℤ) (x y : Ieee b fma) : Scalar.lt (x.ldexp k) (y.ldexp k) = Scalar.lt x y := by
  obtain ⟨x⟩ := x
  obtain ⟨y⟩ := y
  cases x <;> cases y <;> try rfl
  rename_i p q
  show @decide (2 ^ k * p.1 < 2 ^ k * q.1) (Classical.propDecidable _) = @decide (p.1 < q.1) (Classical.propDecidable _)
  have h2 : (0 : ℝ) < 2 ^ k := by positivity
  rw [Bool.eq_iff_iff, @decide_eq_true_iff _ (Classical.propDecidable _), @decide_eq_true_iff _ (Classical.propDecidable _)]
  exact mul_lt_mul_iff_right₀ h2

theorem ldexp_lit0 (k : ℤ) : (lit 0 : Ieee b fma).ldexp k = lit 0 := by
  rw [ieee_lit0]; simp [Ieee.num, Ieee.ldexp, Ieee.times]

theorem on_ldexp (k : ℤ) (x : Ieee b fma) : Scalar.lt (lit 0) (x.ldexp k) = Scalar.lt (lit 0) x := by
  have := lt_ldexp k (lit 0) x
  rwa [ldexp_lit0] at this

theorem max_pow2 {k : ℤ} {x y x' y' : Trap b fma} (hx : Pow2 k x x') (hy : Pow2 k y y') (o : y.Ok) (o' : y'.Ok) :
    Pow2 k (maxS x y) (maxS x' y') := by
  intro om om'
  have l : ∀ {u v : Trap b fma}, (maxS u v).Ok → u.Ok := fun {u v} h c => by
    have l : Scalar.lt u v = false := lt_bad c
    have e : maxS u v = u := by unfold maxS; rw [l]; simp
    rw [e] at h
    exact h c
  have ex := hx (l om) (l om')
  have ey := hy o o'
  show (if Scalar.lt x'.num y'.num = true then y' else x').num = (if Scalar.lt x.num y.num = true then y else x).num.ldexp k
  rw [ex, ey, lt_ldexp]
  split_ifs
  · exact ey
  · exact ex

theorem trapSched_agrees (sched : List (Ieee b fma × Ieee b fma)) :
    List.Forall₂ (fun x y => Agrees x.1 y.1 ∧ Agrees x.2 y.2) (trapSched sched) sched := by
  induction sched with
  | nil => exact .nil
  | cons q L ih => exact .cons ⟨fun _ => rfl, fun _ => rfl⟩ ih

/-- The same run with and without traps, from the same numbers: where the run with traps has a result it is the result
of the run without.  In the default (`simd = false`) and in the explicit-SIMD build. -/
theorem C102_traps (hv : RunValid p) {dc : Ieee b fma} {prm : Params (Ieee b fma)} {n n1 : Mem (Trap b fma)}
    {m m1 : Mem (Ieee b fma)} (hn : Ready p ⟨dc⟩ prm.trap n) (hr : Ready p dc prm m)
    (hq : (quarter * (⟨dc⟩ : Trap b fma)).Ok) {stp : Stepper} {sched : List (Ieee b fma × Ieee b fma)} {split split' simd : Bool}
    (h : EntriesF p.dims (fun x y => x.num = y) (n.fld .state) (m.fld .state))
    (he : Exec p.dims (stp.ctor p.dims ++ stp.run p.dims ⟨buildK simd p.dims.vl, split⟩ (SWModel.ofParams prm.trap)
      (trapSched sched)) n n1)
    (he' : Exec p.dims (stp.ctor p.dims ++ stp.run p.dims ⟨buildK simd p.dims.vl, split'⟩ (SWModel.ofParams prm) sched)
      m m1) :
    EntriesF p.dims (fun x y => x.Ok → x.num = y) (n1.fld .state) (m1.fld .state) := by
  obtain ⟨hd, hc⟩ := ready_ok hv hr
  obtain ⟨-, hcN⟩ := ready_ok hv hn
  have sq : Agrees (Scalar.sqrt (lit 3) : Trap b fma) (Scalar.sqrt (lit 3)) := fun o => check_eq o
  have hdc : Agrees (⟨dc⟩ : Trap b fma) dc := fun _ => rfl
  have sys : SysRel Agrees (fun _ => True) Ren.id p.dims (genSys p.dims (SWModel.ofParams prm.trap) noHook n)
      (genSys p.dims (SWModel.ofParams prm) noHook m) := by
    refine ⟨scRel_trap, ⟨fun i h0 h1 => ⟨h0, h1⟩, fun i h0 h1 => ⟨h0, h1⟩⟩, 
      .inl ⟨rfl, rfl⟩, ?_, hc.mesh, ?_, fun _ => rfl,
      fun _ => rfl, fun _ => rfl, fun _ => rfl, fun _ => rfl, rfl, rfl, rfl, rfl, rfl, rfl, rfl, rfl, rfl, rfl, rfl,
      fun _ _ _ _ _ _ _ _ _ _ _ h => h, fun _ _ _ _ _ _ _ _ _ _ _ h => h⟩
    · refine hexMesh_rel (hn.hex hv.toValid).1 (hr.hex hv.toValid).1 scRel_trap ?_ sq hdc ?_ trivial trivial
        (fun _ _ => trivial) (fun _ _ => trivial) trivial
      · intro x x' hx o
        have ox : x.Ok := fun c => o (by
          show ((-x.num : Ieee b fma)).out = none
          show x.num.out.map _ = none
          rw [c]; rfl)
        show -x.num = -x'
        rw [hx ox]
      · exact max_agrees (scRel_trap.div (scRel_trap.mul hdc sq) (scRel_trap.lit 3) trivial)
          (scRel_trap.mul scRel_trap.quarter hdc) hq
    · intro v v0 v1
      show Agrees (n.real .f_vertex 0 v 0) (m.real .f_vertex 0 v 0)
      rw [(hn.hex hv.toValid).2.1 v v0 v1, (hr.hex hv.toValid).2.1 v v0 v1]
      exact fun _ => rfl
  have h0 : FldRel Agrees Ren.id p.dims (n.fld .state) (m.fld .state) :=
    ⟨fun c k a b e f _ => h.1 c k a b e f, fun c k a b e f _ => h.2.1 c k a b e f,
      fun l c k i j a b e f _ => h.2.2 l c k i j a b e f⟩
  have r : FldRel Agrees Ren.id p.dims (n1.fld .state) (m1.fld .state) := by
    cases simd with
    | false =>
      exact newRun_rel sys (genSetup hd hcN (hookOK_noHook (noHook_ofParams prm.trap) p.dims n))
        (genSetup hd hc (hookOK_noHook (noHook_ofParams prm) p.dims m)) h0 stp (trapSched_agrees sched) he he'
        fun _ _ _ => ⟨fun _ _ _ _ _ _ => trivial, fun _ _ _ _ _ _ _ => trivial⟩
    | true =>
      exact newRun_rel (sys.build hd.vl_pos true)
        (simdSetup hd hcN (hookOK_noHook (noHook_ofParams prm.trap) p.dims n))
        (simdSetup hd hc (hookOK_noHook (noHook_ofParams prm) p.dims m)) h0 stp (trapSched_agrees sched) he he'
        fun _ _ _ => ⟨fun _ _ _ _ _ _ => trivial, fun _ _ _ _ _ _ _ => trivial⟩
  exact ⟨r.h, r.vn, r.tr⟩

/-- the parameters `prm'` are `prm` in units of length, time and thickness that are `2 ^ L`, `2 ^ T` and `2 ^ H` times
smaller -/
structure Params2 (L T H : ℤ) (prm prm' : Params (Ieee b fma)) : Prop where
  f0 : prm'.f0 = prm.f0.ldexp (-T)
  grav : prm'.grav = prm.grav.ldexp (2 * L - 2 * T - H)
  visc2 : prm'.visc_del2 = prm.visc_del2.ldexp (2 * L - T)
  visc4 : prm'.visc_del4 = prm.visc_del4.ldexp (4 * L - T)
  eddy2 : prm'.eddy_diff2 = prm.eddy_diff2.ldexp (2 * L - T)
  eddy4 : prm'.eddy_diff4 = prm.eddy_diff4.ldexp (4 * L - T)
  dis_h : prm'.disable_h = prm.disable_h
  dis_vn : prm'.disable_vn = prm.disable_vn

theorem Params2.swSc {L T H : ℤ} {prm prm' : Params (Ieee b fma)} (h : Params2 L T H prm prm') :
    SwSc Pow2 L T H (SWModel.ofParams prm.trap) (SWModel.ofParams prm'.trap) where
  grav _ _ := by rw [show L + L - T - T - H = 2 * L - 2 * T - H by ring]; exact h.grav
  visc2 _ _ _ := by rw [show L + L - T = 2 * L - T by ring]; exact h.visc2
  visc4 _ _ _ := by rw [show L + L + L + L - T = 4 * L - T by ring]; exact h.visc4
  eddy2 _ _ _ := by rw [show L + L - T = 2 * L - T by ring]; exact h.eddy2
  eddy4 _ _ _ := by rw [show L + L + L + L - T = 4 * L - T by ring]; exact h.eddy4
  dis_h := h.dis_h
  dis_vn := h.dis_vn
  en_hadv := rfl
  en_pv := rfl
  en_ke := rfl
  en_ssh := rfl
  en_vdiff := by show Scalar.lt (lit 0) prm'.visc_del2 = Scalar.lt (lit 0) prm.visc_del2; rw [h.visc2, on_ldexp]
  en_vhyper := by show Scalar.lt (lit 0) prm'.visc_del4 = Scalar.lt (lit 0) prm.visc_del4; rw [h.visc4, on_ldexp]
  en_thadv := rfl
  en_tdiff := by show Scalar.lt (lit 0) prm'.eddy_diff2 = Scalar.lt (lit 0) prm.eddy_diff2; rw [h.eddy2, on_ldexp]
  en_thyper := by show Scalar.lt (lit 0) prm'.eddy_diff4 = Scalar.lt (lit 0) prm.eddy_diff4; rw [h.eddy4, on_ldexp]

/-- In arithmetic with traps, in the default and in the explicit-SIMD build: a run in units that differ by powers of two
gives, wherever no run trapped, the same numbers up to these powers of two, without any rounding difference. -/
theorem C102_units_trap (hv : RunValid p) {L T H : ℤ} {Q : Int → ℤ} {dc : Ieee b fma} {prm prm' : Params (Ieee b fma)}
    (hp : Params2 L T H prm prm') {n n' n1 n1' : Mem (Trap b fma)} (hn : Ready p ⟨dc⟩ prm.trap n)
    (hn' : Ready p ⟨dc.ldexp L⟩ prm'.trap n') (hq : (quarter * (⟨dc⟩ : Trap b fma)).Ok)
    (hq' : (quarter * (⟨dc.ldexp L⟩ : Trap b fma)).Ok) {K : Kernels (Trap b fma)}
    (hK : K = defaultKernels p.dims.vl ∨ K = simdKernels p.dims.vl p.dims.vl) {stp : Stepper}
    {sched sched' : List (Ieee b fma × Ieee b fma)} (hd : List.Forall₂ (fun x y => y.2 = x.2.ldexp T) sched sched')
    {split split' : Bool} (h : Factored Pow2 H (L - T) Q p.dims .state n n')
    (he : Exec p.dims (stp.ctor p.dims ++ stp.run p.dims ⟨K, split⟩ (SWModel.ofParams prm.trap) (trapSched sched)) n n1)
    (he' : Exec p.dims (stp.ctor p.dims ++ stp.run p.dims ⟨K, split'⟩ (SWModel.ofParams prm'.trap) (trapSched sched')) n' n1') :
    Factored Pow2 H (L - T) Q p.dims .state n1 n1' := by
  have hdc : Pow2 L (⟨dc⟩ : Trap b fma) ⟨dc.ldexp L⟩ := fun _ _ => rfl
  have law := scaleLaws_pow2 (b := b) (fma := fma)
  refine C102_scaled_run law hv hn hn' hdc (max_pow2 (law.cast (law.div (law.mulC hdc _) (law.refl (lit 3))) (by abel))
    (law.Cmul hdc _) hq hq') (fun _ _ => hp.f0) (noHook_ofParams _) (noHook_ofParams _) hp.swSc hK ?_ h he he'
  clear he he'
  induction hd with
  | nil => exact .nil
  | cons h _ ih => exact .cons (fun _ _ => h) ih

/-- Units that are powers of two change no digit.  Two runs of the default or of the explicit-SIMD build in binary floating-point arithmetic,
with or without fused multiply-add, from the same state in units of length, time, thickness and tracer content that
differ by powers of two: the results are the same numbers in the other units, bit for bit, wherever neither run would
have trapped for underflow or overflow. -/
theorem C102_units_float (hv : RunValid p) {L T H : ℤ} {Q : Int → ℤ} {dc : Ieee b fma} {prm prm' : Params (Ieee b fma)}
    (hp : Params2 L T H prm prm') {m m' m1 m1' : Mem (Ieee b fma)} {n n' n1 n1' : Mem (Trap b fma)}
    (hr : Ready p dc prm m) (hr' : Ready p (dc.ldexp L) prm' m') (hn : Ready p ⟨dc⟩ prm.trap n)
    (hn' : Ready p ⟨dc.ldexp L⟩ prm'.trap n') (hq : (quarter * (⟨dc⟩ : Trap b fma)).Ok)
    (hq' : (quarter * (⟨dc.ldexp L⟩ : Trap b fma)).Ok) {stp : Stepper}
    {sched sched' : List (Ieee b fma × Ieee b fma)} (hd : List.Forall₂ (fun x y => y.2 = x.2.ldexp T) sched sched')
    {split simd : Bool} (h : Factored (fun k x y => y = x.ldexp k) H (L - T) Q p.dims .state m m')
    (h0 : EntriesF p.dims (fun x y => x.num = y) (n.fld .state) (m.fld .state))
    (h0' : EntriesF p.dims (fun x y => x.num = y) (n'.fld .state) (m'.fld .state))
    (he : Exec p.dims (stp.ctor p.dims ++ stp.run p.dims ⟨buildK simd p.dims.vl, split⟩ (SWModel.ofParams prm) sched) m m1)
    (he' : Exec p.dims (stp.ctor p.dims ++ stp.run p.dims ⟨buildK simd p.dims.vl, split⟩ (SWModel.ofParams prm') sched')
      m' m1')
    (hx : Exec p.dims (stp.ctor p.dims ++ stp.run p.dims ⟨buildK simd p.dims.vl, split⟩ (SWModel.ofParams prm.trap)
      (trapSched sched)) n n1)
    (hx' : Exec p.dims (stp.ctor p.dims ++ stp.run p.dims ⟨buildK simd p.dims.vl, split⟩ (SWModel.ofParams prm'.trap)
      (trapSched sched')) n' n1') :
    (∀ c k, 0 ≤ c → c < p.dims.ncells → 0 ≤ k → k < p.dims.nlayers → (n1.real (.h_cell .state) 0 c k).Ok →
      (n1'.real (.h_cell .state) 0 c k).Ok →
      m1'.real (.h_cell .state) 0 c k = (m1.real (.h_cell .state) 0 c k).ldexp H) ∧
    (∀ e k, 0 ≤ e → e < p.dims.nedges → 0 ≤ k → k < p.dims.nlayers → (n1.real (.vn_edge .state) 0 e k).Ok →
      (n1'.real (.vn_edge .state) 0 e k).Ok →
      m1'.real (.vn_edge .state) 0 e k = (m1.real (.vn_edge .state) 0 e k).ldexp (L - T)) ∧
    (∀ l c k, 0 ≤ l → l < p.dims.ntracers → 0 ≤ c → c < p.dims.ncells → 0 ≤ k → k < p.dims.nlayers →
      (n1.real (.tr_cell .state) l c k).Ok → (n1'.real (.tr_cell .state) l c k).Ok →
      m1'.real (.tr_cell .state) l c k = (m1.real (.tr_cell .state) l c k).ldexp (Q l)) := by
  have a := C102_traps hv hn hr hq h0 hx he
  have a' := C102_traps hv hn' hr' hq' h0' hx' he'
  have hs : Factored Pow2 H (L - T) Q p.dims .state n n' :=
    ⟨fun c k c0 c1 k0 k1 _ _ => (h0'.1 c k c0 c1 k0 k1).trans ((h.1 c k c0 c1 k0 k1).trans
      (congrArg _ (h0.1 c k c0 c1 k0 k1).symm)),
    fun c k c0 c1 k0 k1 _ _ => (h0'.2.1 c k c0 c1 k0 k1).trans ((h.2.1 c k c0 c1 k0 k1).trans
      (congrArg _ (h0.2.1 c k c0 c1 k0 k1).symm)),
    fun l c k l0 l1 c0 c1 k0 k1 _ _ => (h0'.2.2 l c k l0 l1 c0 c1 k0 k1).trans ((h.2.2 l c k l0 l1 c0 c1 k0 k1).trans
      (congrArg _ (h0.2.2 l c k l0 l1 c0 c1 k0 k1).symm))⟩
  have r := C102_units_trap hv hp hn hn' hq hq' (by cases simd; exacts [.inl rfl, .inr rfl]) hd hs hx hx'
  refine ⟨fun c k c0 c1 k0 k1 o o' => ?_, fun c k c0 c1 k0 k1 o o' => ?_, fun l c k l0 l1 c0 c1 k0 k1 o o' => ?_⟩
  · exact (a'.1 c k c0 c1 k0 k1 o').symm.trans ((r.1 c k c0 c1 k0 k1 o o').trans (congrArg _ (a.1 c k c0 c1 k0 k1 o)))
  · exact (a'.2.1 c k c0 c1 k0 k1 o').symm.trans ((r.2.1 c k c0 c1 k0 k1 o o').trans (congrArg _ (a.2.1 c k c0 c1 k0 k1 o)))
  · exact (a'.2.2 l c k l0 l1 c0 c1 k0 k1 o').symm.trans ((r.2.2 l c k l0 l1 c0 c1 k0 k1 o o').trans
      (congrArg _ (a.2.2 l c k l0 l1 c0 c1 k0 k1 o)))

/-! ### C103: time reversal and the sign of tracers -/

theorem ieee_neg (x : Ieee b fma) : -x = x.times (-1) := by
  obtain ⟨x⟩ := x
  show (⟨x.map _⟩ : Ieee b fma) = ⟨x.map _⟩
  cases x <;> simp

/-- Without viscosity and diffusion a run of the default or of the explicit-SIMD build in binary floating-point arithmetic
can be mirrored in time, bit for bit: with the velocity and the rotation reversed and the steps `-dt`, any stepper gives
after any number of steps exactly the thickness and the tracers of the run forward and exactly the opposite velocity.
Overflow, underflow and invalid operations are included. -/
theorem C103_time_reversal_float (hv : RunValid p) {dc : Ieee b fma} {prm : Params (Ieee b fma)}
    (n2 : Scalar.lt (lit 0) prm.visc_del2 = false) (n4 : Scalar.lt (lit 0) prm.visc_del4 = false)
    (k2 : Scalar.lt (lit 0) prm.eddy_diff2 = false) (k4 : Scalar.lt (lit 0) prm.eddy_diff4 = false)
    {m m' m1 m1' : Mem (Ieee b fma)} (hr : Ready p dc prm m) (hr' : Ready p dc { prm with f0 := -prm.f0 } m')
    {K : Kernels (Ieee b fma)} (hK : K = defaultKernels p.dims.vl ∨ K = simdKernels p.dims.vl p.dims.vl) {stp : Stepper}
    {sched sched' : List (Ieee b fma × Ieee b fma)} (hd : List.Forall₂ (fun x y => y.2 = -x.2) sched sched')
    {split split' : Bool}
    (hh : ∀ c k, 0 ≤ c → c < p.dims.ncells → 0 ≤ k → k < p.dims.nlayers →
      m'.real (.h_cell .state) 0 c k = m.real (.h_cell .state) 0 c k)
    (hu : ∀ e k, 0 ≤ e → e < p.dims.nedges → 0 ≤ k → k < p.dims.nlayers →
      m'.real (.vn_edge .state) 0 e k = -m.real (.vn_edge .state) 0 e k)
    (ht : ∀ l c k, 0 ≤ l → l < p.dims.ntracers → 0 ≤ c → c < p.dims.ncells → 0 ≤ k → k < p.dims.nlayers →
      m'.real (.tr_cell .state) l c k = m.real (.tr_cell .state) l c k)
    (he : Exec p.dims (stp.ctor p.dims ++ stp.run p.dims ⟨K, split⟩ (SWModel.ofParams prm) sched) m m1)
    (he' : Exec p.dims (stp.ctor p.dims ++ stp.run p.dims ⟨K, split'⟩ (SWModel.ofParams { prm with f0 := -prm.f0 }) sched')
      m' m1') :
    (∀ c k, 0 ≤ c → c < p.dims.ncells → 0 ≤ k → k < p.dims.nlayers →
      m1'.real (.h_cell .state) 0 c k = m1.real (.h_cell .state) 0 c k) ∧
    (∀ e k, 0 ≤ e → e < p.dims.nedges → 0 ≤ k → k < p.dims.nlayers →
      m1'.real (.vn_edge .state) 0 e k = -m1.real (.vn_edge .state) 0 e k) ∧
    (∀ l c k, 0 ≤ l → l < p.dims.ntracers → 0 ≤ c → c < p.dims.ncells → 0 ≤ k → k < p.dims.nlayers →
      m1'.real (.tr_cell .state) l c k = m1.real (.tr_cell .state) l c k) := by
  have law := scaleLaws_sgn (b := b) (fma := fma)
  obtain ⟨τ, hτ⟩ : ∃ τ : Additive ℤˣ, τ = Additive.ofMul (-1) := ⟨_, rfl⟩
  have sτ : sgn τ = -1 := by rw [hτ]; simp [sgn]
  have s0 : sgn (0 - τ) = -1 := by rw [sgn_sub, sgn_zero, sτ, one_mul]
  have sn : sgn (-τ) = -1 := by rw [← zero_sub]; exact s0
  have one : ∀ x : Ieee b fma, x.times (sgn 0) = x := fun x => (law.refl x).symm
  have sw : SwSc (fun (g : Additive ℤˣ) (x y : Ieee b fma) => y = x.times (sgn g)) 0 τ 0 (SWModel.ofParams prm)
      (SWModel.ofParams { prm with f0 := -prm.f0 }) := by
    refine ⟨?_, fun c => absurd (n2.symm.trans c) (by decide), fun c => absurd (n4.symm.trans c) (by decide),
      fun c => absurd (k2.symm.trans c) (by decide), fun c => absurd (k4.symm.trans c) (by decide), rfl, rfl, rfl, rfl,
      rfl, rfl, rfl, rfl, rfl, rfl, rfl⟩
    have e : (0 + 0 - τ - τ - 0 : Additive ℤˣ) = 0 := by
      rw [sub_zero, add_zero, hτ]; rfl
    rw [e]
    exact law.refl _
  have X := C102_scaled_run (L := 0) (T := τ) (H := 0) (Q := fun _ => 0) law hv hr hr' (law.refl dc) (law.refl _)
    (by beta_reduce; rw [sn]; exact ieee_neg _) (noHook_ofParams _) (noHook_ofParams _) sw hK
    (hd.imp fun x y h => by beta_reduce; rw [sτ, h]; exact ieee_neg _)
    ⟨fun c k c0 c1 k0 k1 => (hh c k c0 c1 k0 k1).trans (one _).symm,
      fun c k c0 c1 k0 k1 => by beta_reduce; rw [s0]; exact (hu c k c0 c1 k0 k1).trans (ieee_neg _),
      fun l c k l0 l1 c0 c1 k0 k1 => (ht l c k l0 l1 c0 c1 k0 k1).trans (one _).symm⟩ he he'
  refine ⟨fun c k c0 c1 k0 k1 => (X.1 c k c0 c1 k0 k1).trans (one _), fun c k c0 c1 k0 k1 => ?_,
    fun l c k l0 l1 c0 c1 k0 k1 => (X.2.2 l c k l0 l1 c0 c1 k0 k1).trans (one _)⟩
  have := X.2.1 c k c0 c1 k0 k1
  beta_reduce at this; rw [s0] at this
  exact this.trans (ieee_neg _).symm

/-- The sign of a tracer does not matter, bit for bit: with the opposite initial values of any of the tracers, any run
(viscous or not, in either build) gives exactly the same flow and exactly the opposite values of these tracers. -/
theorem C103_tracer_sign_float (hv : RunValid p) {dc : Ieee b fma} {prm : Params (Ieee b fma)}
    {m m' m1 m1' : Mem (Ieee b fma)} (hr : Ready p dc prm m) (hr' : Ready p dc prm m') {N : Int → Prop}
    {K : Kernels (Ieee b fma)} (hK : K = defaultKernels p.dims.vl ∨ K = simdKernels p.dims.vl p.dims.vl) {stp : Stepper}
    {sched : List (Ieee b fma × Ieee b fma)} {split split' : Bool}
    (hh : ∀ c k, 0 ≤ c → c < p.dims.ncells → 0 ≤ k → k < p.dims.nlayers →
      m'.real (.h_cell .state) 0 c k = m.real (.h_cell .state) 0 c k)
    (hu : ∀ e k, 0 ≤ e → e < p.dims.nedges → 0 ≤ k → k < p.dims.nlayers →
      m'.real (.vn_edge .state) 0 e k = m.real (.vn_edge .state) 0 e k)
    (ht : ∀ l c k, 0 ≤ l → l < p.dims.ntracers → 0 ≤ c → c < p.dims.ncells → 0 ≤ k → k < p.dims.nlayers →
      (N l → m'.real (.tr_cell .state) l c k = -m.real (.tr_cell .state) l c k) ∧
      (¬ N l → m'.real (.tr_cell .state) l c k = m.real (.tr_cell .state) l c k))
    (he : Exec p.dims (stp.ctor p.dims ++ stp.run p.dims ⟨K, split⟩ (SWModel.ofParams prm) sched) m m1)
    (he' : Exec p.dims (stp.ctor p.dims ++ stp.run p.dims ⟨K, split'⟩ (SWModel.ofParams prm) sched) m' m1') :
    (∀ c k, 0 ≤ c → c < p.dims.ncells → 0 ≤ k → k < p.dims.nlayers →
      m1'.real (.h_cell .state) 0 c k = m1.real (.h_cell .state) 0 c k) ∧
    (∀ e k, 0 ≤ e → e < p.dims.nedges → 0 ≤ k → k < p.dims.nlayers →
      m1'.real (.vn_edge .state) 0 e k = m1.real (.vn_edge .state) 0 e k) ∧
    (∀ l c k, 0 ≤ l → l < p.dims.ntracers → 0 ≤ c → c < p.dims.ncells → 0 ≤ k → k < p.dims.nlayers →
      (N l → m1'.real (.tr_cell .state) l c k = -m1.real (.tr_cell .state) l c k) ∧
      (¬ N l → m1'.real (.tr_cell .state) l c k = m1.real (.tr_cell .state) l c k)) := by
  classical
  have law := scaleLaws_sgn (b := b) (fma := fma)
  have one : ∀ x : Ieee b fma, x.times (sgn 0) = x := fun x => (law.refl x).symm
  have z : (0 - 0 : Additive ℤˣ) = 0 := sub_zero 0
  have sw : SwSc (fun (g : Additive ℤˣ) (x y : Ieee b fma) => y = x.times (sgn g)) 0 0 0 (SWModel.ofParams prm)
      (SWModel.ofParams prm) := by
    have e2 : (0 + 0 - 0 : Additive ℤˣ) = 0 := by simp
    have e4 : (0 + 0 + 0 + 0 - 0 : Additive ℤˣ) = 0 := by simp
    have eg : (0 + 0 - 0 - 0 - 0 : Additive ℤˣ) = 0 := by simp
    refine ⟨?_, fun _ => ?_, fun _ => ?_, fun _ => ?_, fun _ => ?_, rfl, rfl, rfl, rfl,
      rfl, rfl, rfl, rfl, rfl, rfl, rfl⟩
    · rw [eg]; exact law.refl _
    · rw [e2]; exact law.refl _
    · rw [e4]; exact law.refl _
    · rw [e2]; exact law.refl _
    · rw [e4]; exact law.refl _
  have sm : sgn (Additive.ofMul (-1 : ℤˣ)) = -1 := by simp [sgn]
  have X := C102_scaled_run (L := 0) (T := 0) (H := 0) (Q := fun l => if N l then Additive.ofMul (-1 : ℤˣ) else 0) law hv hr hr'
    (law.refl dc) (law.refl _) (by rw [neg_zero]; exact law.refl _) (noHook_ofParams _) (noHook_ofParams _) sw hK
    (sched := sched) (sched' := sched) (List.forall₂_same.2 fun x _ => law.refl _)
    ⟨fun c k c0 c1 k0 k1 => (hh c k c0 c1 k0 k1).trans (one _).symm,
      fun c k c0 c1 k0 k1 => by rw [z]; exact (hu c k c0 c1 k0 k1).trans (one _).symm,
      fun l c k l0 l1 c0 c1 k0 k1 => by
        by_cases hN : N l
        · beta_reduce; rw [if_pos hN, sm]; exact ((ht l c k l0 l1 c0 c1 k0 k1).1 hN).trans (ieee_neg _)
        · beta_reduce; rw [if_neg hN]; exact ((ht l c k l0 l1 c0 c1 k0 k1).2 hN).trans (one _).symm⟩ he he'
  refine ⟨fun c k c0 c1 k0 k1 => (X.1 c k c0 c1 k0 k1).trans (one _), fun c k c0 c1 k0 k1 => ?_,
    fun l c k l0 l1 c0 c1 k0 k1 => ?_⟩
  · have := X.2.1 c k c0 c1 k0 k1
    rw [z] at this
    exact this.trans (one _)
  · have := X.2.2 l c k l0 l1 c0 c1 k0 k1
    refine ⟨fun hN => ?_, fun hN => ?_⟩
    · beta_reduce at this; rw [if_pos hN, sm] at this
      exact this.trans (ieee_neg _).symm
    · beta_reduce at this; rw [if_neg hN] at this
      exact this.trans (one _)

/-! ### Non-vacuity -/

/-- A run backwards: any initial state and rotation, three steps of any size, in double precision. -/
example (fma simd : Bool) (f0 g dt : Ieee 0 fma) (x : Fld (Ieee 0 fma)) :
    ∃ m m' m1 m1' : Mem (Ieee 0 fma), Ready p46t (lit 2) ⟨f0, g, lit 0, lit 0, lit 0, lit 0, false, false⟩ m ∧
      Ready p46t (lit 2) ⟨-f0, g, lit 0, lit 0, lit 0, lit 0, false, false⟩ m' ∧ m.fld .state = x ∧
      Exec p46t.dims (Stepper.rk4.ctor p46t.dims ++ Stepper.rk4.run p46t.dims
        ⟨if simd then simdKernels p46t.dims.vl p46t.dims.vl else defaultKernels p46t.dims.vl, true⟩
        (SWModel.ofParams ⟨f0, g, lit 0, lit 0, lit 0, lit 0, false, false⟩) (List.replicate 3 (lit 0, dt))) m m1 ∧
      Exec p46t.dims (Stepper.rk4.ctor p46t.dims ++ Stepper.rk4.run p46t.dims
        ⟨if simd then simdKernels p46t.dims.vl p46t.dims.vl else defaultKernels p46t.dims.vl, true⟩
        (SWModel.ofParams ⟨-f0, g, lit 0, lit 0, lit 0, lit 0, false, false⟩) (List.replicate 3 (lit 0, -dt))) m' m1' ∧
      ∀ e k, 0 ≤ e → e < p46t.dims.nedges → 0 ≤ k → k < p46t.dims.nlayers →
        m1'.real (.vn_edge .state) 0 e k = -m1.real (.vn_edge .state) 0 e k := by
  obtain ⟨prm, hp⟩ : ∃ q : Params (Ieee 0 fma), q = ⟨f0, g, lit 0, lit 0, lit 0, lit 0, false, false⟩ := ⟨_, rfl⟩
  have hp' : (⟨-f0, g, lit 0, lit 0, lit 0, lit 0, false, false⟩ : Params (Ieee 0 fma)) = { prm with f0 := -prm.f0 } := by rw [hp]
  rw [← hp, hp']
  obtain ⟨m, hr, hx, -⟩ := exists_ready p46t_run.toValid (lit 2) prm x zeroFld
  obtain ⟨m', hr', hy, -⟩ := exists_ready p46t_run.toValid (lit 2) { prm with f0 := -prm.f0 }
    ⟨x.h, fun c k => -x.vn c k, x.tr⟩ zeroFld
  have hex : ∀ {q : Params (Ieee 0 fma)} {w : Mem (Ieee 0 fma)} (_ : Ready p46t (lit 2) q w) (L : List (Ieee 0 fma × Ieee 0 fma)),
      ∃ m1, Exec p46t.dims (Stepper.rk4.ctor p46t.dims ++ Stepper.rk4.run p46t.dims
        ⟨if simd then simdKernels p46t.dims.vl p46t.dims.vl else defaultKernels p46t.dims.vl, true⟩
        (SWModel.ofParams q) L) w m1 := by
    intro q w hw L
    obtain ⟨hd, hc⟩ := ready_ok p46t_run hw
    cases simd
    · obtain ⟨m1, he, -⟩ := ((C40_safe_deterministic hd hc (noHook_ofParams q) true).2.2 .rk4 L).2
      exact ⟨m1, he⟩
    · obtain ⟨m1, h⟩ := (C54_simd_safe_deterministic hd hc (noHook_ofParams q)).2 .rk4 L
      exact ⟨m1, ((h true).2 m1).2 rfl⟩
  obtain ⟨m1, he⟩ := hex hr (List.replicate 3 (lit 0, dt))
  obtain ⟨m1', he'⟩ := hex hr' (List.replicate 3 (lit 0, -dt))
  have off : Scalar.lt (lit 0) (lit 0 : Ieee 0 fma) = false := by
    rw [ieee_lit0]
    show @decide ((0 : ℝ) < 0) (Classical.propDecidable _) = false
    simp
  have oh := congrArg Fld.h hx
  have ov := congrArg Fld.vn hx
  have ot := congrArg Fld.tr hx
  have yh := congrArg Fld.h hy
  have yv := congrArg Fld.vn hy
  have yt := congrArg Fld.tr hy
  refine ⟨m, m', m1, m1', hr, hr', hx, he, he', (C103_time_reversal_float p46t_run (by rw [hp]; exact off)
    (by rw [hp]; exact off) (by rw [hp]; exact off) (by rw [hp]; exact off) hr hr' (by cases simd <;> simp)
    (.cons rfl (.cons rfl (.cons rfl .nil))) ?_ ?_ ?_ he he').2.1⟩
  · exact fun c k _ _ _ _ => (congrFun (congrFun yh c) k).trans (congrFun (congrFun oh c) k).symm
  · exact fun c k _ _ _ _ => (congrFun (congrFun yv c) k).trans (congrArg (- ·) (congrFun (congrFun ov c) k).symm)
  · exact fun l c k _ _ _ _ _ _ => (congrFun (congrFun (congrFun yt l) c) k).trans (congrFun (congrFun (congrFun ot l) c) k).symm

/-- The opposite tracer 1 and the same tracer 0, with viscosity and diffusion. -/
example (fma : Bool) (prm : Params (Ieee 0 fma)) (dt : Ieee 0 fma) (x : Fld (Ieee 0 fma)) :
    ∃ m m' m1 m1' : Mem (Ieee 0 fma), Ready p46t (lit 2) prm m ∧ Ready p46t (lit 2) prm m' ∧ m.fld .state = x ∧
      m'.fld .state = ⟨x.h, x.vn, fun l c k => if l = 1 then -x.tr l c k else x.tr l c k⟩ ∧
      Exec p46t.dims ((Stepper.lsrk 4).ctor p46t.dims ++ (Stepper.lsrk 4).run p46t.dims
        ⟨defaultKernels p46t.dims.vl, true⟩ (SWModel.ofParams prm) (List.replicate 3 (lit 0, dt))) m m1 ∧
      Exec p46t.dims ((Stepper.lsrk 4).ctor p46t.dims ++ (Stepper.lsrk 4).run p46t.dims
        ⟨defaultKernels p46t.dims.vl, true⟩ (SWModel.ofParams prm) (List.replicate 3 (lit 0, dt))) m' m1' ∧
      ∀ c k, 0 ≤ c → c < p46t.dims.ncells → 0 ≤ k → k < p46t.dims.nlayers → (1 : Int) < p46t.dims.ntracers →
        m1'.real (.tr_cell .state) 1 c k = -m1.real (.tr_cell .state) 1 c k := by
  obtain ⟨m, hr, hx, -⟩ := exists_ready p46t_run.toValid (lit 2) prm x zeroFld
  obtain ⟨m', hr', hy, -⟩ := exists_ready p46t_run.toValid (lit 2) prm
    ⟨x.h, x.vn, fun l c k => if l = 1 then -x.tr l c k else x.tr l c k⟩ zeroFld
  obtain ⟨hd, hc⟩ := ready_ok p46t_run hr
  obtain ⟨hd', hc'⟩ := ready_ok p46t_run hr'
  obtain ⟨m1, he, -⟩ := ((C40_safe_deterministic hd hc (noHook_ofParams prm) true).2.2 (.lsrk 4)
    (List.replicate 3 (lit 0, dt))).2
  obtain ⟨m1', he', -⟩ := ((C40_safe_deterministic hd' hc' (noHook_ofParams prm) true).2.2 (.lsrk 4)
    (List.replicate 3 (lit 0, dt))).2
  have oh := congrArg Fld.h hx
  have ov := congrArg Fld.vn hx
  have ot := congrArg Fld.tr hx
  have yh := congrArg Fld.h hy
  have yv := congrArg Fld.vn hy
  have yt := congrArg Fld.tr hy
  refine ⟨m, m', m1, m1', hr, hr', hx, hy, he, he', fun c k c0 c1 k0 k1 l1 => ((C103_tracer_sign_float (N := fun l => l = 1)
    p46t_run hr hr' (.inl rfl) ?_ ?_ ?_ he he').2.2 1 c k (by norm_num) l1 c0 c1 k0 k1).1 rfl⟩
  · exact fun c k _ _ _ _ => (congrFun (congrFun yh c) k).trans (congrFun (congrFun oh c) k).symm
  · exact fun c k _ _ _ _ => (congrFun (congrFun yv c) k).trans (congrFun (congrFun ov c) k).symm
  · intro l c k _ _ _ _ _ _
    have a : m'.real (.tr_cell .state) l c k = if l = 1 then -x.tr l c k else x.tr l c k := congrFun (congrFun (congrFun yt l) c) k
    have b : m.real (.tr_cell .state) l c k = x.tr l c k := congrFun (congrFun (congrFun ot l) c) k
    exact ⟨fun h => by rw [a, b, if_pos h], fun h => by rw [a, b, if_neg h]⟩

/-- a number of moderate size, no trap -/
def Mid (r : ℝ) (x : Trap b fma) : Prop := x.Ok ∧ 2⁻¹ * r ≤ x.num.val ∧ x.num.val ≤ 2 * r

theorem normal_mid {x : ℝ} (h : 1 / 1024 ≤ x) : NormalRange x := .inr (by
  have e : (2 : ℝ) ^ (-1022 : ℤ) ≤ 2 ^ (-10 : ℤ) := zpow_le_zpow_right₀ (by norm_num) (by norm_num)
  have e' : (2 : ℝ) ^ (-10 : ℤ) = 1 / 1024 := by norm_num
  rw [abs_of_pos (by linarith)]
  exact e.trans (e'.le.trans h))

theorem rnd_mid {x : ℝ} (h : 1 / 1024 ≤ x) : 3 / 4 * x ≤ rndIeee b x ∧ rndIeee b x ≤ 5 / 4 * x := by
  have e := rndIeee_err b x
  rw [abs_of_pos (by linarith : 0 < x), abs_le] at e
  have p : prec b ≤ 1 / 2 ^ 13 := by
    have : (2⁻¹ : ℝ) ^ (53 + b) ≤ 2⁻¹ ^ 13 := pow_le_pow_of_le_one (by norm_num) (by norm_num) (by omega)
    unfold prec
    linarith [show (2⁻¹ : ℝ) ^ 13 = 1 / 2 ^ 13 by norm_num]
  have q : prec b * (1 + x) ≤ 1 / 2 ^ 13 * (1 + x) := mul_le_mul_of_nonneg_right p (by linarith)
  norm_num at q
  constructor <;> linarith

theorem of_mid {x : ℝ} (h : 1 / 1024 ≤ x) (h' : x ≤ 8) :
    (Ieee.ofReal x : Ieee b fma).out ≠ none ∧ (Ieee.ofReal x : Ieee b fma).val = rndIeee b x ∧
    (Ieee.ofReal' x : Ieee b fma).out ≠ none ∧ (Ieee.ofReal' x : Ieee b fma).val = rndIeee b x := by
  have hh : |x| ≤ huge b / 2 := by
    rw [abs_of_pos (by linarith)]
    have := huge_ge b
    linarith
  have a := Ieee.ofReal_fin (b := b) (fma := fma) hh
  have c := Ieee.ofReal'_fin (b := b) (fma := fma) hh
  exact ⟨by rw [a.1.out]; simp, a.2, by rw [c.1.out]; simp, c.2⟩

/-- fractions of small integers -/
theorem mid_frac {i j : ℤ} (i0 : 1 ≤ i) (i1 : i ≤ 4) (j0 : 1 ≤ j) (j1 : j ≤ 8) :
    Mid ((i : ℝ) / j) (lit i / lit j : Trap b fma) := by
  have i0' : (1 : ℝ) ≤ i := by exact_mod_cast i0
  have i1' : (i : ℝ) ≤ 4 := by exact_mod_cast i1
  have j0' : (1 : ℝ) ≤ j := by exact_mod_cast j0
  have j1' : (j : ℝ) ≤ 8 := by exact_mod_cast j1
  have q0 : (1 : ℝ) / 8 ≤ i / j := div_le_div₀ (by linarith) i0' (by linarith) j1'
  have q1 : (i : ℝ) / j ≤ 4 := (div_le_self (by linarith) j0').trans i1'
  have ei : (lit i : Ieee b fma) = Ieee.num b fma i := IeeeRest.lit_num (by rw [abs_of_pos (by omega)]; omega)
  have ej : (lit j : Ieee b fma) = Ieee.num b fma j := IeeeRest.lit_num (by rw [abs_of_pos (by omega)]; omega)
  have e : (lit i / lit j : Trap b fma) = ⟨Ieee.ofReal' ((i : ℝ) / j)⟩ := by
    show Trap.check ((lit i : Ieee b fma).val / (lit j : Ieee b fma).val) (lit i / lit j) = _
    rw [ei, ej]
    refine (check_of (x := (i : ℝ) / j) (normal_mid (by linarith)) _).trans ?_
    show (⟨@ite _ ((j : ℝ) = 0) (Classical.propDecidable _) _ _⟩ : Trap b fma) = _
    rw [if_neg (by linarith)]
  rw [e]
  obtain ⟨-, -, o, v⟩ := of_mid (b := b) (fma := fma) (x := (i : ℝ) / j) (by linarith) (by linarith)
  obtain ⟨r1, r2⟩ := rnd_mid (b := b) (x := (i : ℝ) / j) (by linarith)
  refine ⟨o, ?_, ?_⟩
  · show _ ≤ (Ieee.ofReal' _ : Ieee b fma).val
    rw [v]; linarith
  · show (Ieee.ofReal' _ : Ieee b fma).val ≤ _
    rw [v]; linarith

theorem ok_times {i : ℤ} (i0 : 1 ≤ i) (i1 : i ≤ 2) {r : ℝ} (h0 : 1 / 8 ≤ r) (h1 : r ≤ 1) {x : Trap b fma} (hx : Mid r x) :
    (lit i * x : Trap b fma).Ok ∧ (x * lit i : Trap b fma).Ok := by
  have i0' : (1 : ℝ) ≤ i := by exact_mod_cast i0
  have i1' : (i : ℝ) ≤ 2 := by exact_mod_cast i1
  have ei : (lit i : Ieee b fma) = Ieee.num b fma i := IeeeRest.lit_num (by rw [abs_of_pos (by omega)]; omega)
  obtain ⟨o, a, c⟩ := hx
  have eo : x.num.out = some (x.num.val, x.num.ext) := by
    obtain ⟨⟨x⟩⟩ := x
    cases x with
    | none => exact absurd rfl o
    | some q => rfl
  have lo : (1 : ℝ) / 16 ≤ i * x.num.val := by nlinarith
  have hi : (i : ℝ) * x.num.val ≤ 4 := by nlinarith
  obtain ⟨o1, -⟩ := of_mid (b := b) (fma := fma) (x := (i : ℝ) * x.num.val) (by linarith) (by linarith)
  have n := normal_mid (x := (i : ℝ) * x.num.val) (by linarith)
  constructor
  · show (Trap.check ((lit i : Ieee b fma).val * x.num.val) (lit i * x.num)).Ok
    rw [ei]
    rw [check_of (show NormalRange ((Ieee.num b fma i).val * x.num.val) from n)]
    show (Ieee.map₂ _ (Ieee.num b fma i) x.num).out ≠ none
    unfold Ieee.map₂
    rw [eo]
    exact o1
  · show (Trap.check (x.num.val * (lit i : Ieee b fma).val) (x.num * lit i)).Ok
    rw [ei]
    rw [check_of (show NormalRange (x.num.val * (Ieee.num b fma i).val) by rw [mul_comm]; exact n)]
    show (Ieee.map₂ _ x.num (Ieee.num b fma i)).out ≠ none
    unfold Ieee.map₂
    rw [eo]
    show (Ieee.ofReal (x.num.val * i) : Ieee b fma).out ≠ none
    rw [mul_comm]
    exact o1

theorem trap_mul_zero {x : Trap b fma} (h : x.Ok) : x * lit 0 = lit 0 := by
  have e : (x.num * lit 0 : Ieee b fma) = lit 0 := by
    refine IeeeRest.zeroLaws.mul_zero ?_
    obtain ⟨⟨x⟩⟩ := x
    cases x with
    | none => exact absurd rfl h
    | some q =>
      show (Ieee.map₂ _ _ (lit 0 : Ieee b fma)).out ≠ none
      rw [ieee_lit0]
      show (Ieee.ofReal (q.1 * 0) : Ieee b fma).out ≠ none
      rw [mul_zero, IeeeRest.of0]
      simp [Ieee.num]
  show Trap.check (x.num.val * (lit 0 : Ieee b fma).val) (x.num * lit 0) = _
  rw [e, ieee_lit0]
  rw [check_of (show NormalRange (x.num.val * (Ieee.num b fma 0).val) from .inl (mul_zero _)), ← ieee_lit0]
  rfl

theorem trap_add_zero {i : ℤ} (i0 : 1 ≤ i) (i1 : i ≤ 1000) : (lit i + lit 0 : Trap b fma) = lit i := by
  have ei : (lit i : Ieee b fma) = Ieee.num b fma i := IeeeRest.lit_num (by rw [abs_of_pos (by omega)]; omega)
  have i0' : (1 : ℝ) ≤ i := by exact_mod_cast i0
  have e : (lit i + lit 0 : Ieee b fma) = lit i :=
    (IeeeRest.stored_lit (by rw [abs_of_pos (by omega)]; omega)).1
  show Trap.check ((lit i : Ieee b fma).ext + (lit 0 : Ieee b fma).val) (lit i + lit 0) = _
  rw [e, ei, ieee_lit0, check_of (show NormalRange ((Ieee.num b fma i).ext + (Ieee.num b fma 0).val) by
    show NormalRange ((i : ℝ) + 0)
    rw [add_zero]; exact normal_mid (by linarith)), ← ei]
  rfl

theorem ldexp_lit {k i j : ℤ} (h : (2 : ℝ) ^ k * i = j) (hi : |i| < 2 ^ 53) (hj : |j| < 2 ^ 53) :
    (lit i : Ieee b fma).ldexp k = lit j := by
  rw [IeeeRest.lit_num hi, IeeeRest.lit_num hj, ← h]; rfl

/-- a step of a model whose tendencies are switched off traps nowhere -/
theorem still_run {n n1 : Mem (Trap b fma)} {dc : Trap b fma} {prm : Params (Trap b fma)} (hn : Ready p46t dc prm n)
    (d1 : prm.disable_h = true) (d2 : prm.disable_vn = true) {i h u : ℤ} (i0 : 1 ≤ i) (i1 : i ≤ 2) (h0 : 1 ≤ h)
    (h1 : h ≤ 1000) (u0 : 1 ≤ u) (u1 : u ≤ 1000) {split : Bool} {t : Trap b fma}
    (eh : ∀ c k, (n.fld .state).h c k = lit h) (eu : ∀ c k, (n.fld .state).vn c k = lit u)
    (he : Exec p46t.dims (Stepper.rk4.ctor p46t.dims ++ Stepper.rk4.run p46t.dims ⟨defaultKernels p46t.dims.vl, split⟩
      (SWModel.ofParams prm) [(t, lit i)]) n n1) :
    EntriesF p46t.dims (fun x (_ : Trap b fma) => x.Ok) ⟨(n1.fld .state).h, (n1.fld .state).vn, fun _ _ _ => lit 1⟩
      (n1.fld .state) := by
  obtain ⟨hd, hc⟩ := ready_ok p46t_run hn
  obtain ⟨-, -, v⟩ := (genSetup hd hc (hookOK_noHook (noHook_ofParams prm) p46t.dims n)).newRun he
  have c6 := (ok_times (b := b) (fma := fma) i0 i1 (by norm_num) (by norm_num)
    (mid_frac (i := 1) (j := 6) (by norm_num) (by norm_num) (by norm_num) (by norm_num))).1
  have c3 := (ok_times (b := b) (fma := fma) i0 i1 (by norm_num) (by norm_num)
    (mid_frac (i := 1) (j := 3) (by norm_num) (by norm_num) (by norm_num) (by norm_num))).1
  have a6 : ∀ {z : ℤ}, 1 ≤ z → z ≤ 1000 → (lit z : Trap b fma) + lit i * (lit 1 / lit 6) * lit 0 = lit z := fun z0 z1 => by
    rw [trap_mul_zero c6, trap_add_zero z0 z1]
  have a3 : ∀ {z : ℤ}, 1 ≤ z → z ≤ 1000 → (lit z : Trap b fma) + lit i * (lit 1 / lit 3) * lit 0 = lit z := fun z0 z1 => by
    rw [trap_mul_zero c3, trap_add_zero z0 z1]
  have ok : ∀ z : ℤ, 1 ≤ z → z ≤ 1000 → (lit z : Trap b fma).Ok := fun z z0 z1 => by
    show (lit z : Ieee b fma).out ≠ none
    rw [IeeeRest.lit_num (by rw [abs_of_pos (by omega)]; omega)]
    simp [Ieee.num]
  have e1 : (SWModel.ofParams prm).prm.disable_h = true := d1
  have e2 : (SWModel.ofParams prm).prm.disable_vn = true := d2
  refine ⟨fun c k q0 q1 k0 k1 => ?_, fun c k q0 q1 k0 k1 => ?_, fun _ _ _ _ _ _ _ _ _ => ok 1 le_rfl (by norm_num)⟩
  · have r := v.h c k q0 q1 k0 k1
    simp only [Sys.run, List.foldl, Sys.step, Sys.rk4Step, List.range, List.range.loop, Sys.rk4Stage, Fld.axpy, Fld.zip,
      Sys.tend, genSys, noHook, e1, if_true, zeroFld, eh, rk4Coef, nth, List.getD] at r
    norm_num at r
    show ((n1.fld .state).h c k).Ok
    rw [r, a6 h0 h1, a3 h0 h1, a3 h0 h1, a6 h0 h1]
    exact ok h h0 h1
  · have r := v.vn c k q0 q1 k0 k1
    simp only [Sys.run, List.foldl, Sys.step, Sys.rk4Step, List.range, List.range.loop, Sys.rk4Stage, Fld.axpy, Fld.zip,
      Sys.tend, genSys, noHook, e2, if_true, zeroFld, eu, rk4Coef, nth, List.getD] at r
    norm_num at r
    show ((n1.fld .state).vn c k).Ok
    rw [r, a6 u0 u1, a3 u0 u1, a3 u0 u1, a6 u0 u1]
    exact ok u u0 u1

/-- Lengths and thicknesses in units 2 times smaller, times in units 2 times larger.  Two layers of thickness 10 and
velocity 3 on 24 cells with spacing 1; both tendencies are switched off (as `disable_h_tendency` and
`disable_vn_tendency` allow, to move tracers with a given flow), and no run traps in the flow. -/
example (fma : Bool) : ∃ (prm prm' : Params (Ieee 0 fma)) (m m' m1 m1' : Mem (Ieee 0 fma)),
    Ready p46t (lit 1) prm m ∧ Ready p46t ((lit 1 : Ieee 0 fma).ldexp 1) prm' m' ∧ Params2 1 (-1) 1 prm prm' ∧
    Factored (fun k x y => y = Ieee.ldexp k x) 1 (1 - -1) (fun _ => 5) p46t.dims .state m m' ∧
    Exec p46t.dims (Stepper.rk4.ctor p46t.dims ++ Stepper.rk4.run p46t.dims ⟨defaultKernels p46t.dims.vl, true⟩
      (SWModel.ofParams prm) [(lit 0, lit 2)]) m m1 ∧
    Exec p46t.dims (Stepper.rk4.ctor p46t.dims ++ Stepper.rk4.run p46t.dims ⟨defaultKernels p46t.dims.vl, true⟩
      (SWModel.ofParams prm') [(lit 0, lit 1)]) m' m1' ∧
    ∀ c k, 0 ≤ c → c < p46t.dims.ncells → 0 ≤ k → k < p46t.dims.nlayers →
      m1'.real (.h_cell .state) 0 c k = (m1.real (.h_cell .state) 0 c k).ldexp 1 := by
  obtain ⟨prm, hp⟩ : ∃ q : Params (Ieee 0 fma), q = ⟨lit 1, lit 10, lit 0, lit 0, lit 3, lit 0, true, true⟩ := ⟨_, rfl⟩
  obtain ⟨prm', hp'⟩ : ∃ q : Params (Ieee 0 fma), q = ⟨prm.f0.ldexp (- -1), prm.grav.ldexp (2 * 1 - 2 * -1 - 1),
    prm.visc_del2.ldexp (2 * 1 - -1), prm.visc_del4.ldexp (4 * 1 - -1), prm.eddy_diff2.ldexp (2 * 1 - -1),
    prm.eddy_diff4.ldexp (4 * 1 - -1), prm.disable_h, prm.disable_vn⟩ := ⟨_, rfl⟩
  have P2 : Params2 1 (-1) 1 prm prm' := by subst hp'; exact ⟨rfl, rfl, rfl, rfl, rfl, rfl, rfl, rfl⟩
  have d1 : prm.disable_h = true ∧ prm.disable_vn = true := by subst hp; exact ⟨rfl, rfl⟩
  have d2 : prm'.disable_h = true ∧ prm'.disable_vn = true := by rw [P2.dis_h, P2.dis_vn]; exact d1
  obtain ⟨m, hr, hx, -⟩ := exists_ready p46t_run.toValid (lit 1) prm
    (⟨fun _ _ => lit 10, fun _ _ => lit 3, fun _ _ _ => lit 7⟩ : Fld (Ieee 0 fma)) zeroFld
  obtain ⟨m', hr', hx', -⟩ := exists_ready p46t_run.toValid ((lit 1 : Ieee 0 fma).ldexp 1) prm'
    (⟨fun _ _ => lit 20, fun _ _ => lit 12, fun _ _ _ => (lit 7 : Ieee 0 fma).ldexp 5⟩ : Fld (Ieee 0 fma)) zeroFld
  obtain ⟨n, hn, hy, -⟩ := exists_ready p46t_run.toValid (⟨lit 1⟩ : Trap 0 fma) prm.trap
    (⟨fun _ _ => lit 10, fun _ _ => lit 3, fun _ _ _ => lit 7⟩ : Fld (Trap 0 fma)) zeroFld
  obtain ⟨n', hn', hy', -⟩ := exists_ready p46t_run.toValid (⟨(lit 1 : Ieee 0 fma).ldexp 1⟩ : Trap 0 fma) prm'.trap
    (⟨fun _ _ => lit 20, fun _ _ => lit 12, fun _ _ _ => ⟨(lit 7 : Ieee 0 fma).ldexp 5⟩⟩ : Fld (Trap 0 fma)) zeroFld
  have q2 := (ok_times (b := 0) (fma := fma) (i := 2) (by norm_num) (by norm_num) (by norm_num) (by norm_num)
    (mid_frac (i := 1) (j := 4) (by norm_num) (by norm_num) (by norm_num) (by norm_num))).2
  have q1 := (ok_times (b := 0) (fma := fma) (i := 1) (by norm_num) (by norm_num) (by norm_num) (by norm_num)
    (mid_frac (i := 1) (j := 4) (by norm_num) (by norm_num) (by norm_num) (by norm_num))).2
  have ex : ∀ {R : Type} [Scalar R] {q : Params R} {dc : R} {w : Mem R} (_ : Ready p46t dc q w) (L : List (R × R)),
      ∃ m1, Exec p46t.dims (Stepper.rk4.ctor p46t.dims ++ Stepper.rk4.run p46t.dims ⟨defaultKernels p46t.dims.vl, true⟩
        (SWModel.ofParams q) L) w m1 := by
    intro R _ q dc w hw L
    obtain ⟨hd, hc⟩ := ready_ok p46t_run hw
    obtain ⟨m1, he, -⟩ := ((C40_safe_deterministic hd hc (noHook_ofParams q) true).2.2 .rk4 L).2
    exact ⟨m1, he⟩
  obtain ⟨m1, he⟩ := ex hr [(lit 0, lit 2)]
  obtain ⟨m1', he'⟩ := ex hr' [(lit 0, lit 1)]
  obtain ⟨n1, hz⟩ := ex hn (trapSched [(lit 0, lit 2)])
  obtain ⟨n1', hz'⟩ := ex hn' (trapSched [(lit 0, lit 1)])
  have F : Factored (fun k x y => y = Ieee.ldexp k x) 1 (1 - -1) (fun _ => 5) p46t.dims .state m m' := by
    refine ⟨fun c k _ _ _ _ => ?_, fun c k _ _ _ _ => ?_, fun l c k _ _ _ _ _ _ => ?_⟩
    · have a : m'.real (.h_cell .state) 0 c k = lit 20 := congrFun (congrFun (congrArg Fld.h hx') c) k
      have b : m.real (.h_cell .state) 0 c k = lit 10 := congrFun (congrFun (congrArg Fld.h hx) c) k
      show m'.real (.h_cell .state) 0 c k = (m.real (.h_cell .state) 0 c k).ldexp 1
      rw [a, b, ldexp_lit (j := 20) (by norm_num) (by norm_num) (by norm_num)]
    · have a : m'.real (.vn_edge .state) 0 c k = lit 12 := congrFun (congrFun (congrArg Fld.vn hx') c) k
      have b : m.real (.vn_edge .state) 0 c k = lit 3 := congrFun (congrFun (congrArg Fld.vn hx) c) k
      show m'.real (.vn_edge .state) 0 c k = (m.real (.vn_edge .state) 0 c k).ldexp (1 - -1)
      rw [a, b, ldexp_lit (j := 12) (by norm_num) (by norm_num) (by norm_num)]
    · have a : m'.real (.tr_cell .state) l c k = (lit 7 : Ieee 0 fma).ldexp 5 :=
        congrFun (congrFun (congrFun (congrArg Fld.tr hx') l) c) k
      have b : m.real (.tr_cell .state) l c k = lit 7 := congrFun (congrFun (congrFun (congrArg Fld.tr hx) l) c) k
      show m'.real (.tr_cell .state) l c k = (m.real (.tr_cell .state) l c k).ldexp 5
      rw [a, b]
  refine ⟨prm, prm', m, m', m1, m1', hr, hr', P2, F, he, he', fun c k c0 c1 k0 k1 => ?_⟩
  have t1 := still_run hn d1.1 d1.2 (i := 2) (h := 10) (u := 3) (by norm_num) (by norm_num) (by norm_num) (by norm_num)
    (by norm_num) (by norm_num) (by rw [hy]; intros; rfl) (by rw [hy]; intros; rfl) hz
  have t2 := still_run hn' d2.1 d2.2 (i := 1) (h := 20) (u := 12) (by norm_num) (by norm_num) (by norm_num) (by norm_num)
    (by norm_num) (by norm_num) (by rw [hy']; intros; rfl) (by rw [hy']; intros; rfl) hz'
  exact (C102_units_float (simd := false) p46t_run P2 hr hr' hn hn' q1 (by rw [ldexp_lit (j := 2) (by norm_num) (by norm_num) (by norm_num)]; exact q2)
    (.cons (by show (lit 1 : Ieee 0 fma) = (lit 2 : Ieee 0 fma).ldexp (-1)
               rw [ldexp_lit (j := 1) (by norm_num) (by norm_num) (by norm_num)]) .nil) F
    (by rw [hx, hy]; exact ⟨fun _ _ _ _ _ _ => rfl, fun _ _ _ _ _ _ => rfl, fun _ _ _ _ _ _ _ _ _ => rfl⟩)
    (by rw [hx', hy']; exact ⟨fun _ _ _ _ _ _ => rfl, fun _ _ _ _ _ _ => rfl, fun _ _ _ _ _ _ _ _ _ => rfl⟩)
    he he' hz hz').1 c k c0 c1 k0 k1 (t1.1 c k c0 c1 k0 k1) (t2.1 c k c0 c1 k0 k1)

end

end Props
end
end Omega
